import Verif.Fnv
import Verif.PropsFeed
/-
The 64 bit hash function that comes with the tuple hasher (/repo/src/tuple_hasher.c:16-23): what it tells apart.
`fnv` is `fnv_64_update`; `fnvInit` is the state it starts from.
-/
namespace TS
namespace Props

open Dti

/-- `FNV_64_TUPLE_HASHER`, /repo/inc/tuplestore/tuple_hasher.h:22: the state before the first byte. -/
def fnvInit : UInt64 := 0xcbf29ce484222325

/-- C90. The same bytes never bring two different states of the hash function together, and never separate equal ones. -/
theorem C90_state (h g : UInt64) (b : Bytes) : hashBytes fnv h b = hashBytes fnv g b ↔ h = g :=
  ⟨fnv_run_state b, fun e => by rw [e]⟩

example : hashBytes fnv fnvInit [1, 2, 3] ≠ hashBytes fnv 0 [1, 2, 3] := by decide +kernel

/-- C90. Two inputs of the hash function that differ only within six consecutive bytes have different hashes: from every state, and
whatever comes before and after these bytes. -/
theorem C90_window (h : UInt64) (p q : Bytes) {a b : Bytes} (hl : a.length = b.length) (h6 : a.length ≤ 6) :
    hashBytes fnv h (p ++ a ++ q) = hashBytes fnv h (p ++ b ++ q) ↔ a = b := by
  refine ⟨fun e => ?_, fun e => by rw [e]⟩
  simp only [hashBytes_append] at e
  exact fnv_short hl h6 (fnv_run_state _ e)

example : hashBytes fnv fnvInit ([5] ++ [33, 94, 39, 88, 169, 21] ++ [2, 2]) ≠
    hashBytes fnv fnvInit ([5] ++ [206, 148, 65, 153, 5, 27] ++ [2, 2]) := by decide +kernel

/-- C90. Six is the best number in `C90_window`: from the state that the hash function starts from, there are two sequences of seven bytes
with the same hash, and with any bytes after them they keep it. -/
theorem C90_seven (q : Bytes) : hashBytes fnv fnvInit ([33, 94, 39, 88, 169, 21, 2] ++ q) = hashBytes fnv fnvInit ([206, 148, 65, 153, 5, 27, 228] ++ q) := by
  have e : hashBytes fnv fnvInit [33, 94, 39, 88, 169, 21, 2] = hashBytes fnv fnvInit [206, 148, 65, 153, 5, 27, 228] := by decide +kernel
  rw [hashBytes_append, hashBytes_append, e]

theorem hashBytes_cat (a b : Bytes) : hashBytes cat a b = a ++ b := by
  unfold hashBytes
  induction b generalizing a with
  | nil => simp
  | cons x b ih => rw [List.foldl_cons, ih]; simp [cat]

/-- The value of an element that is there and not NULL. -/
theorem live_elem {d t : Dti} {m : Bytes} {S : Nat} {val : Val} {pa : List Nat} {dt : Datum} (hd : TyOk d) (hS : S ≤ m.length)
    (he : Enc d (m.take S) val) (ht : d.typeAt pa = some t) (hg : d.getElem m pa = some (some dt)) (hn : dt ≠ .null) :
    ∃ y, val.at' pa = some y ∧ Live t y := by
  have g := getElem_ok pa hd hS he
  unfold GetOk at g
  cases ha : val.at' pa with
  | none => rw [ha] at g; simp only [hg] at g; cases g
  | some y =>
    rw [ha] at g
    refine ⟨y, rfl, held_at pa hd (.inr (.inr ⟨_, he⟩)) ha ht, ?_⟩
    rintro rfl
    rcases g with ⟨_, g⟩ | ⟨t', dt', g1, g2, g3⟩
    · rw [hg] at g; cases g; exact hn rfl
    · rw [hg] at g2; cases g2; exact hn g3

/-- C90. Two tuples are hashed, by `FNV_64_TUPLE_HASHER` or from any other state, over some positions. Assume that at all but one of
these positions the same bytes are hashed for both, and that the element at the one position is NULL in neither, contains nothing that
is NULL or of variable size, and is hashed by at most six bytes (a number of at most six bytes, for example). Then the hashes are equal
exactly if the bytes hashed for this element are, and if they are equal, then every getter inside of the element gives the same for both. -/
theorem C90_tuple {d t : Dti} (hu : Usable d) {m1 m2 : Bytes} {S1 S2 : Nat} (h1 : IsTuple d m1 S1) (h2 : IsTuple d m2 S2)
    {ps qs : List (List Nat)} {pa : List Nat} (ht : d.typeAt pa = some t) (hr : Rigid t)
    {a b : Datum} (g1 : d.getElem m1 pa = some (some a)) (n1 : a ≠ .null) (g2 : d.getElem m2 pa = some (some b)) (n2 : b ≠ .null)
    (other : ∀ p ∈ ps ++ qs, hashElem cat [] m1 d p = hashElem cat [] m2 d p)
    {x : Bytes} (short : hashElem cat [] m1 d pa = some x) (h6 : x.length ≤ 6) (h : UInt64) :
    (hashTuple fnv m1 d (ps ++ pa :: qs) h = hashTuple fnv m2 d (ps ++ pa :: qs) h ↔ hashElem cat [] m2 d pa = some x) ∧
    (hashTuple fnv m1 d (ps ++ pa :: qs) h = hashTuple fnv m2 d (ps ++ pa :: qs) h →
      ∀ p, Same (d.getElem m1 (pa ++ p)) (d.getElem m2 (pa ++ p))) := by
  obtain ⟨l1, v1, e1⟩ := h1
  obtain ⟨l2, v2, e2⟩ := h2
  obtain ⟨y, hy, ly⟩ := live_elem hu.ok l1 e1 ht g1 n1
  obtain ⟨z, hz, lz⟩ := live_elem hu.ok l2 e2 ht g2 n2
  obtain ⟨fl, fi⟩ := feed_inj (typeAt_ok pa hu.ok ht).1 hr ly lz
  have p1 : posFeed d v1 pa = feed t y := by simp [posFeed, ht, hy]
  have p2 : posFeed d v2 pa = feed t z := by simp [posFeed, ht, hz]
  have oth : ∀ l : List (List Nat), (∀ p ∈ l, p ∈ ps ++ qs) → l.flatMap (posFeed d v1) = l.flatMap (posFeed d v2) := by
    intro l hl
    simp only [List.flatMap_def]
    congr 1
    refine List.map_congr_left fun p hp => ?_
    have := other p (hl p hp)
    rw [hashElem_feed hu.ok l1 e1, hashElem_feed hu.ok l2 e2, hashBytes_cat, hashBytes_cat] at this
    simpa using this
  rw [hashElem_feed hu.ok l1 e1, hashBytes_cat, p1] at short
  simp only [List.nil_append, Option.some.injEq] at short
  have key : hashTuple fnv m1 d (ps ++ pa :: qs) h = hashTuple fnv m2 d (ps ++ pa :: qs) h ↔ feed t y = feed t z := by
    rw [hashTuple_feed hu.ok l1 e1, hashTuple_feed hu.ok l2 e2]
    simp only [List.flatMap_append, List.flatMap_cons, p1, p2, oth ps (fun p hp => by simp [hp]), oth qs (fun p hp => by simp [hp]),
      Option.some.injEq, ← List.append_assoc]
    exact C90_window h _ _ fl (by rw [short]; exact h6)
  refine ⟨?_, fun e p => ?_⟩
  · rw [key, hashElem_feed hu.ok l2 e2, hashBytes_cat, p2, ← short]
    simp [eq_comm]
  · have := fi (key.mp e)
    subst this
    exact getElem_same hu.ok hu.ok l1 e1 l2 e2 rfl (by rw [at_append' _ _ _ hy, at_append' _ _ _ hz])

example : Usable exTwo16 ∧ IsTuple exTwo16 [7, 0, 3, 0] 4 ∧ IsTuple exTwo16 [7, 1, 3, 0] 4 ∧ exTwo16.typeAt [0] = some (.prim .uint { isFinal := true, size := 2 }) ∧
    exTwo16.getElem [7, 0, 3, 0] [0] = some (some (.uint 7)) ∧ exTwo16.getElem [7, 1, 3, 0] [0] = some (some (.uint 263)) ∧
    (∀ p ∈ [[1]] ++ [[1]], hashElem cat [] [7, 0, 3, 0] exTwo16 p = hashElem cat [] [7, 1, 3, 0] exTwo16 p) ∧
    hashElem cat [] [7, 0, 3, 0] exTwo16 [0] = some [7, 0] ∧
    hashTuple fnv [7, 0, 3, 0] exTwo16 ([[1]] ++ [0] :: [[1]]) fnvInit ≠ hashTuple fnv [7, 1, 3, 0] exTwo16 ([[1]] ++ [0] :: [[1]]) fnvInit :=
  ⟨exTwo16_usable, exTwo16_tuple (by decide), exTwo16_tuple (by decide), by rfl, by decide +kernel, by decide +kernel, by decide +kernel,
    by decide +kernel, by decide +kernel⟩

/-- A UINT of eight bytes. -/
def exWord : Dti := .prim .uint { isFinal := true, size := 8 }

/-- C90. For numbers of eight bytes, two different ones can have the same hash: these two, hashed by `FNV_64_TUPLE_HASHER`. -/
theorem C90_word_collision : Usable exWord ∧
    compareDatum2 (.uint 3759792175031991858) (.uint 2618587332693091509) (some exWord) = some 1 ∧
    hashDatum fnv fnvInit exWord (.uint 3759792175031991858) = hashDatum fnv fnvInit exWord (.uint 2618587332693091509) ∧
    (hashDatum fnv fnvInit exWord (.uint 3759792175031991858)).isSome :=
  ⟨⟨.prim .uint { size := 8 }, .prim _ _ rfl, rfl, .prim _ _⟩, by decide +kernel, by decide +kernel, by decide +kernel⟩

end Props
end TS
