import Verif.Container
import Verif.SlottedModel
import Verif.TypeSer
/-
Looking a field up by its name, checking positions, and the helpers of the page header:
/repo/src/data_type_info.c:26-41, /repo/src/tuple.c:84-107, /repo/src/page_header.c:7-15,34-51.
-/
namespace TS

/-- libc `strcmp(a, b) == 0`, byte by byte; running off one of the memories is a fault. -/
def strEq : Bytes → Bytes → Option Bool
  | a :: as, b :: bs => if a ≠ b then some false else if a = 0 then some true else strEq as bs
  | _, _ => none

/-- The 64 bytes of the member `field_name`; a shorter list stands for the array padded with NULs. -/
def nameArr (n : Bytes) : Bytes := (n ++ List.replicate 64 0).take 64

namespace Dti

/-- The loop of `find_containee_using_field_name_in_tuple_type_info`,
/repo/src/data_type_info.c:34-38, with `k` iterations left. The containees behind the array are a fault. -/
def findLoop (q : Bytes) (fs : List (Fld × Dti)) : Nat → Nat → Option (Option Nat)
  | 0, _ => some none
  | k + 1, i => do
    let f ← fs[i]?
    if ← strEq q (nameArr f.1.name) then pure (some i) else findLoop q fs k (i + 1)

/-- `find_containee_using_field_name_in_tuple_type_info`, /repo/src/data_type_info.c:26-41. `q` is the
memory from the pointer `field_name` on, `some none` is the return value -1. -/
def findField (d : Dti) (q : Bytes) : Option (Option Nat) :=
  match d with
  | .tup h fs => findLoop q fs h.count 0
  | _ => some none

/-- `(element_ids == NULL) ? STATIC_POSITION(i) : element_ids[i]`, /repo/src/tuple.c:88, 101. -/
def posAt (ids : Option (List (List Nat))) (i : Nat) : Option (List Nat) :=
  match ids with
  | none => some [i]
  | some l => l[i]?

/-- The loop of `are_all_positions_accessible_for_tuple_def`, with `k` iterations left. -/
def allDefLoop (d : Dti) (ids : Option (List (List Nat))) : Nat → Nat → Option Bool
  | 0, _ => some true
  | k + 1, i => do
    let pa ← posAt ids i
    match d.typeAt pa with
    | none => pure false
    | some _ => allDefLoop d ids k (i + 1)

/-- `are_all_positions_accessible_for_tuple_def`, /repo/src/tuple.c:84-94. -/
def allDef (d : Dti) (ids : Option (List (List Nat))) (n : Nat) : Option Bool := allDefLoop d ids n 0

/-- The loop of `are_all_positions_accessible_for_tuple`, with `k` iterations left. -/
def allTupLoop (d : Dti) (m : Bytes) (ids : Option (List (List Nat))) : Nat → Nat → Option Bool
  | 0, _ => some true
  | k + 1, i => do
    let pa ← posAt ids i
    match ← d.getElem m pa with
    | none => pure false
    | some _ => allTupLoop d m ids k (i + 1)

/-- `are_all_positions_accessible_for_tuple`, /repo/src/tuple.c:96-106. -/
def allTup (d : Dti) (m : Bytes) (ids : Option (List (List Nat))) (n : Nat) : Option Bool := allTupLoop d m ids n 0

end Dti

/-- `get_space_required_for_page_header`, /repo/src/page_header.c:7-10, with the wrap-around of `uint32_t`. -/
def hdrSpace (h ps : Nat) : Nat := (vsz ps + h) % 4294967296

/-- `can_page_header_fit_on_page`, /repo/src/page_header.c:12-15. -/
def canHdrFit (h ps : Nat) : Bool := decide (ps ≥ hdrSpace h ps)

/-- `init_page_header`, /repo/src/page_header.c:34-46, with the wrap-around of `uint32_t`, where
`initPageHeader` has a fault. -/
def initHdr (pg : Bytes) (ps h : Nat) : Option (Bytes × Bool) := do
  if ps < hdrSpace h ps then pure (pg, false)
  else do
    let pg ← storeVal pg ps 0 h
    let pg ← zeroIn pg (vsz ps) h
    pure (pg, true)

/-- The offset of `get_end_of_page_header` in the page, /repo/src/page_header.c:48-51. -/
def endHdr (pg : Bytes) (ps : Nat) : Option Nat := offEndHdr pg ps

/-! ### Proofs -/

theorem strn_cons (a : UInt8) (as : Bytes) : strn (a :: as) = if a = 0 then [] else a :: strn as := by
  unfold strn
  rw [List.takeWhile_cons]
  by_cases h : a = 0 <;> simp [h]

theorem strEq_both : ∀ {a b : Bytes}, (0 : UInt8) ∈ a → (0 : UInt8) ∈ b → strEq a b = some (decide (strn a = strn b))
  | [], _, h, _ => by cases h
  | _ :: _, [], _, h => by cases h
  | x :: a, y :: b, h1, h2 => by
    rw [strEq, strn_cons, strn_cons]
    by_cases hxy : x = y
    · subst hxy
      by_cases hx : x = 0
      · simp [hx]
      · have h1' : (0 : UInt8) ∈ a := by
          rcases List.mem_cons.mp h1 with h | h
          · exact absurd h.symm hx
          · exact h
        have h2' : (0 : UInt8) ∈ b := by
          rcases List.mem_cons.mp h2 with h | h
          · exact absurd h.symm hx
          · exact h
        simp [hx, strEq_both h1' h2']
    · rw [if_pos hxy]
      by_cases hx : x = 0
      · have hy : y ≠ 0 := fun h => hxy (hx.trans h.symm)
        simp [hx, hy]
      · by_cases hy : y = 0 <;> simp [hx, hy, hxy]

theorem strEq_no : ∀ {a b : Bytes}, (0 : UInt8) ∈ a → (0 : UInt8) ∉ b →
    strEq a b = if b <+: strn a then none else some false
  | [], _, h, _ => by cases h
  | x :: a, [], _, _ => by simp [strEq]
  | x :: a, y :: b, h1, h2 => by
    rw [strEq, strn_cons]
    have hy : y ≠ 0 := fun h => h2 (by simp [h])
    by_cases hxy : x = y
    · subst hxy
      have h1' : (0 : UInt8) ∈ a := by
        rcases List.mem_cons.mp h1 with h | h
        · exact absurd h.symm hy
        · exact h
      have h2' : (0 : UInt8) ∉ b := fun h => h2 (List.mem_cons_of_mem _ h)
      simp only [ne_eq, not_true_eq_false, if_false, hy, strEq_no h1' h2', List.cons_prefix_cons, true_and]
    · rw [if_pos hxy, if_neg]
      split
      · simp
      · intro h
        rw [List.cons_prefix_cons] at h
        exact hxy h.1.symm

theorem strn_length_iff {b : Bytes} : (strn b).length = b.length ↔ (0 : UInt8) ∉ b := by
  induction b with
  | nil => simp [strn]
  | cons a b ih =>
    rw [strn_cons]
    by_cases h : a = 0
    · simp [h]
    · simp only [if_neg h, List.length_cons, List.mem_cons, not_or]
      constructor
      · intro h'
        exact ⟨fun h'' => h h''.symm, ih.mp (by omega)⟩
      · rintro ⟨_, h'⟩
        rw [ih.mpr h']

theorem strn_self {b : Bytes} (h : (0 : UInt8) ∉ b) : strn b = b := by
  have hp : strn b <+: b := List.takeWhile_prefix _
  exact hp.eq_of_length (strn_length_iff.mpr h)

theorem strn_append_zeros (b : Bytes) (k : Nat) : strn (b ++ List.replicate k 0) = strn b := by
  induction b with
  | nil => cases k <;> simp [strn, List.replicate_succ]
  | cons a b ih => rw [List.cons_append, strn_cons, strn_cons, ih]

theorem nameArr_length (n : Bytes) : (nameArr n).length = 64 := by simp [nameArr]

theorem nameArr_eq (n : Bytes) : nameArr n = n.take 64 ++ List.replicate (64 - n.length) 0 := by
  unfold nameArr
  rw [List.take_append, List.take_replicate, Nat.min_eq_left (by omega)]

theorem strn_nameArr (n : Bytes) : strn (nameArr n) = cname n := by
  rw [nameArr_eq, strn_append_zeros]
  rfl

theorem strEq_name {q : Bytes} (n : Bytes) (hq : (0 : UInt8) ∈ q) :
    strEq q (nameArr n) = if (cname n).length < 64 then some (decide (strn q = cname n))
      else if cname n <+: strn q then none else some false := by
  rw [← strn_nameArr]
  by_cases h : (0 : UInt8) ∈ nameArr n
  · rw [strEq_both hq h, if_pos]
    have := strn_length_iff (b := nameArr n)
    rw [nameArr_length] at this
    have h2 : (strn (nameArr n)).length ≤ 64 := by
      have : (strn (nameArr n)).length ≤ (nameArr n).length := by
        unfold strn; exact (List.takeWhile_prefix _).length_le
      rw [nameArr_length] at this; exact this
    have h3 : (strn (nameArr n)).length ≠ 64 := fun h' => (this.mp h') h
    omega
  · simp [strEq_no hq h, strn_self h, nameArr_length]

namespace Dti

/-- How the loop ends: at the first field with the name, behind the last one, or at the first field
whose name has no NUL and is continued by `q`. -/
theorem findLoop_spec {q : Bytes} (hq : (0 : UInt8) ∈ q) (fs : List (Fld × Dti)) : ∀ (k i : Nat), i + k ≤ fs.length →
    (∃ j f, findLoop q fs k i = some (some j) ∧ i ≤ j ∧ j < i + k ∧ fs[j]? = some f ∧ cname f.1.name = strn q ∧
      ∀ l g, i ≤ l → l < j → fs[l]? = some g → cname g.1.name ≠ strn q) ∨
    (findLoop q fs k i = some none ∧ ∀ l g, i ≤ l → l < i + k → fs[l]? = some g → cname g.1.name ≠ strn q) ∨
    (∃ j f, findLoop q fs k i = none ∧ i ≤ j ∧ j < i + k ∧ fs[j]? = some f ∧ ¬ (cname f.1.name).length < 64 ∧
      cname f.1.name <+: strn q ∧ ∀ l g, i ≤ l → l < j → fs[l]? = some g → cname g.1.name ≠ strn q)
  | 0, i, _ => .inr (.inl ⟨rfl, fun l g h1 h2 => by omega⟩)
  | k + 1, i, hl => by
    have hi : i < fs.length := by omega
    have hf : fs[i]? = some fs[i] := List.getElem?_eq_getElem hi
    have hm : ∀ b, strEq q (nameArr fs[i].1.name) = b → findLoop q fs (k + 1) i =
        b.bind (fun x => if x then some (some i) else findLoop q fs k (i + 1)) := by
      intro b hb
      rw [findLoop, hf]
      simp only [Option.bind_eq_bind, Option.bind_some, hb]
      rfl
    have he := strEq_name fs[i].1.name hq
    have miss : cname fs[i].1.name ≠ strn q → findLoop q fs (k + 1) i = findLoop q fs k (i + 1) →
        (∃ j f, findLoop q fs (k + 1) i = some (some j) ∧ i ≤ j ∧ j < i + (k + 1) ∧ fs[j]? = some f ∧ cname f.1.name = strn q ∧
          ∀ l g, i ≤ l → l < j → fs[l]? = some g → cname g.1.name ≠ strn q) ∨
        (findLoop q fs (k + 1) i = some none ∧
          ∀ l g, i ≤ l → l < i + (k + 1) → fs[l]? = some g → cname g.1.name ≠ strn q) ∨
        (∃ j f, findLoop q fs (k + 1) i = none ∧ i ≤ j ∧ j < i + (k + 1) ∧ fs[j]? = some f ∧
          ¬ (cname f.1.name).length < 64 ∧ cname f.1.name <+: strn q ∧
          ∀ l g, i ≤ l → l < j → fs[l]? = some g → cname g.1.name ≠ strn q) := by
      intro hn e
      rw [e]
      have ext : ∀ {j : Nat}, (∀ l g, i + 1 ≤ l → l < j → fs[l]? = some g → cname g.1.name ≠ strn q) →
          ∀ l g, i ≤ l → l < j → fs[l]? = some g → cname g.1.name ≠ strn q := by
        intro j h l g h1 h2 h3
        by_cases hli : l = i
        · subst hli
          rw [hf] at h3
          cases h3
          exact hn
        · exact h l g (by omega) h2 h3
      rcases findLoop_spec hq fs k (i + 1) (by omega) with ⟨j, f, h1, h2, h3, h4, h5, h6⟩ | ⟨h1, h2⟩ | ⟨j, f, h1, h2, h3, h4, h5, h6, h7⟩
      · exact .inl ⟨j, f, h1, by omega, by omega, h4, h5, ext h6⟩
      · refine .inr (.inl ⟨h1, ?_⟩)
        have := ext h2
        intro l g a b
        exact this l g a (by omega)
      · exact .inr (.inr ⟨j, f, h1, by omega, by omega, h4, h5, h6, ext h7⟩)
    by_cases hs : (cname fs[i].1.name).length < 64
    · rw [if_pos hs] at he
      by_cases hx : strn q = cname fs[i].1.name
      · rw [decide_eq_true hx] at he
        exact .inl ⟨i, fs[i], hm _ he, by omega, by omega, hf, hx.symm, fun l g h1 h2 => by omega⟩
      · rw [decide_eq_false hx] at he
        exact miss (fun h => hx h.symm) (hm _ he)
    · rw [if_neg hs] at he
      by_cases hx : cname fs[i].1.name <+: strn q
      · rw [if_pos hx] at he
        exact .inr (.inr ⟨i, fs[i], hm _ he, by omega, by omega, hf, hs, hx, fun l g h1 h2 => by omega⟩)
      · rw [if_neg hx] at he
        refine miss (fun h => hx ?_) (hm _ he)
        rw [h]
        exact List.prefix_rfl

theorem allDefLoop_spec (d : Dti) (ids : Option (List (List Nat))) : ∀ (k i : Nat), (∀ l, ids = some l → i + k ≤ l.length) →
    ∃ b, allDefLoop d ids k i = some b ∧
      (b = true ↔ ∀ j pa, i ≤ j → j < i + k → posAt ids j = some pa → ∃ t, d.typeAt pa = some t)
  | 0, i, _ => ⟨true, rfl, ⟨fun _ j pa h1 h2 => by omega, fun _ => rfl⟩⟩
  | k + 1, i, hl => by
    obtain ⟨b, h1, h2⟩ := allDefLoop_spec d ids k (i + 1) (fun l h => by have := hl l h; omega)
    have hp : ∃ pa, posAt ids i = some pa := by
      unfold posAt
      cases ids with
      | none => exact ⟨_, rfl⟩
      | some l =>
        have := hl l rfl
        exact ⟨l[i], List.getElem?_eq_getElem (by omega)⟩
    obtain ⟨pa, hp⟩ := hp
    cases ht : d.typeAt pa with
    | none =>
      refine ⟨false, by simp [allDefLoop, hp, ht], ?_⟩
      simp only [Bool.false_eq_true, false_iff]
      intro h
      obtain ⟨t, h'⟩ := h i pa (by omega) (by omega) hp
      rw [ht] at h'; cases h'
    | some t =>
      refine ⟨b, by simp [allDefLoop, hp, ht, h1], h2.trans ⟨?_, ?_⟩⟩
      · intro h j pa' a1 a2 a3
        by_cases hj : j = i
        · subst hj
          rw [hp] at a3; cases a3
          exact ⟨t, ht⟩
        · exact h j pa' (by omega) (by omega) a3
      · intro h j pa' a1 a2 a3
        exact h j pa' (by omega) (by omega) a3

theorem allTupLoop_spec (d : Dti) (m : Bytes) (ids : Option (List (List Nat))) : ∀ (k i : Nat),
    (∀ l, ids = some l → i + k ≤ l.length) → (∀ pa, ∃ r, d.getElem m pa = some r) →
    ∃ b, allTupLoop d m ids k i = some b ∧
      (b = true ↔ ∀ j pa, i ≤ j → j < i + k → posAt ids j = some pa → ∃ v, d.getElem m pa = some (some v))
  | 0, i, _, _ => ⟨true, rfl, ⟨fun _ j pa h1 h2 => by omega, fun _ => rfl⟩⟩
  | k + 1, i, hl, hg => by
    obtain ⟨b, h1, h2⟩ := allTupLoop_spec d m ids k (i + 1) (fun l h => by have := hl l h; omega) hg
    have hp : ∃ pa, posAt ids i = some pa := by
      unfold posAt
      cases ids with
      | none => exact ⟨_, rfl⟩
      | some l =>
        have := hl l rfl
        exact ⟨l[i], List.getElem?_eq_getElem (by omega)⟩
    obtain ⟨pa, hp⟩ := hp
    obtain ⟨r, hr⟩ := hg pa
    cases r with
    | none =>
      refine ⟨false, by simp [allTupLoop, hp, hr], ?_⟩
      simp only [Bool.false_eq_true, false_iff]
      intro h
      obtain ⟨t, h'⟩ := h i pa (by omega) (by omega) hp
      rw [hr] at h'; cases h'
    | some t =>
      refine ⟨b, by simp [allTupLoop, hp, hr, h1], h2.trans ⟨?_, ?_⟩⟩
      · intro h j pa' a1 a2 a3
        by_cases hj : j = i
        · subst hj
          rw [hp] at a3; cases a3
          exact ⟨t, hr⟩
        · exact h j pa' (by omega) (by omega) a3
      · intro h j pa' a1 a2 a3
        exact h j pa' (by omega) (by omega) a3

end Dti
end TS
