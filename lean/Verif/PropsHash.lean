import Verif.HashProof
import Verif.PropsTupCmp
/-
Property C46: hashing.
-/
namespace TS
namespace Dti

mutual
/-- No FLOAT occurs in the type. -/
def NoFloat : Dti → Prop
  | .prim k _ => k ≠ .float
  | .str _ _ => True
  | .tup _ fs => NoFloatAll fs
  | .arr _ c => NoFloat c
def NoFloatAll : List (Fld × Dti) → Prop
  | [] => True
  | (_, t) :: r => NoFloat t ∧ NoFloatAll r
end

theorem NoFloatAll.mem {fs : List (Fld × Dti)} (h : NoFloatAll fs) {f : Fld} {t : Dti} (hm : (f, t) ∈ fs) : NoFloat t := by
  induction fs with
  | nil => cases hm
  | cons x fs ih =>
    obtain ⟨g, u⟩ := x
    rcases List.mem_cons.mp hm with e | e
    · cases e; exact h.1
    · exact ih h.2 e

theorem NoFloat.at {d t : Dti} (pa : List Nat) (h : NoFloat d) (ht : d.typeAt pa = some t) : NoFloat t := by
  induction pa generalizing d with
  | nil => simp [typeAt] at ht; subst ht; exact h
  | cons i pa ih =>
    simp only [typeAt, Option.bind_eq_bind] at ht
    obtain ⟨c, h1, h2⟩ := Option.bind_eq_some_iff.mp ht
    refine ih ?_ h2
    unfold tyAtNoData at h1
    split at h1
    · cases h1
    · split at h1
      · cases h1
      · cases d with
        | prim => simp [tyAt] at h1
        | str => simp [tyAt] at h1; subst h1; exact nofun
        | tup hd fs =>
          simp only [tyAt] at h1
          obtain ⟨⟨f, t'⟩, g1, g2⟩ := Option.map_eq_some_iff.mp h1
          simp only at g2
          subst g2
          exact NoFloatAll.mem h (List.mem_of_getElem? g1)
        | arr hd c' => simp [tyAt] at h1; subst h1; exact h

section
variable {σ : Type} {upd : σ → UInt8 → σ}

theorem hash_null (t : Dti) (h : σ) : hashDatum upd h t .null = some h := by
  cases t with
  | prim k hd => cases k <;> simp [hashDatum, Datum.isNull]
  | _ => simp [hashDatum, Datum.isNull]

theorem isNull_iff {v : Datum} : v.isNull = true ↔ v = .null := by cases v <;> simp [Datum.isNull]

theorem hash_step {h h' h'' : σ} {t : Dti} {c : Datum} {f : σ → Option σ} (hc : hashDatum upd h t c = some h') (hf : f h' = some h'') :
    (if c.isNull = true then f h else (hashDatum upd h t c).bind f) = some h'' := by
  split
  · rename_i hn
    rw [isNull_iff.mp hn, hash_null] at hc
    cases hc
    exact hf
  · rw [hc]; exact hf

/-- Data that stand for the same value are hashed alike. -/
theorem hash_same_st : ∀ {d : Dti}, TyOk d → NoFloat d → ∀ {v1 v2 : Datum} {s : SVal}, Stands d v1 s → Stands d v2 s →
    ∀ h : σ, ∃ h', hashDatum upd h d v1 = some h' ∧ hashDatum upd h d v2 = some h' := by
  intro d
  have hnull : ∀ {d : Dti} {v1 v2 : Datum} {s : SVal}, Stands d v1 s → Stands d v2 s → ∀ h : σ,
      (v1.isNull = false → v2.isNull = false → ∃ h', hashDatum upd h d v1 = some h' ∧ hashDatum upd h d v2 = some h') →
      ∃ h', hashDatum upd h d v1 = some h' ∧ hashDatum upd h d v2 = some h' := by
    intro d v1 v2 s m1 m2 h hh
    cases n1 : v1.isNull with
    | true =>
      have n2 := m2.null_iff.mpr (m1.null_iff.mp n1)
      rw [isNull_iff.mp n1, isNull_iff.mp n2]
      exact ⟨h, hash_null _ _, hash_null _ _⟩
    | false =>
      cases n2 : v2.isNull with
      | true => rw [m1.null_iff.mpr (m2.null_iff.mp n2)] at n1; cases n1
      | false => exact hh n1 n2
  induction d using Dti.ind with
  | hp k hd =>
    intro ho hf v1 v2 s m1 m2 h
    refine hnull m1 m2 h (fun n1 n2 => ?_)
    obtain ⟨x, h1, hs1⟩ := (m1.out.resolve_left (by rintro ⟨rfl, _⟩; cases n1)).2
    obtain ⟨x', h2, hs2⟩ := (m2.out.resolve_left (by rintro ⟨rfl, _⟩; cases n2)).2
    rw [hs1] at hs2
    cases hs2
    clear hs1
    have hv : hd.isVar = false := by cases ho; assumption
    have ku : ∀ {v : Datum} {n : Nat}, k = .uint ∨ k = .largeUint → v.isNull = false → v.asUint = some n →
        hashDatum upd h (.prim k hd) v = some (hashBytes upd h (leEnc hd.size n)) := by
      intro v n hk hn hvn
      refine hashNum (by rintro rfl; simp at hk) ho (leEnc_length _ _) hn (fun m hm => ?_) h
      have : store m 0 (leEnc hd.size n) = some (wr m 0 (leEnc hd.size n)) := store_eq (by rw [leEnc_length]; omega)
      rcases hk with rfl | rfl <;>
        simp [setDatum, hn, isBit, isVar, hdr, hv, hvn, this]
    have ki : ∀ {v : Datum} {z : Int}, k = .int ∨ k = .largeInt → v.isNull = false → v.asInt = some z →
        hashDatum upd h (.prim k hd) v = some (hashBytes upd h (intEnc hd.size z)) := by
      intro v z hk hn hvn
      have hl : (intEnc hd.size z).length = hd.size := by unfold intEnc; exact leEnc_length _ _
      refine hashNum (by rintro rfl; simp at hk) ho hl hn (fun m hm => ?_) h
      have : store m 0 (intEnc hd.size z) = some (wr m 0 (intEnc hd.size z)) := store_eq (by rw [hl]; omega)
      rcases hk with rfl | rfl <;>
        simp [setDatum, hn, isBit, isVar, hdr, hv, hvn, this]
    cases k with
    | float => exact absurd rfl hf
    | bitField =>
      simp only [numOf, Option.map_eq_some_iff] at h1 h2
      obtain ⟨a, h1, rfl⟩ := h1
      obtain ⟨b, h2, e⟩ := h2
      have := Num.ofInt_inj e
      have : b = a := by omega
      subst this
      exact ⟨_, by simp [hashDatum, n1, h1]; rfl, by simp [hashDatum, n2, h2]⟩
    | uint =>
      simp only [numOf, Option.map_eq_some_iff] at h1 h2
      obtain ⟨a, h1, rfl⟩ := h1
      obtain ⟨b, h2, e⟩ := h2
      have := Num.ofInt_inj e
      have : b = a := by omega
      subst this
      exact ⟨_, ku (by simp) n1 h1, ku (by simp) n2 h2⟩
    | largeUint =>
      simp only [numOf, Option.map_eq_some_iff] at h1 h2
      obtain ⟨a, h1, rfl⟩ := h1
      obtain ⟨b, h2, e⟩ := h2
      have := Num.ofInt_inj e
      have : b = a := by omega
      subst this
      exact ⟨_, ku (by simp) n1 h1, ku (by simp) n2 h2⟩
    | int =>
      simp only [numOf, Option.map_eq_some_iff] at h1 h2
      obtain ⟨a, h1, rfl⟩ := h1
      obtain ⟨b, h2, e⟩ := h2
      have := Num.ofInt_inj e
      subst this
      exact ⟨_, ki (by simp) n1 h1, ki (by simp) n2 h2⟩
    | largeInt =>
      simp only [numOf, Option.map_eq_some_iff] at h1 h2
      obtain ⟨a, h1, rfl⟩ := h1
      obtain ⟨b, h2, e⟩ := h2
      have := Num.ofInt_inj e
      subst this
      exact ⟨_, ki (by simp) n1 h1, ki (by simp) n2 h2⟩
  | hs bin hd =>
    intro ho hf v1 v2 s m1 m2 h
    refine hnull m1 m2 h (fun n1 n2 => ?_)
    obtain ⟨a, h1, hs1⟩ := (m1.out.resolve_left (by rintro ⟨rfl, _⟩; cases n1)).2
    obtain ⟨b, h2, hs2⟩ := (m2.out.resolve_left (by rintro ⟨rfl, _⟩; cases n2)).2
    have : a = b := by
      rw [hs1] at hs2
      unfold charSeq at hs2
      injection hs2 with hs2
      clear hs1 h1 h2
      induction a generalizing b with
      | nil => cases b with
        | nil => rfl
        | cons => simp at hs2
      | cons c a ih => cases b with
        | nil => simp at hs2
        | cons c' b =>
          simp only [List.map_cons, List.cons.injEq, SVal.num.injEq] at hs2
          have := Num.ofInt_inj hs2.1
          rw [ih _ hs2.2, UInt8.toNat_inj.mp (show c.toNat = c'.toNat by omega)]
    subst this
    exact ⟨_, by simp [hashDatum, n1, h1]; rfl, by simp [hashDatum, n2, h2]⟩
  | ht hd fs ih =>
    intro ho hf v1 v2 s m1 m2 h
    refine hnull m1 m2 h (fun n1 n2 => ?_)
    obtain ⟨xs, rfl, k1⟩ := kids ho rfl n1 m1
    obtain ⟨ys, e, k2⟩ := kids ho rfl n2 m2
    cases e
    have hlen := k1.len _ _ rfl
    simp only [hashDatum, n1, n2, k1.count, k2.count, Bool.false_eq_true, if_false, Option.bind_eq_bind, Option.bind_some]
    suffices hloop : ∀ (r : List (Fld × Dti)) (i : Nat) (h : σ), i + r.length = fs.length → (∀ j, r[j]? = fs[i + j]?) →
        ∃ h', hashFlds upd h r (.tup hd fs) v1 xs.length i = some h' ∧ hashFlds upd h r (.tup hd fs) v2 xs.length i = some h' by
      exact hloop fs 0 h (by simp) (by simp)
    intro r
    induction r with
    | nil =>
      intro i h hi _
      simp only [List.length_nil] at hi
      simp only [hashFlds]
      rw [if_neg (by omega)]
      exact ⟨h, rfl, rfl⟩
    | cons f r ihr =>
      intro i h hi hr
      obtain ⟨f, t⟩ := f
      simp only [List.length_cons] at hi
      have hlt : i < xs.length := by omega
      have hfi : fs[i]? = some (f, t) := by have := hr 0; simpa using this.symm
      obtain ⟨c1, t1, p1, p2, p3, p4⟩ := k1.kid i _ (List.getElem?_eq_getElem hlt)
      obtain ⟨c2, t2, q1, q2, q3, q4⟩ := k2.kid i _ (List.getElem?_eq_getElem hlt)
      have e1 : t1 = t := by simp [tyAt, hfi] at p2; exact p2.symm
      have e2 : t2 = t := by simp [tyAt, hfi] at q2; exact q2.symm
      subst e1; subst e2
      obtain ⟨h', g1, g2⟩ := ih f t2 (List.mem_of_getElem? hfi) p3 (NoFloatAll.mem hf (List.mem_of_getElem? hfi)) p4 q4 h
      obtain ⟨h'', g3, g4⟩ := ihr (i + 1) h' (by omega) (fun j => by
        have := hr (j + 1); simp only [List.getElem?_cons_succ] at this; rw [this]; congr 1; omega)
      refine ⟨h'', ?_, ?_⟩
      · simp only [hashFlds, if_pos hlt, p1, Option.bind_eq_bind, Option.bind_some]; exact hash_step g1 g3
      · simp only [hashFlds, if_pos hlt, q1, Option.bind_eq_bind, Option.bind_some]; exact hash_step g2 g4
  | ha hd c ih =>
    intro ho hf v1 v2 s m1 m2 h
    refine hnull m1 m2 h (fun n1 n2 => ?_)
    obtain ⟨xs, rfl, k1⟩ := kids ho rfl n1 m1
    obtain ⟨ys, e, k2⟩ := kids ho rfl n2 m2
    cases e
    simp only [hashDatum, n1, n2, k1.count, k2.count, Bool.false_eq_true, if_false, Option.bind_eq_bind, Option.bind_some]
    suffices hloop : ∀ (k i : Nat) (h : σ), i + k = xs.length →
        ∃ h', hashLoop (fun h _ x => hashDatum upd h c x) (.arr hd c) v1 k i h = some h' ∧
          hashLoop (fun h _ x => hashDatum upd h c x) (.arr hd c) v2 k i h = some h' by
      exact hloop xs.length 0 h (by simp)
    intro k
    induction k with
    | zero => intro i h _; exact ⟨h, rfl, rfl⟩
    | succ k ihr =>
      intro i h hi
      have hlt : i < xs.length := by omega
      obtain ⟨c1, t1, p1, p2, p3, p4⟩ := k1.kid i _ (List.getElem?_eq_getElem hlt)
      obtain ⟨c2, t2, q1, q2, q3, q4⟩ := k2.kid i _ (List.getElem?_eq_getElem hlt)
      have e1 : t1 = c := by simp [tyAt] at p2; exact p2.symm
      have e2 : t2 = c := by simp [tyAt] at q2; exact q2.symm
      subst e1; subst e2
      obtain ⟨h', g1, g2⟩ := ih p3 hf p4 q4 h
      obtain ⟨h'', g3, g4⟩ := ihr (i + 1) h' (by omega)
      refine ⟨h'', ?_, ?_⟩
      · simp only [hashLoop, p1, Option.bind_eq_bind, Option.bind_some]; exact hash_step g1 g3
      · simp only [hashLoop, q1, Option.bind_eq_bind, Option.bind_some]; exact hash_step g2 g4


theorem hash_same {d : Dti} (o : TyOk d) (hf : NoFloat d) {v1 v2 : Datum} {s : SVal} (m1 : Means d v1 s) (m2 : Means d v2 s)
    (h : σ) : ∃ h', hashDatum upd h d v1 = some h' ∧ hashDatum upd h d v2 = some h' :=
  hash_same_st o hf (m1.stands o) (m2.stands o) h

/-- The bytes that a position is hashed by. -/
def posFeed (d : Dti) (val : Val) (pa : List Nat) : Bytes :=
  match d.typeAt pa, val.at' pa with
  | some t, some y => feed t y
  | _, _ => []

theorem hashElem_feed {d : Dti} {m : Bytes} {S : Nat} {val : Val} (hd : TyOk d) (hS : S ≤ m.length)
    (he : Enc d (m.take S) val) (pa : List Nat) (h : σ) :
    hashElem upd h m d pa = some (hashBytes upd h (posFeed d val pa)) := by
  have hg := getElem_ok pa hd hS he
  unfold GetOk at hg
  unfold hashElem posFeed
  cases ht : d.typeAt pa with
  | none => rfl
  | some t =>
    cases ha : val.at' pa with
    | none =>
      rw [ha] at hg
      simp only at hg
      simp [hg, hashBytes]
    | some y =>
      rw [ha] at hg
      simp only at hg
      rcases hg with ⟨rfl, hg⟩ | ⟨t', dt, h1, h2, h3⟩
      · simp [hg, hash_null, feed_null, hashBytes]
      · rw [ht] at h1
        cases h1
        simp only [h2, Option.bind_eq_bind, Option.bind_some]
        exact hashDatum_feed (typeAt_ok pa hd ht).1 h3 (held_at pa hd (.inr (.inr ⟨_, he⟩)) ha ht) h

theorem hashTuple_feed {d : Dti} {m : Bytes} {S : Nat} {val : Val} (hd : TyOk d) (hS : S ≤ m.length)
    (he : Enc d (m.take S) val) (ps : List (List Nat)) (h : σ) :
    hashTuple upd m d ps h = some (hashBytes upd h (ps.flatMap (posFeed d val))) := by
  induction ps generalizing h with
  | nil => rfl
  | cons p ps ih =>
    simp only [hashTuple, hashElem_feed hd hS he, Option.bind_eq_bind, Option.bind_some, ih, List.flatMap_cons, hashBytes_append]

theorem feeds_flat : ∀ (fs : List (Fld × Dti)) (vs : List Val), vs.length = fs.length →
    feeds fs vs = (List.range fs.length).flatMap (fun i => match fs[i]?, vs[i]? with
      | some f, some y => feed f.2 y
      | _, _ => []) := by
  intro fs
  induction fs with
  | nil => intro vs _; cases vs <;> simp [feeds]
  | cons f fs ih =>
    intro vs hl
    cases vs with
    | nil => simp at hl
    | cons v vs =>
      obtain ⟨f, t⟩ := f
      simp only [List.length_cons, Nat.add_right_cancel_iff] at hl
      simp only [feeds, List.length_cons, List.range_succ_eq_map, List.flatMap_cons, List.getElem?_cons_zero, List.flatMap_map,
        ih vs hl, List.getElem?_cons_succ]

end
end Dti

namespace Props
open Dti

theorem lex_zero {cells : List Cell} (h : Lexicographic cells (some 0)) (hd : ∀ c ∈ cells, c.dir = 1 ∨ c.dir = -1) :
    ∀ c ∈ cells, c.ok ∧ c.ord = 0 := by
  suffices ∀ post pre, cells = pre ++ post → (∀ p ∈ pre, p.ok ∧ p.ord = 0) → ∀ c ∈ cells, c.ok ∧ c.ord = 0 by
    exact this cells [] rfl (by simp)
  intro post
  induction post with
  | nil => intro pre e hp; rw [e]; simpa using hp
  | cons c post ih =>
    intro pre e hp
    obtain ⟨h1, h2⟩ := h.2 pre c post e hp
    have hok : c.ok := Classical.byContradiction fun hn => by have := h1 hn; simp at this
    have ho : c.ord = 0 := Classical.byContradiction fun hn => by
      have := h2 hok hn
      simp only [Option.some.injEq] at this
      rcases hd c (by rw [e]; simp) with hc | hc <;> rw [hc] at this <;> omega
    refine ih (pre ++ [c]) (by rw [e]; simp) (fun p hp' => ?_)
    rcases List.mem_append.mp hp' with h | h
    · exact hp p h
    · simp at h; subst h; exact ⟨hok, ho⟩

/-- C46. Two data of one type, without FLOATs, that compare as equal are hashed to the same value, by
every hash function and from every start value. -/
theorem C46_equal_data {σ : Type} (upd : σ → UInt8 → σ) {d : Dti} (hd : Usable d) (hf : NoFloat d) {v1 v2 : Datum}
    (h1 : Proper d v1) (h2 : Proper d v2) (he : compareDatum2 v1 v2 (some d) = some 0) (h : σ) :
    ∃ h', hashDatum upd h d v1 = some h' ∧ hashDatum upd h d v2 = some h' := by
  obtain ⟨s1, m1⟩ := h1.means
  obtain ⟨s2, m2⟩ := h2.means
  rw [C42_compares_values2 hd m1 m2] at he
  have := (C45_zero_iff_equal s1 s2).mp (Option.some.inj he)
  subst this
  exact hash_same hd.ok hf m1 m2 h

/-- Data that are read from two places. -/
example : Usable exInts ∧ NoFloat exInts ∧ Proper exInts .null ∧
    compareDatum2 (.ptr [2, 0, 1, 5, 0, 0, 0]) (.ptr [2, 0, 1, 5, 0, 9, 9, 7]) (some exInts) = some 0 ∧
    hashDatum (fun h b => h ++ [b]) [] exInts (.ptr [2, 0, 1, 5, 0, 0, 0]) = some [5, 0] := by
  refine ⟨exInts_usable, by simp [exInts, NoFloat], .inl rfl, by decide +kernel, by decide +kernel⟩

/-- C46. Two tuples that compare as equal at some positions are hashed to the same value over these
positions, provided that there is no FLOAT there. -/
theorem C46_equal_tuples {σ : Type} (upd : σ → UInt8 → σ) {m1 m2 : Bytes} {d : Dti} {S1 S2 : Nat} {ps : List (List Nat × Int)}
    (hd : Usable d) (t1 : IsTuple d m1 S1) (t2 : IsTuple d m2 S2) (hdir : ∀ p ∈ ps, p.2 = 1 ∨ p.2 = -1)
    (hf : ∀ p ∈ ps, ∀ t, d.typeAt p.1 = some t → NoFloat t) (he : compareTuples2 m1 m2 d ps = some 0) (h : σ) :
    ∃ h', hashTuple upd m1 d (ps.map (·.1)) h = some h' ∧ hashTuple upd m2 d (ps.map (·.1)) h = some h' := by
  obtain ⟨l1, val1, e1⟩ := t1
  obtain ⟨l2, val2, e2⟩ := t2
  have hl := C45_one_type hd l1 l2 e1 e2 hdir
  rw [he] at hl
  have hz := lex_zero hl (by
    intro c hc
    obtain ⟨p, hp, rfl⟩ := List.mem_map.mp hc
    exact hdir p hp)
  replace hz : ∀ p ∈ ps, posVal d val1 p.1 = posVal d val2 p.1 := fun p hp =>
    (C45_zero_iff_equal _ _).mp (hz _ (List.mem_map_of_mem hp)).2
  clear hl he hdir
  induction ps generalizing h with
  | nil => exact ⟨h, rfl, rfl⟩
  | cons p ps ih =>
    have hstep : ∃ h', hashElem upd h m1 d p.1 = some h' ∧ hashElem upd h m2 d p.1 = some h' := by
      cases ht : d.typeAt p.1 with
      | none => exact ⟨h, by simp [hashElem, ht], by simp [hashElem, ht]⟩
      | some t =>
        obtain ⟨v1, q1, g1, _⟩ := elemOrNull_means hd.ok l1 e1 p.1
        obtain ⟨v2, q2, g2, _⟩ := elemOrNull_means hd.ok l2 e2 p.1
        have hh : ∀ {m : Bytes} {v : Datum}, d.elemOrNull m p.1 = some v → hashElem upd h m d p.1 = hashDatum upd h t v := by
          intro m v hv
          unfold elemOrNull at hv
          simp only [Option.bind_eq_bind] at hv
          obtain ⟨o, o1, o2⟩ := Option.bind_eq_some_iff.mp hv
          cases o with
          | none => simp at o2; subst o2; simp [hashElem, ht, o1, hash_null]
          | some x => simp at o2; subst o2; simp [hashElem, ht, o1]
        rw [hh q1, hh q2]
        refine hash_same (g1 t ht).1 (hf p (by simp) t ht) (g1 t ht).2 ?_ h
        rw [hz p (by simp)]
        exact (g2 t ht).2
    obtain ⟨h', s1, s2⟩ := hstep
    obtain ⟨h'', r1, r2⟩ := ih (fun q hq => hf q (List.mem_cons_of_mem _ hq)) h' (fun q hq => hz q (List.mem_cons_of_mem _ hq))
    exact ⟨h'', by simp [hashTuple, s1, r1], by simp [hashTuple, s2, r2]⟩

/-- The string and the array are written in one order and in the other; the memory differs, the
tuples do not. -/
example : ∃ x y, (exFinal.setElem exMem [2] (.bytes [98]) 20).bind (fun x => exFinal.setElem x.1 [3] (.ptr exArr) 20) = some (x, true) ∧
    (exFinal.setElem exMem [3] (.ptr exArr) 20).bind (fun x => exFinal.setElem x.1 [2] (.bytes [98]) 20) = some (y, true) ∧
    x ≠ y ∧ compareTuples2 x y exFinal [([2], -1), ([3], 1), ([], 1)] = some 0 ∧
    hashTuple (fun h b => h ++ [b]) x exFinal [[2], [3], []] [] = hashTuple (fun h b => h ++ [b]) y exFinal [[2], [3], []] [] :=
  ⟨_, _, rfl, rfl, by decide +kernel, by decide +kernel, by decide +kernel⟩

/-- C46. `hash_datum`, `hash_data_for_type_info`, `hash_tuple` over the whole tuple and `hash_tuple` over
all of its fields give the same hash, FLOATs or not. -/
theorem C46_whole_tuple {σ : Type} (upd : σ → UInt8 → σ) {hd : Hdr} {fs : List (Fld × Dti)} {m : Bytes} {S : Nat}
    (hu : Usable (.tup hd fs)) (ht : IsTuple (.tup hd fs) m S) (h : σ) :
    ∃ h', hashDatum upd h (.tup hd fs) (.ptr m) = some h' ∧ hashData upd h (.tup hd fs) m = some h' ∧
      hashTuple upd m (.tup hd fs) [[]] h = some h' ∧
      hashTuple upd m (.tup hd fs) ((List.range fs.length).map (fun i => [i])) h = some h' := by
  obtain ⟨hS, val, he⟩ := ht
  obtain ⟨_, _, vs, rfl, _⟩ := enc_cont rfl he
  have hlen := (kids_ptr hu.ok rfl (by intros; simp) hS he).2.1 rfl
  have hc : fs.length = hd.count := by cases hu.ok; assumption
  refine ⟨hashBytes upd h (feed (.tup hd fs) (.node vs)), ?_, ?_, ?_, ?_⟩
  · exact hashDatum_feed hu.ok (show Shows (.tup hd fs) (.node vs) (.ptr m) from ⟨m, S, rfl, hS, he⟩) (.inr (.inr ⟨_, he⟩)) h
  · exact hashData_feed hu.ok hS he h
  · rw [hashTuple_feed hu.ok hS he]
    simp [posFeed, typeAt, Val.at']
  · rw [hashTuple_feed hu.ok hS he]
    simp only [feed]
    rw [feeds_flat fs vs (by rw [hlen, hc]; rfl), List.flatMap_map]
    simp only [List.flatMap_def]
    congr 3
    refine List.map_congr_left (fun i hi => ?_)
    have hi : i < fs.length := List.mem_range.mp hi
    have hv : i < vs.length := by rw [hlen]; show i < hd.count; omega
    simp [posFeed, typeAt, tyAtNoData, tyAt, isCont, isVarCount, hdr, Val.at', hc.symm, hi, hv, Nat.not_le.mpr hi]

example : (exFinal.setElem exMem [2] (.bytes [98]) 20).bind (fun x => (exFinal.setElem x.1 [3] (.ptr exArr) 20).bind (fun x =>
    hashTuple (fun h b => h ++ [b]) x.1 exFinal [[0], [1], [2], [3]] [])) = some [98, 5, 0] := by decide +kernel

/-- C46. For arrays too. (A tuple can be of any type, not only TUPLE.) -/
theorem C46_two_ways {σ : Type} (upd : σ → UInt8 → σ) {d : Dti} {m : Bytes} {S : Nat} (hu : Usable d) (hs : ∀ b h, d ≠ .str b h)
    (hc : d.isCont = true) (ht : IsTuple d m S) (h : σ) :
    ∃ h', hashDatum upd h d (.ptr m) = some h' ∧ hashData upd h d m = some h' ∧ hashTuple upd m d [[]] h = some h' := by
  obtain ⟨hS, val, he⟩ := ht
  obtain ⟨_, _, vs, rfl, _⟩ := enc_cont hc he
  refine ⟨hashBytes upd h (feed d (.node vs)), ?_, ?_, ?_⟩
  · refine hashDatum_feed hu.ok ?_ (.inr (.inr ⟨_, he⟩)) h
    cases d with
    | prim => simp [isCont] at hc
    | str b hh => exact absurd rfl (hs b hh)
    | tup => exact ⟨m, S, rfl, hS, he⟩
    | arr => exact ⟨m, S, rfl, hS, he⟩
  · exact hashData_feed hu.ok hS he h
  · rw [hashTuple_feed hu.ok hS he]
    simp [posFeed, typeAt, Val.at']

/-- C46. Hashing reads the same bytes of the value whatever the hash function is, and never fails. -/
theorem C46_bytes {d : Dti} {m : Bytes} {S : Nat} (hu : Usable d) (ht : IsTuple d m S) (ps : List (List Nat)) :
    ∃ bs : Bytes, ∀ (σ : Type) (upd : σ → UInt8 → σ) (h : σ), hashTuple upd m d ps h = some (hashBytes upd h bs) := by
  obtain ⟨hS, val, he⟩ := ht
  exact ⟨_, fun _ _ _ => hashTuple_feed hu.ok hS he ps _⟩

/-- `fnv_64_update`, /repo/src/tuple_hasher.c:19-23. -/
def fnv (h : UInt64) (b : UInt8) : UInt64 := (h * 0x100000001b3) ^^^ b.toUInt64
/-- A hash function that keeps all bytes. -/
def cat (h : Bytes) (b : UInt8) : Bytes := h ++ [b]

example : Usable exFinal ∧ IsTuple exFinal exMem 11 ∧ (exFinal.setElem exMem [2] (.bytes [98, 99]) 20).bind
    (fun x => hashTuple cat x.1 exFinal [[2], [7], [2]] []) = some [98, 99, 98, 99] :=
  ⟨exFinal_usable, exMem_tuple, by decide +kernel⟩

/-- C46. The claim does not extend to FLOATs: 0.0 and -0.0 compare as equal, but other bytes are hashed.
(The C code hashes the stored bytes of all numerals, /repo/src/datum.c:305-313.) -/
theorem C46_zeros_differ {h : Hdr} (hu : Usable (.prim .float h)) (h4 : h.size = 4) :
    Proper (.prim .float h) (.flt [0, 0, 0, 0]) ∧ Proper (.prim .float h) (.flt [0, 0, 0, 128]) ∧
    compareDatum2 (.flt [0, 0, 0, 0]) (.flt [0, 0, 0, 128]) (some (.prim .float h)) = some 0 ∧
    ∀ (σ : Type) (upd : σ → UInt8 → σ) (x : σ),
      hashDatum upd x (.prim .float h) (.flt [0, 0, 0, 0]) = some (hashBytes upd x [0, 0, 0, 0]) ∧
      hashDatum upd x (.prim .float h) (.flt [0, 0, 0, 128]) = some (hashBytes upd x [0, 0, 0, 128]) := by
  have hv : h.isVar = false := by cases hu.ok; assumption
  have n1 : numOf .float h (.flt [0, 0, 0, 0]) = some (Num.ofBits [0, 0, 0, 0]) := by simp [numOf, Datum.asFlt, h4]
  have n2 : numOf .float h (.flt [0, 0, 0, 128]) = some (Num.ofBits [0, 0, 0, 128]) := by simp [numOf, Datum.asFlt, h4]
  have e : Num.ofBits [0, 0, 0, 0] = Num.ofBits [0, 0, 0, 128] := by decide +kernel
  have hs : ∀ {b : Bytes}, b.length = 4 → ∀ (σ : Type) (upd : σ → UInt8 → σ) (x : σ),
      hashDatum upd x (.prim .float h) (.flt b) = some (hashBytes upd x b) := by
    intro b hb σ upd x
    refine hashNum (by simp) hu.ok (by rw [hb, h4]) rfl (fun m hm => ?_) x
    have : store m 0 b = some (wr m 0 b) := store_eq (by omega)
    simp [setDatum, Datum.isNull, isBit, isVar, hdr, hv, Datum.asFlt, hb, h4, this]
  refine ⟨.inr ⟨rfl, _, n1⟩, .inr ⟨rfl, _, n2⟩, ?_, fun σ upd x => ⟨hs rfl _ _ _, hs rfl _ _ _⟩⟩
  rw [C42_compares_values2 hu (.inr ⟨rfl, _, n1, rfl⟩) (.inr ⟨rfl, _, n2, rfl⟩), ← e]
  rw [SVal.ord_self]

example : Usable exFloat ∧ exFloat.hdr.size = 4 ∧
    hashDatum fnv 14695981039346656037 exFloat (.flt [0, 0, 0, 0]) ≠ hashDatum fnv 14695981039346656037 exFloat (.flt [0, 0, 0, 128]) := by
  refine ⟨⟨.prim .float { size := 4 }, .prim _ _ rfl, rfl, .prim _ _⟩, by decide +kernel⟩

theorem leEnc_bytes : ∀ (w n : Nat), leEnc w n = (List.range w).map (fun i => UInt8.ofNat (n / 256 ^ i))
  | 0, _ => rfl
  | w + 1, n => by
    rw [leEnc, leEnc_bytes w, List.range_succ_eq_map, List.map_cons, List.map_map]
    congr 1
    · rw [Nat.pow_zero, Nat.div_one]
    · refine List.map_congr_left fun i _ => ?_
      simp only [Function.comp]
      rw [Nat.div_div_eq_div_mul, Nat.pow_succ']

/-- C46. The bytes that numbers and strings are hashed by: the bits of a bit field, one byte each and the
lowest first; the bytes of an unsigned number, the lowest first, and of a signed number those of its two's
complement, as many as the type has; the bytes of a string; nothing for NULL. -/
theorem C46_bytes_of_leaves {σ : Type} (upd : σ → UInt8 → σ) (x : σ) {k : PKind} {h : Hdr} (hu : Usable (.prim k h)) :
    (k = .bitField → ∀ n, hashDatum upd x (.prim k h) (.uint n) =
      some (((List.range h.size).map (fun i => UInt8.ofNat (n / 2 ^ i % 2))).foldl upd x)) ∧
    (k = .uint ∨ k = .largeUint → ∀ n, hashDatum upd x (.prim k h) (.uint n) =
      some (((List.range h.size).map (fun i => UInt8.ofNat (n / 256 ^ i))).foldl upd x)) ∧
    (k = .int ∨ k = .largeInt → ∀ z : Int, hashDatum upd x (.prim k h) (.int z) =
      some (((List.range h.size).map (fun i => UInt8.ofNat ((z % (256 ^ h.size : Nat)).toNat / 256 ^ i))).foldl upd x)) ∧
    (∀ bin hs b, hashDatum upd x (.str bin hs) (.bytes b) = some (b.foldl upd x)) ∧
    (∀ t, hashDatum upd x t .null = some x) := by
  have hv : h.isVar = false := by cases hu.ok; assumption
  refine ⟨?_, ?_, ?_, ?_, ?_⟩
  · rintro rfl n
    simp only [hashDatum, Datum.isNull, Datum.asUint, hashBytes, Bool.false_eq_true, if_false]
    simp only [Option.bind_eq_bind, Option.bind_some, pure, bitBytes]
    congr 3
    funext i
    rw [Nat.testBit_eq_decide_div_mod_eq]
    rcases Nat.mod_two_eq_zero_or_one (n / 2 ^ i) with e | e <;> simp [e]
  · intro hk n
    rw [← leEnc_bytes]
    refine hashNum (by rcases hk with rfl | rfl <;> simp) hu.ok (by simp) rfl (fun m hm => ?_) x
    have : store m 0 (leEnc h.size n) = some (wr m 0 (leEnc h.size n)) := store_eq (by simp; omega)
    rcases hk with rfl | rfl <;> simp [setDatum, Datum.isNull, isBit, isVar, hdr, hv, Datum.asUint, this]
  · intro hk z
    rw [← leEnc_bytes]
    refine hashNum (by rcases hk with rfl | rfl <;> simp) hu.ok (by simp) rfl (fun m hm => ?_) x
    have : store m 0 (intEnc h.size z) = some (wr m 0 (intEnc h.size z)) := store_eq (by simp [intEnc]; omega)
    rcases hk with rfl | rfl <;> simp [setDatum, Datum.isNull, isBit, isVar, hdr, hv, Datum.asInt, this] <;> rfl
  · intro bin hs b
    simp [hashDatum, Datum.isNull, Datum.asBytes, hashBytes]
  · intro t
    cases t with
    | prim k h => cases k <;> simp [hashDatum, Datum.isNull]
    | _ => simp [hashDatum, Datum.isNull]

example : Usable (.prim .int { isFinal := true, size := 2 }) ∧
    hashDatum cat [] (.prim .int { isFinal := true, size := 2 }) (.int (-2)) = some [254, 255] ∧
    hashDatum cat [] (.prim .bitField { isFinal := true, size := 3 }) (.uint 6) = some [0, 1, 1] :=
  ⟨⟨.prim .int { size := 2 }, .prim _ _ rfl, rfl, .prim _ _⟩, by decide +kernel, by decide +kernel⟩

/-- C46. The converse does not hold for any hash function: NULL is hashed by no bytes at all, nor is the
end of a string, so other tuples have the same hash. -/
theorem C46_boundaries_leave_no_trace : ∃ x y, exFinal.setElem exMem [1] (.int 0x01010101) 20 = some (x, true) ∧
    exFinal.setElem exMem [2] (.bytes [1, 1, 1, 1]) 20 = some (y, true) ∧
    compareTuples2 x y exFinal [([], 1)] = some 1 ∧
    ∀ (σ : Type) (upd : σ → UInt8 → σ) (h : σ), hashTuple upd x exFinal [[]] h = hashTuple upd y exFinal [[]] h :=
  ⟨_, _, rfl, rfl, by decide +kernel, fun _ _ _ => rfl⟩

end Props
end TS
