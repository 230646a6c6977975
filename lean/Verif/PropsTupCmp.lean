import Verif.PropsCmp
/-
Property C45: comparison of tuples.
-/
namespace TS
namespace Props
open Dti

/-- What is found at a position of a tuple of type `d` and value `val`: everything that is not there
counts as NULL. -/
def posVal (d : Dti) (val : Val) (pa : List Nat) : SVal :=
  match d.typeAt pa, val.at' pa with
  | some t, some y => sval t y
  | _, _ => .null

/-- The datum that is read at a position stands for the value there. -/
theorem elemOrNull_means {d : Dti} {m : Bytes} {S : Nat} {val : Val} (hd : TyOk d) (hS : S ≤ m.length)
    (he : Enc d (m.take S) val) (pa : List Nat) : ∃ v, d.elemOrNull m pa = some v ∧
      (∀ t, d.typeAt pa = some t → TyOk t ∧ Means t v (posVal d val pa)) ∧
      (d.typeAt pa = none → v = .null ∧ posVal d val pa = .null) := by
  have hg := getElem_ok pa hd hS he
  unfold GetOk at hg
  cases ha : val.at' pa with
  | none =>
    rw [ha] at hg
    refine ⟨.null, by simp [elemOrNull, hg], fun t ht => ⟨(typeAt_ok pa hd ht).1, .inl ⟨rfl, ?_⟩⟩, fun ht => ⟨rfl, ?_⟩⟩
    · simp [posVal, ha]
    · simp [posVal, ha]
  | some y =>
    rw [ha] at hg
    simp only at hg
    rcases hg with ⟨rfl, hg⟩ | ⟨t, dt, h1, h2, h3⟩
    · refine ⟨.null, by simp [elemOrNull, hg], fun t ht => ⟨(typeAt_ok pa hd ht).1, .inl ⟨rfl, ?_⟩⟩, fun ht => ⟨rfl, ?_⟩⟩
      · simp [posVal, ha, ht, sval_null]
      · simp [posVal, ht]
    · refine ⟨dt, by simp [elemOrNull, h2], fun t' ht => ?_, fun ht => by rw [ht] at h1; cases h1⟩
      rw [h1] at ht; cases ht
      refine ⟨(typeAt_ok pa hd h1).1, ?_⟩
      have : posVal d val pa = sval t y := by simp [posVal, ha, h1]
      rw [this]
      exact shows_means h3 (stored_at pa hd (.inr (.inr ⟨_, he⟩)) ha h1)

/-- The types of two positions let their values be compared: they are one and the same, or can be
compared, or one of the positions has no type (there is then nothing there). -/
def PosComparable (same : Bool) (t1 t2 : Option Dti) : Prop :=
  match t1, t2 with
  | some t1, some t2 => same = true ∨ canCompare t1 t2 = some true
  | _, _ => True

/-- `same` says that the two type pointers are equal; then the types are. -/
def SamePtr (same : Bool) (t1 t2 : Option Dti) : Prop := same = true → t1 = t2

/-- The outcome of the comparison of two data, `t1` and `t2` their types. -/
theorem compare_pos_st {same : Bool} {t1 t2 : Option Dti} {v1 v2 : Datum} {s1 s2 : SVal} (hp : SamePtr same t1 t2)
    (g1 : ∀ t, t1 = some t → TyOk t ∧ Stands t v1 s1) (g1' : t1 = none → v1 = .null ∧ s1 = .null)
    (g2 : ∀ t, t2 = some t → TyOk t ∧ Stands t v2 s2) (g2' : t2 = none → v2 = .null ∧ s2 = .null)
    (hc : PosComparable same t1 t2) :
    (if same then compareDatum2 v1 v2 t2 else compareDatum v1 t1 v2 t2) = some (s1.ord s2) := by
  have hnull : v1 = .null → s1 = .null → (∃ t, t2 = some t) ∨ t2 = none → cmpNull v1 v2 none = some (s1.ord s2) := by
    rintro rfl rfl ht
    have : v2.isNull = true ↔ s2 = .null := by
      rcases ht with ⟨t, ht⟩ | ht
      · exact (g2 t ht).2.null_iff
      · obtain ⟨rfl, rfl⟩ := g2' ht; simp [Datum.isNull]
    by_cases h : s2 = .null
    · subst h
      have : v2 = .null := by cases v2 <;> first | rfl | exact absurd (this.mpr rfl) (by simp [Datum.isNull])
      subst this; rfl
    · have h2 : v2.isNull = false := by cases hh : v2.isNull; rfl; exact absurd (this.mp hh) h
      cases s2 <;> simp_all [cmpNull, Datum.isNull, SVal.ord]
  have hnull2 : ∀ t, t1 = some t → v2 = .null → s2 = .null → cmpNull v1 v2 none = some (s1.ord s2) := by
    rintro t ht rfl rfl
    have := (g1 t ht).2.null_iff
    by_cases h : s1 = .null
    · subst h
      have : v1 = .null := by cases v1 <;> first | rfl | exact absurd (this.mpr rfl) (by simp [Datum.isNull])
      subst this; rfl
    · have h2 : v1.isNull = false := by cases hh : v1.isNull; rfl; exact absurd (this.mp hh) h
      cases s1 <;> simp_all [cmpNull, Datum.isNull, SVal.ord]
  cases same with
  | true =>
    have := hp rfl
    subst this
    simp only [if_true]
    cases t1 with
    | none =>
      obtain ⟨e1, e2⟩ := g1' rfl
      simp only [compareDatum2]; exact hnull e1 e2 (.inr rfl)
    | some t => simp only [compareDatum2]; exact cmpI2_st (g1 t rfl).1 (g1 t rfl).2 (g2 t rfl).2
  | false =>
    simp only [Bool.false_eq_true, if_false]
    cases t1 with
    | none =>
      obtain ⟨e1, e2⟩ := g1' rfl
      simp only [compareDatum]
      cases t2 with
      | none => exact hnull e1 e2 (.inr rfl)
      | some t => exact hnull e1 e2 (.inl ⟨t, rfl⟩)
    | some t =>
      cases t2 with
      | none =>
        obtain ⟨e1, e2⟩ := g2' rfl
        simp only [compareDatum]; exact hnull2 t rfl e1 e2
      | some u =>
        have hc : canCompare t u = some true := by
          rcases hc with h | h
          · cases h
          · exact h
        simp only [compareDatum, hc, Option.bind_eq_bind, Option.bind_some, Bool.not_true, Bool.false_eq_true, if_false]
        exact cmpI_st (g1 t rfl).1 (g2 u rfl).1 (canCompare_cmp (g1 t rfl).1 (g2 u rfl).1 hc) (g1 t rfl).2 (g2 u rfl).2

theorem compare_pos {same : Bool} {t1 t2 : Option Dti} {v1 v2 : Datum} {s1 s2 : SVal} (hp : SamePtr same t1 t2)
    (g1 : ∀ t, t1 = some t → TyOk t ∧ Means t v1 s1) (g1' : t1 = none → v1 = .null ∧ s1 = .null)
    (g2 : ∀ t, t2 = some t → TyOk t ∧ Means t v2 s2) (g2' : t2 = none → v2 = .null ∧ s2 = .null)
    (hc : PosComparable same t1 t2) :
    (if same then compareDatum2 v1 v2 t2 else compareDatum v1 t1 v2 t2) = some (s1.ord s2) :=
  compare_pos_st hp (fun t h => ⟨(g1 t h).1, (g1 t h).2.stands (g1 t h).1⟩) g1' (fun t h => ⟨(g2 t h).1, (g2 t h).2.stands (g2 t h).1⟩) g2' hc

/-- One position of a comparison as the specification sees it: whether it can be compared, the order
of the two values, the direction. -/
structure Cell where
  ok : Prop
  ord : Int
  dir : Int

/-- `res` is the outcome of comparing the cells in order: 0 if all can be compared and are equal; else
-2 if the first that is not equal cannot be compared, and its order times its direction if it can. -/
def Lexicographic (cells : List Cell) (res : Option Int) : Prop :=
  ((∀ c ∈ cells, c.ok ∧ c.ord = 0) → res = some 0) ∧
  ∀ pre c post, cells = pre ++ c :: post → (∀ p ∈ pre, p.ok ∧ p.ord = 0) →
    (¬ c.ok → res = some (-2)) ∧ (c.ok → c.ord ≠ 0 → res = some (c.ord * c.dir))

theorem cmpMany_lex {α : Type} (f : α → Option Int × Int) (g : α → Cell) (xs : List α) (hdir : ∀ x ∈ xs, (g x).dir = (f x).2)
    (hr : ∀ x ∈ xs, (g x).dir = 1 ∨ (g x).dir = -1)
    (hf : ∀ x ∈ xs, ((g x).ok → (f x).1 = some (g x).ord ∧ ((g x).ord = -1 ∨ (g x).ord = 0 ∨ (g x).ord = 1)) ∧
      (¬ (g x).ok → (f x).1 = some (-2))) :
    Lexicographic (xs.map g) (cmpMany (xs.map f)) := by
  have hne : ∀ (o d : Int), (o = -1 ∨ o = 0 ∨ o = 1) → (d = 1 ∨ d = -1) → o ≠ -2 ∧ (o * d = 0 ↔ o = 0) := by
    intro o d h1 h2
    rcases h1 with rfl | rfl | rfl <;> rcases h2 with rfl | rfl <;> decide
  induction xs with
  | nil => exact ⟨fun _ => rfl, fun pre c post h => by simp at h⟩
  | cons x xs ih =>
    have ih := ih (fun y hy => hdir y (by simp [hy])) (fun y hy => hr y (by simp [hy])) (fun y hy => hf y (by simp [hy]))
    have hx := hf x (by simp)
    have hd := hdir x (by simp)
    have hrx := hr x (by simp)
    have hstep : (g x).ok → cmpMany ((x :: xs).map f) = (if (g x).ord = 0 then cmpMany (xs.map f) else some ((g x).ord * (g x).dir)) := by
      intro hok
      obtain ⟨h1, h2⟩ := hx.1 hok
      obtain ⟨n1, n2⟩ := hne _ _ h2 hrx
      obtain ⟨fx, dx⟩ : ∃ a b, f x = (a, b) := ⟨_, _, rfl⟩
      obtain ⟨dx, hfx⟩ := dx
      simp only [List.map_cons, hfx]
      rw [hfx] at h1 hd
      simp only at h1 hd
      subst h1
      simp only [cmpMany, Option.bind_eq_bind, Option.bind_some, if_neg n1, ← hd]
      by_cases h0 : (g x).ord = 0
      · rw [if_pos h0, if_pos (n2.mpr h0)]
      · rw [if_neg h0, if_neg (fun h => h0 (n2.mp h))]; rfl
    constructor
    · intro hall
      have h0 := hall (g x) (by simp)
      rw [hstep h0.1, if_pos h0.2]
      exact ih.1 (fun c hc => hall c (by simp at hc ⊢; exact .inr hc))
    · intro pre c post hsplit hpre
      cases pre with
      | nil =>
        simp only [List.nil_append, List.map_cons, List.cons.injEq] at hsplit
        obtain ⟨rfl, _⟩ := hsplit
        constructor
        · intro hok
          have h1 := hx.2 hok
          obtain ⟨a, b, hfx⟩ : ∃ a b, f x = (a, b) := ⟨_, _, rfl⟩
          rw [hfx] at h1
          simp only at h1
          subst h1
          simp [hfx, cmpMany]
        · intro hok h0
          rw [hstep hok, if_neg h0]
      | cons p pre =>
        simp only [List.cons_append, List.map_cons, List.cons.injEq] at hsplit
        obtain ⟨rfl, hsplit⟩ := hsplit
        have h0 := hpre (g x) (by simp)
        rw [hstep h0.1, if_pos h0.2]
        exact ih.2 pre c post hsplit (fun q hq => hpre q (by simp [hq]))

theorem cmpMany_neg (l : List (Option Int × Int)) :
    cmpMany (l.map (fun p => (p.1, -p.2))) = (cmpMany l).map (fun r => if r = -2 then -2 else -r) ∨
      ∃ p ∈ l, p.1 = none ∨ ¬ (p.2 = 1 ∨ p.2 = -1) ∨ ∃ c, p.1 = some c ∧ ¬ (c = -2 ∨ c = -1 ∨ c = 0 ∨ c = 1) := by
  induction l with
  | nil => left; rfl
  | cons p l ih =>
    obtain ⟨x, d⟩ := p
    by_cases hb : x = none ∨ ¬ (d = 1 ∨ d = -1) ∨ ∃ c, x = some c ∧ ¬ (c = -2 ∨ c = -1 ∨ c = 0 ∨ c = 1)
    · right; exact ⟨(x, d), by simp, hb⟩
    · rcases ih with ih | ⟨q, hq, h⟩
      · left
        have hx : ∃ c, x = some c ∧ (c = -2 ∨ c = -1 ∨ c = 0 ∨ c = 1) := by
          cases x with
          | none => exact absurd (.inl rfl) hb
          | some c =>
            refine ⟨c, rfl, Classical.byContradiction fun h => hb (.inr (.inr ⟨c, rfl, h⟩))⟩
        have hd : d = 1 ∨ d = -1 := Classical.byContradiction fun h => hb (.inr (.inl h))
        obtain ⟨c, rfl, hc⟩ := hx
        simp only [List.map_cons, cmpMany, Option.bind_eq_bind, Option.bind_some]
        rcases hc with rfl | rfl | rfl | rfl <;> rcases hd with rfl | rfl <;> simp [ih]
      · right; exact ⟨q, by simp [hq], h⟩

/-- Two tuples and the positions to compare in them. -/
structure CmpArgs (m1 : Bytes) (d1 : Dti) (S1 : Nat) (val1 : Val) (m2 : Bytes) (d2 : Dti) (S2 : Nat) (val2 : Val)
    (ps : List CmpPos) : Prop where
  usable1 : Usable d1
  usable2 : Usable d2
  len1 : S1 ≤ m1.length
  len2 : S2 ≤ m2.length
  tuple1 : Enc d1 (m1.take S1) val1
  tuple2 : Enc d2 (m2.take S2) val2
  same : ∀ p ∈ ps, SamePtr p.same (d1.typeAt p.p1) (d2.typeAt p.p2)
  dirs : ∀ p ∈ ps, p.dir = 1 ∨ p.dir = -1
  /-- names do not fill their 64 bytes -/
  names : ∀ p ∈ ps, ∀ t, d1.typeAt p.p1 = some t → ShortNames t

/-- The cell of a position. -/
def cellOf (d1 : Dti) (val1 : Val) (d2 : Dti) (val2 : Val) (p : CmpPos) : Cell where
  ok := PosComparable p.same (d1.typeAt p.p1) (d2.typeAt p.p2)
  ord := (posVal d1 val1 p.p1).ord (posVal d2 val2 p.p2)
  dir := p.dir

theorem compareElems_cell {m1 : Bytes} {d1 : Dti} {S1 : Nat} {val1 : Val} {m2 : Bytes} {d2 : Dti} {S2 : Nat} {val2 : Val}
    {ps : List CmpPos} (a : CmpArgs m1 d1 S1 val1 m2 d2 S2 val2 ps) {p : CmpPos} (hp : p ∈ ps) :
    let c := cellOf d1 val1 d2 val2 p
    (c.ok → compareElems p.same m1 d1 p.p1 m2 d2 p.p2 = some c.ord ∧ (c.ord = -1 ∨ c.ord = 0 ∨ c.ord = 1)) ∧
      (¬ c.ok → compareElems p.same m1 d1 p.p1 m2 d2 p.p2 = some (-2)) := by
  obtain ⟨v1, e1, g1, g1'⟩ := elemOrNull_means a.usable1.ok a.len1 a.tuple1 p.p1
  obtain ⟨v2, e2, g2, g2'⟩ := elemOrNull_means a.usable2.ok a.len2 a.tuple2 p.p2
  have hun : compareElems p.same m1 d1 p.p1 m2 d2 p.p2 =
      (if p.same then compareDatum2 v1 v2 (d2.typeAt p.p2) else compareDatum v1 (d1.typeAt p.p1) v2 (d2.typeAt p.p2)) := by
    simp only [compareElems, e1, e2, Option.bind_eq_bind, Option.bind_some]
  refine ⟨fun hc => ⟨?_, SVal.ord_range _ _⟩, fun hc => ?_⟩
  · rw [hun]; exact compare_pos (a.same p hp) g1 g1' g2 g2' hc
  · rw [hun]
    simp only [cellOf, PosComparable] at hc
    cases ht1 : d1.typeAt p.p1 with
    | none => rw [ht1] at hc; exact absurd trivial hc
    | some t1 =>
      cases ht2 : d2.typeAt p.p2 with
      | none => rw [ht1, ht2] at hc; exact absurd trivial hc
      | some t2 =>
        rw [ht1, ht2] at hc
        simp only [not_or, Bool.not_eq_true] at hc
        rw [hc.1]
        simp only [Bool.false_eq_true, if_false]
        obtain ⟨b, hb⟩ := C42_comparable_total (a.names p hp t1 ht1) t2
        cases b with
        | true => exact absurd hb hc.2
        | false => exact C42_not_comparable _ _ hb

/-- C45. `compare_tuples` goes by the first position at which the tuples differ, times its direction,
or -2 if that position cannot be compared; it is 0 if they agree everywhere, and it never reads
outside of the tuples. -/
theorem C45_lexicographic {m1 : Bytes} {d1 : Dti} {S1 : Nat} {val1 : Val} {m2 : Bytes} {d2 : Dti} {S2 : Nat} {val2 : Val}
    {ps : List CmpPos} (a : CmpArgs m1 d1 S1 val1 m2 d2 S2 val2 ps) :
    Lexicographic (ps.map (cellOf d1 val1 d2 val2)) (compareTuples m1 d1 m2 d2 ps) :=
  cmpMany_lex _ (cellOf d1 val1 d2 val2) ps (fun _ _ => rfl) a.dirs (fun _ hp => compareElems_cell a hp)

/-- C45. The order of two values is 0 only if they are equal. -/
theorem C45_zero_iff_equal (a b : SVal) : a.ord b = 0 ↔ a = b :=
  ⟨SVal.ord_eq_zero a b, fun h => by rw [h]; exact SVal.ord_self b⟩

/-- C45. Reversing all directions negates the result, unless it is -2. -/
theorem C45_reversed {m1 : Bytes} {d1 : Dti} {S1 : Nat} {val1 : Val} {m2 : Bytes} {d2 : Dti} {S2 : Nat} {val2 : Val}
    {ps : List CmpPos} (a : CmpArgs m1 d1 S1 val1 m2 d2 S2 val2 ps) :
    compareTuples m1 d1 m2 d2 (ps.map (fun p => { p with dir := -p.dir })) =
      (compareTuples m1 d1 m2 d2 ps).map (fun r => if r = -2 then -2 else -r) := by
  have := cmpMany_neg (ps.map (fun p => (compareElems p.same m1 d1 p.p1 m2 d2 p.p2, p.dir)))
  rcases this with h | ⟨q, hq, h⟩
  · unfold compareTuples
    rw [← h]
    simp [List.map_map, Function.comp_def]
  · exfalso
    simp only [List.mem_map] at hq
    obtain ⟨p, hp, rfl⟩ := hq
    obtain ⟨c1, c2⟩ := compareElems_cell a hp
    have hd := a.dirs p hp
    simp only at h
    by_cases hok : (cellOf d1 val1 d2 val2 p).ok
    · obtain ⟨k1, k2⟩ := c1 hok
      rw [k1] at h
      rcases h with h | h | ⟨c, h, h'⟩
      · cases h
      · exact h hd
      · cases h; exact h' (.inr k2)
    · have k1 := c2 hok
      rw [k1] at h
      rcases h with h | h | ⟨c, h, h'⟩
      · cases h
      · exact h hd
      · cases h; exact h' (.inl rfl)

/-- Two tuples, compared by the second field and then by the string, downwards. -/
example : (exFinal.setElem exMem [2] (.bytes [98]) 20).bind (fun x => (exFinal.setElem exMem [2] (.bytes [97, 98]) 20).bind
      (fun y => compareTuples x.1 exFinal y.1 exFinal [⟨[1], [1], true, 1⟩, ⟨[2], [2], false, -1⟩])) = some (-1) ∧
    ∃ val, CmpArgs exMem exFinal 11 val exMem exFinal 11 val [⟨[1], [1], true, 1⟩, ⟨[2], [2], false, -1⟩] := by
  refine ⟨by decide +kernel, ?_⟩
  obtain ⟨h1, val, h2⟩ := exMem_tuple
  refine ⟨val, exFinal_usable, exFinal_usable, h1, h1, h2, h2, ?_, ?_, ?_⟩
  · intro p hp
    simp at hp
    rcases hp with rfl | rfl <;> intro _ <;> rfl
  · intro p hp
    simp at hp
    rcases hp with rfl | rfl <;> simp
  · intro p hp t ht
    simp at hp
    rcases hp with rfl | rfl <;> cases ht <;> simp [ShortNames, cname, strn]

/-- C45. `compare_tuples2`, also run by `compare_tuples` if the types and the positions are the same
pointers, does what `compare_tuples` does. -/
theorem C45_one_type {m1 m2 : Bytes} {d : Dti} {S1 S2 : Nat} {val1 val2 : Val} {ps : List (List Nat × Int)} (hd : Usable d)
    (l1 : S1 ≤ m1.length) (l2 : S2 ≤ m2.length) (e1 : Enc d (m1.take S1) val1) (e2 : Enc d (m2.take S2) val2)
    (hdir : ∀ p ∈ ps, p.2 = 1 ∨ p.2 = -1) :
    Lexicographic (ps.map (fun p => ⟨True, (posVal d val1 p.1).ord (posVal d val2 p.1), p.2⟩)) (compareTuples2 m1 m2 d ps) := by
  refine cmpMany_lex _ _ ps (fun _ _ => rfl) hdir (fun p hp => ⟨fun _ => ⟨?_, SVal.ord_range _ _⟩, fun h => absurd trivial h⟩)
  obtain ⟨v1, q1, g1, g1'⟩ := elemOrNull_means hd.ok l1 e1 p.1
  obtain ⟨v2, q2, g2, g2'⟩ := elemOrNull_means hd.ok l2 e2 p.1
  have := compare_pos (same := true) (fun _ => rfl) g1 g1' g2 g2' (by unfold PosComparable; split <;> simp)
  simp only [if_true] at this
  simp only [compareElems2, q1, q2, Option.bind_eq_bind, Option.bind_some, this]

example : (exFinal.setElem exMem [2] (.bytes [98]) 20).bind (fun x => compareTuples2 x.1 exMem exFinal [([2], -1)]) = some (-1) ∧
    ∃ val, Enc exFinal (exMem.take 11) val := ⟨by decide +kernel, exMem_tuple.2⟩

/-- C45. `compare_tuple_with_datum` does the same with a list of data. -/
theorem C45_tuple_with_data {m : Bytes} {d : Dti} {S : Nat} {val : Val} {ps : List (List Nat × Bool × Datum × Dti × Int)}
    {sv : Datum × Dti → SVal} (hd : Usable d) (hl : S ≤ m.length) (he : Enc d (m.take S) val)
    (hdir : ∀ p ∈ ps, p.2.2.2.2 = 1 ∨ p.2.2.2.2 = -1) (hu : ∀ p ∈ ps, Usable p.2.2.2.1)
    (hs : ∀ p ∈ ps, SamePtr p.2.1 (d.typeAt p.1) (some p.2.2.2.1)) (hn : ∀ p ∈ ps, ShortNames p.2.2.2.1)
    (hv : ∀ p ∈ ps, Means p.2.2.2.1 p.2.2.1 (sv (p.2.2.1, p.2.2.2.1))) :
    Lexicographic (ps.map (fun p => ⟨PosComparable p.2.1 (d.typeAt p.1) (some p.2.2.2.1),
      (posVal d val p.1).ord (sv (p.2.2.1, p.2.2.2.1)), p.2.2.2.2⟩)) (compareTupleDatum m d ps) := by
  refine cmpMany_lex _ _ ps (fun _ _ => rfl) hdir (fun p hp => ⟨fun hc => ⟨?_, SVal.ord_range _ _⟩, fun hc => ?_⟩)
  · obtain ⟨v1, q1, g1, g1'⟩ := elemOrNull_means hd.ok hl he p.1
    have := compare_pos (hs p hp) g1 g1' (t2 := some p.2.2.2.1) (v2 := p.2.2.1) (s2 := sv (p.2.2.1, p.2.2.2.1))
      (by intro t ht; cases ht; exact ⟨(hu p hp).ok, hv p hp⟩) (by intro h; cases h) hc
    simp only [compareElemDatum, q1, Option.bind_eq_bind, Option.bind_some, this]
  · obtain ⟨v1, q1, g1, g1'⟩ := elemOrNull_means hd.ok hl he p.1
    simp only [PosComparable] at hc
    cases ht1 : d.typeAt p.1 with
    | none => rw [ht1] at hc; exact absurd trivial hc
    | some t1 =>
      rw [ht1] at hc
      simp only [not_or, Bool.not_eq_true] at hc
      simp only [compareElemDatum, q1, Option.bind_eq_bind, Option.bind_some, hc.1, Bool.false_eq_true, if_false, ht1]
      obtain ⟨b, hb⟩ := C42_comparable_total (hn p hp) t1
      rw [C42_comparable_symmetric] at hb
      cases b with
      | true => exact absurd hb hc.2
      | false => exact C42_not_comparable _ _ hb

/-- The minimal tuple, its string compared with "a" and its second field with a string. -/
example : compareTupleDatum exMem exFinal [([2], false, .bytes [97], exStr, 1)] = some (-1) ∧
    compareTupleDatum exMem exFinal [([1], false, .bytes [97], exStr, 1)] = some (-2) ∧
    Usable exStr ∧ ShortNames exStr ∧ Means exStr (.bytes [97]) (charSeq [97]) :=
  ⟨by decide +kernel, by decide +kernel, exStr_usable, by simp [exStr, ShortNames, cname, strn], .inr ⟨rfl, _, rfl, rfl⟩⟩

/-- C45. `compare_datums3` does the same with two lists of data. -/
theorem C45_data {xs : List (Datum × Datum × Dti × Int)} {sv : Datum × Dti → SVal}
    (hdir : ∀ x ∈ xs, x.2.2.2 = 1 ∨ x.2.2.2 = -1) (hu : ∀ x ∈ xs, Usable x.2.2.1)
    (hv : ∀ x ∈ xs, Means x.2.2.1 x.1 (sv (x.1, x.2.2.1)) ∧ Means x.2.2.1 x.2.1 (sv (x.2.1, x.2.2.1))) :
    Lexicographic (xs.map (fun x => ⟨True, (sv (x.1, x.2.2.1)).ord (sv (x.2.1, x.2.2.1)), x.2.2.2⟩)) (compareDatums3 xs) := by
  refine cmpMany_lex _ _ xs (fun _ _ => rfl) hdir (fun p hp => ⟨fun _ => ⟨?_, SVal.ord_range _ _⟩, fun h => absurd trivial h⟩)
  exact cmpI2_ord (hu p hp).ok (hv p hp).1 (hv p hp).2

example : compareDatums3 [(.bytes [97], .bytes [97], exStr, 1), (.null, .bytes [], exStr, -1)] = some 1 := by decide +kernel

/-- C45. /repo/inc/tuplestore/tuple.h:60-62 announces -2 if an element is out of bounds. The code does not do
so: two positions that are not there compare as equal, and one that is not there as below
everything that is. -/
theorem C45_out_of_bounds_is_null {m1 : Bytes} {d1 : Dti} {S1 : Nat} {val1 : Val} {m2 : Bytes} {d2 : Dti} {S2 : Nat} {val2 : Val}
    {p : CmpPos} (a : CmpArgs m1 d1 S1 val1 m2 d2 S2 val2 [p]) (h1 : d1.typeAt p.p1 = none) :
    (posVal d2 val2 p.p2 = .null → compareElems p.same m1 d1 p.p1 m2 d2 p.p2 = some 0) ∧
    (posVal d2 val2 p.p2 ≠ .null → compareElems p.same m1 d1 p.p1 m2 d2 p.p2 = some (-1)) := by
  have hc : (cellOf d1 val1 d2 val2 p).ok := by simp [cellOf, PosComparable, h1]
  have hp1 : posVal d1 val1 p.p1 = .null := by simp [posVal, h1]
  have := ((compareElems_cell a (by simp)).1 hc).1
  rw [this]
  simp only [cellOf, hp1]
  cases posVal d2 val2 p.p2 <;> simp [SVal.ord]

example : compareElems false exMem exFinal [7] exMem exFinal [9] = some 0 ∧ exFinal.typeAt [7] = none := by decide +kernel

end Props
end TS
