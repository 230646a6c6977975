import Verif.CmpProof
import Verif.PropsSer
import Verif.PropsElem
/-
Properties C42-C45: comparison of data and tuples.
-/
namespace TS
namespace Props
open Dti

/-- `v` is a datum of type `d`: NULL, or the member of the union that belongs to the type is set, or
it points to a well formed tuple or array. -/
def Proper (d : Dti) (v : Datum) : Prop :=
  v = .null ∨ (v.isNull = false ∧
    match d with
    | .prim k h => ∃ x, numOf k h v = some x
    | .str _ _ => ∃ b, v.asBytes = some b
    | d => ∃ m S, v = .ptr m ∧ IsTuple d m S)

theorem Proper.means {d : Dti} {v : Datum} (h : Proper d v) : ∃ s, Means d v s := by
  rcases h with rfl | ⟨hn, h⟩
  · exact ⟨.null, .inl ⟨rfl, rfl⟩⟩
  · cases d with
    | prim k hh => obtain ⟨x, h⟩ := h; exact ⟨_, .inr ⟨hn, x, h, rfl⟩⟩
    | str b hh => obtain ⟨x, h⟩ := h; exact ⟨_, .inr ⟨hn, x, h, rfl⟩⟩
    | tup hh fs =>
      obtain ⟨m, S, h, hS, y, he⟩ := h
      obtain ⟨_, _, vs, rfl, _⟩ := enc_cont rfl he
      exact ⟨_, .inr ⟨hn, m, S, vs, h, hS, he, rfl⟩⟩
    | arr hh c =>
      obtain ⟨m, S, h, hS, y, he⟩ := h
      obtain ⟨_, _, vs, rfl, _⟩ := enc_cont rfl he
      exact ⟨_, .inr ⟨hn, m, S, vs, h, hS, he, rfl⟩⟩

/-! ### comparable types -/

theorem canCmpPrim_symm {k : PKind} {h : Hdr} {k2 : PKind} {h2 : Hdr} :
    canCmpPrim (.prim k h) (.prim k2 h2) = canCmpPrim (.prim k2 h2) (.prim k h) := by
  unfold canCmpPrim
  rw [ident_symm]
  simp [isNum]

theorem canCmpPrim_other {k : PKind} {h : Hdr} {d : Dti} (hd : d.isNum = false) :
    canCmpPrim (.prim k h) d = some false := by
  cases d <;> simp_all [canCmpPrim, ident, isNum]

/-- Whether two types can be compared does not depend on their order. -/
theorem C42_comparable_symmetric : ∀ d e, canCompare d e = canCompare e d := by
  intro d
  induction d using Dti.ind with
  | hp k h =>
    intro e
    cases e with
    | prim k2 h2 => simp only [canCompare]; exact canCmpPrim_symm
    | str b h2 => simp only [canCompare]; rw [canCmpPrim_other rfl]; simp [ident, cont]
    | tup h2 gs => simp only [canCompare]; rw [canCmpPrim_other rfl]; simp [ident]
    | arr h2 c2 => simp only [canCompare]; rw [canCmpPrim_other rfl]; simp [ident, cont]
  | hs b h =>
    intro e
    cases e with
    | prim k2 h2 => simp only [canCompare]; rw [canCmpPrim_other rfl]; simp [ident, cont]
    | str b2 h2 => simp only [canCompare, cont]; rw [ident_symm]
    | tup h2 gs => simp [canCompare, ident, cont]
    | arr h2 c2 =>
      simp only [canCompare, cont, ident, Option.bind_eq_bind, Option.bind_some, Bool.false_eq_true, if_false]
      cases c2 with
      | prim k3 h3 => simp only [canCompare]; exact canCmpPrim_symm
      | str b3 h3 => simp only [u8]; rw [canCmpPrim_other rfl]; simp [canCompare, ident, cont]
      | tup h3 gs => simp only [u8]; rw [canCmpPrim_other rfl]; simp [canCompare, ident]
      | arr h3 c3 => simp only [u8]; rw [canCmpPrim_other rfl]; simp [canCompare, ident, cont]
  | ht h fs ih =>
    intro e
    cases e with
    | prim k2 h2 => simp only [canCompare]; rw [canCmpPrim_other rfl]; simp [ident]
    | str b2 h2 => simp [canCompare, ident, cont]
    | tup h2 gs => simp only [canCompare]; exact ident_symm _ _
    | arr h2 c2 => simp [canCompare, ident, cont]
  | ha h c ih =>
    intro e
    cases e with
    | prim k2 h2 => simp only [canCompare]; rw [canCmpPrim_other rfl]; simp [ident, cont]
    | str b2 h2 =>
      have := ih u8
      simp only [canCompare, cont, ident, Option.bind_eq_bind, Option.bind_some, Bool.false_eq_true, if_false]
      rw [this]; simp [u8, canCompare]
    | tup h2 gs => simp [canCompare, ident, cont]
    | arr h2 c2 =>
      simp only [canCompare, cont]
      rw [ident_symm, ih c2]

theorem ident_total : ∀ {d : Dti}, ShortNames d → ∀ e, ∃ b, ident d e = some b := by
  have hsn : ∀ {a b : Bytes}, (cname a).length < 64 → ∃ x, sameName a b = some x := by
    intro a b h
    unfold sameName
    split
    · exact ⟨_, rfl⟩
    · exact ⟨_, rfl⟩
  have hbr : ∀ {a b : Bytes} {f : Bool → Option Bool}, (cname a).length < 64 → (∃ x, f true = some x) → (∃ x, f false = some x) →
      ∃ x, (sameName a b).bind f = some x := by
    intro a b f h h1 h2
    obtain ⟨x, hx⟩ := hsn (b := b) h
    rw [hx]
    cases x
    · exact h2
    · exact h1
  intro d
  induction d using Dti.ind with
  | hp k h =>
    intro hs e
    cases e with
    | prim k2 h2 =>
      simp only [ident]
      split
      · exact ⟨_, rfl⟩
      · apply hbr hs
        · simp only [Bool.not_true, Bool.false_eq_true, if_false]; split
          · exact ⟨_, rfl⟩
          · split <;> exact ⟨_, rfl⟩
        · exact ⟨_, rfl⟩
    | _ => exact ⟨_, rfl⟩
  | hs k h =>
    intro hs e
    cases e with
    | str k2 h2 =>
      simp only [ident]
      split
      · exact ⟨_, rfl⟩
      · apply hbr hs
        · simp only [Bool.not_true, Bool.false_eq_true, if_false]; split
          · exact ⟨_, rfl⟩
          · split <;> exact ⟨_, rfl⟩
        · exact ⟨_, rfl⟩
    | _ => exact ⟨_, rfl⟩
  | ht h fs ih =>
    intro hs e
    cases e with
    | tup h2 gs =>
      have hall : ∀ (fs gs : List (Fld × Dti)), (∀ f t, (f, t) ∈ fs → ShortNames t → ∀ e, ∃ b, ident t e = some b) →
          ShortNamesAll fs → ∃ b, identAll fs gs = some b := by
        intro fs
        induction fs with
        | nil => intro gs _ _; cases gs <;> exact ⟨_, rfl⟩
        | cons p r ihr =>
          obtain ⟨f, t⟩ := p
          intro gs ih hs
          cases gs with
          | nil => exact ⟨_, rfl⟩
          | cons q s =>
            obtain ⟨g, u⟩ := q
            simp only [identAll]
            obtain ⟨b, hb⟩ := ih f t (by simp) hs.1 u
            rw [hb]
            cases b with
            | false => exact ⟨_, rfl⟩
            | true => exact ihr s (fun f t hm => ih f t (by simp [hm])) hs.2
      simp only [ident]
      apply hbr hs.1
      · simp only [Bool.not_true, Bool.false_eq_true, if_false]
        repeat' split
        all_goals first | exact ⟨_, rfl⟩ | exact hall fs gs ih hs.2
      · exact ⟨_, rfl⟩
    | _ => exact ⟨_, rfl⟩
  | ha h c ih =>
    intro hs e
    cases e with
    | arr h2 c2 =>
      simp only [ident]
      apply hbr hs.1
      · simp only [Bool.not_true, Bool.false_eq_true, if_false]
        repeat' split
        all_goals first | exact ⟨_, rfl⟩ | exact ih hs.2 c2
      · exact ⟨_, rfl⟩
    | _ => exact ⟨_, rfl⟩

/-- Whether two types can be compared is found out without fault if the names in one of them are
short. -/
theorem C42_comparable_total : ∀ {d : Dti}, ShortNames d → ∀ e, ∃ b, canCompare d e = some b := by
  have hp : ∀ k h e, ShortNames (.prim k h) → ∃ b, canCmpPrim (.prim k h) e = some b := by
    intro k h e hs
    unfold canCmpPrim
    obtain ⟨b, hb⟩ := ident_total hs e
    rw [hb]
    cases b <;> exact ⟨_, rfl⟩
  intro d
  induction d using Dti.ind with
  | hp k h => intro hs e; exact hp k h e hs
  | hs k h =>
    intro hs e
    obtain ⟨b, hb⟩ := ident_total hs e
    simp only [canCompare, hb, Option.bind_eq_bind, Option.bind_some]
    cases b with
    | true => exact ⟨_, rfl⟩
    | false =>
      simp only [Bool.false_eq_true, if_false]
      cases e.cont with
      | none => exact ⟨_, rfl⟩
      | some c2 => exact hp _ _ _ (by simp [ShortNames, cname, strn])
  | ht h fs ih =>
    intro hs e
    simp only [canCompare]
    exact ident_total hs e
  | ha h c ih =>
    intro hs e
    obtain ⟨b, hb⟩ := ident_total hs e
    simp only [canCompare, hb, Option.bind_eq_bind, Option.bind_some]
    cases b with
    | true => exact ⟨_, rfl⟩
    | false =>
      simp only [Bool.false_eq_true, if_false]
      cases e.cont with
      | none => exact ⟨_, rfl⟩
      | some c2 => exact ih hs.2 c2

/-- A type can be compared with itself. -/
theorem C42_comparable_reflexive {d : Dti} (hs : ShortNames d) : canCompare d d = some true := by
  have hi : ident d d = some true := C33_reflexive hs
  cases d with
  | prim k h => simp [canCompare, canCmpPrim, hi]
  | str => simp [canCompare, hi]
  | tup => simp only [canCompare, hi]
  | arr => simp [canCompare, hi]

/-- A type of strings and arrays of integers used in the examples. -/
def exStr : Dti := .str false { isFinal := true, isVar := true, varCount := true, maxSize := 200, size := 1 }
def exInts : Dti := .arr { isFinal := true, isVar := true, varCount := true, maxSize := 300, size := 2 }
  (.prim .uint { isFinal := true, nullable := true, size := 2 })

theorem exStr_usable : Usable exStr :=
  ⟨.str false { varCount := true, maxSize := 200 }, .str _ _ rfl, rfl, .str _ _ (by decide) (by decide)⟩

theorem exInts_usable : Usable exInts :=
  ⟨.arr { varCount := true, maxSize := 300 } (.prim .uint { nullable := true, size := 2 }),
    .arr _ _ rfl (.prim _ _ rfl), rfl, .arr _ _ (.prim _ _) (by decide) (by decide)⟩

example : ShortNames exFinal ∧ canCompare exStr exInts = some true ∧ canCompare exInts exStr = some true ∧
    canCompare exFinal exStr = some false := by
  refine ⟨by simp [exFinal, ShortNames, ShortNamesAll, cname, strn], by decide +kernel, by decide +kernel, by decide +kernel⟩

/-! ### C42 -/

/-- C42. `compare_datum` on data of comparable types computes the order of the values they stand
for: NULL below everything, numbers by value with NaN above all others, strings, arrays and tuples
lexicographically. -/
theorem C42_compares_values {d1 d2 : Dti} {v1 v2 : Datum} {s1 s2 : SVal} (h1 : Usable d1) (h2 : Usable d2)
    (hc : canCompare d1 d2 = some true) (m1 : Means d1 v1 s1) (m2 : Means d2 v2 s2) :
    compareDatum v1 (some d1) v2 (some d2) = some (s1.ord s2) := by
  simp only [compareDatum, hc, Option.bind_eq_bind, Option.bind_some, Bool.not_true, Bool.false_eq_true, if_false]
  exact cmpI_ord h1.ok h2.ok (canCompare_cmp h1.ok h2.ok hc) m1 m2

/-- C42. The same for `compare_datum2`. -/
theorem C42_compares_values2 {d : Dti} {v1 v2 : Datum} {s1 s2 : SVal} (h : Usable d) (m1 : Means d v1 s1)
    (m2 : Means d v2 s2) : compareDatum2 v1 v2 (some d) = some (s1.ord s2) := cmpI2_ord h.ok m1 m2

/-- The string "ab" is below the array [97, 300] and above the array [97, NULL]. -/
example : canCompare exStr exInts = some true ∧
    compareDatum (.bytes [97, 98]) (some exStr) (.ptr [2, 0, 3, 97, 0, 44, 1]) (some exInts) = some (-1) ∧
    compareDatum (.bytes [97, 98]) (some exStr) (.ptr [2, 0, 1, 97, 0, 0, 0]) (some exInts) = some 1 := by
  refine ⟨by decide +kernel, by decide +kernel, by decide +kernel⟩

/-- C42. Data of types that cannot be compared give -2. -/
theorem C42_not_comparable {d1 d2 : Dti} (v1 v2 : Datum) (hc : canCompare d1 d2 = some false) :
    compareDatum v1 (some d1) v2 (some d2) = some (-2) := by
  simp [compareDatum, hc]

example : canCompare exFinal exStr = some false := by decide +kernel

/-- A three way comparison of the elements that satisfy `P` is a total preorder. -/
structure TotalPreorder {α : Type} (P : α → Prop) (cmp : α → α → Option Int) : Prop where
  refl : ∀ a, P a → cmp a a = some 0
  total : ∀ a b, P a → P b → ∃ r : Int, (r = -1 ∨ r = 0 ∨ r = 1) ∧ cmp a b = some r ∧ cmp b a = some (-r)
  trans : ∀ a b c r s, P a → P b → P c → cmp a b = some r → cmp b c = some s → r ≤ 0 → s ≤ 0 →
    ∃ t, cmp a c = some t ∧ t ≤ 0 ∧ (r < 0 ∨ s < 0 → t < 0)

theorem preorder_of {α : Type} {P : α → Prop} {cmp : α → α → Option Int} (M : α → SVal → Prop)
    (hp : ∀ a, P a → ∃ s, M a s) (hc : ∀ a b s t, M a s → M b t → cmp a b = some (s.ord t)) : TotalPreorder P cmp where
  refl a ha := by
    obtain ⟨s, hs⟩ := hp a ha
    rw [hc a a s s hs hs, SVal.ord_self]
  total a b ha hb := by
    obtain ⟨s, hs⟩ := hp a ha
    obtain ⟨t, ht⟩ := hp b hb
    exact ⟨s.ord t, SVal.ord_range s t, hc a b s t hs ht, by rw [hc b a t s ht hs, SVal.ord_swap]⟩
  trans a b c r q ha hb hc' h1 h2 h3 h4 := by
    obtain ⟨s, hs⟩ := hp a ha
    obtain ⟨t, ht⟩ := hp b hb
    obtain ⟨u, hu⟩ := hp c hc'
    rw [hc a b s t hs ht] at h1; cases h1
    rw [hc b c t u ht hu] at h2; cases h2
    obtain ⟨k1, k2⟩ := SVal.ord_trans s t u h3 h4
    exact ⟨_, hc a c s u hs hu, k1, k2⟩

/-- C42. `compare_datum` is a total preorder on the data of every type. -/
theorem C42_total_preorder {d : Dti} (h : Usable d) (hs : ShortNames d) :
    TotalPreorder (Proper d) (fun a b => compareDatum a (some d) b (some d)) :=
  preorder_of (Means d) (fun _ ha => ha.means)
    (fun _ _ _ _ h1 h2 => C42_compares_values h h (C42_comparable_reflexive hs) h1 h2)

/-- C42. So is `compare_datum2`. -/
theorem C42_total_preorder2 {d : Dti} (h : Usable d) :
    TotalPreorder (Proper d) (fun a b => compareDatum2 a b (some d)) :=
  preorder_of (Means d) (fun _ ha => ha.means) (fun _ _ _ _ h1 h2 => C42_compares_values2 h h1 h2)

/-- C42. `compare_datum` is a total preorder on all data of any set of pairwise comparable types, in
particular on all numbers of all types. -/
theorem C42_total_preorder_across_types (T : Dti → Prop) (hu : ∀ d, T d → Usable d)
    (hc : ∀ d e, T d → T e → canCompare d e = some true) :
    TotalPreorder (fun p : Datum × Dti => T p.2 ∧ Proper p.2 p.1)
      (fun a b => compareDatum a.1 (some a.2) b.1 (some b.2)) :=
  preorder_of (fun p s => T p.2 ∧ Means p.2 p.1 s)
    (fun _ ha => ha.2.means.imp fun _ hs => ⟨ha.1, hs⟩)
    (fun _ _ _ _ h1 h2 => C42_compares_values (hu _ h1.1) (hu _ h2.1) (hc _ _ h1.1 h2.1) h1.2 h2.2)

/-- Memory with a tuple in which the string is "b", and one in which it is "ab". -/
example : Usable exFinal ∧ ShortNames exFinal ∧ Proper exFinal (.ptr exMem) ∧
    (exFinal.setElem exMem [2] (.bytes [98]) 20).bind (fun x => (exFinal.setElem exMem [2] (.bytes [97, 98]) 20).bind
      (fun y => compareDatum (.ptr x.1) (some exFinal) (.ptr y.1) (some exFinal))) = some 1 := by
  refine ⟨exFinal_usable, by simp [exFinal, ShortNames, ShortNamesAll, cname, strn],
    .inr ⟨rfl, exMem, 11, rfl, exMem_tuple⟩, by decide +kernel⟩

example : Usable exStr ∧ Usable exInts ∧ canCompare exStr exStr = some true ∧ canCompare exStr exInts = some true ∧
    canCompare exInts exStr = some true ∧ canCompare exInts exInts = some true :=
  ⟨exStr_usable, exInts_usable, by decide +kernel, by decide +kernel, by decide +kernel, by decide +kernel⟩

/-- C42. NULL is below every other datum and equal to NULL, for all types that can be compared. -/
theorem C42_null_lowest {d1 d2 : Dti} {v : Datum} (hc : canCompare d1 d2 = some true) :
    compareDatum .null (some d1) v (some d2) = some (if v = .null then 0 else -1) ∧
    compareDatum v (some d2) .null (some d1) = some (if v = .null then 0 else 1) := by
  have hc2 : canCompare d2 d1 = some true := by rw [C42_comparable_symmetric]; exact hc
  simp only [compareDatum, hc, hc2, Option.bind_eq_bind, Option.bind_some, Bool.not_true, Bool.false_eq_true, if_false]
  have key : ∀ f, cmpNull .null v f = some (if v = .null then 0 else -1) ∧ cmpNull v .null f = some (if v = .null then 0 else 1) := by
    intro f
    cases v <;> simp [cmpNull, Datum.isNull]
  constructor
  · cases d1 <;> simp only [cmpI] <;> exact (key _).1
  · cases d2 <;> simp only [cmpI] <;> exact (key _).2

/-- C42. NaN is above every other number of every numeral type and equal to NaN. -/
theorem C42_nan_highest {k : PKind} {h hf : Hdr} {v : Datum} {b : Bytes} {x : Num} (h1 : Usable (.prim k h))
    (h2 : Usable (.prim .float hf)) (hc : canCompare (.prim k h) (.prim .float hf) = some true)
    (hv : v.isNull = false) (hx : numOf k h v = some x) (hb : b.length = hf.size) (hn : Num.ofBits b = .nan) :
    compareDatum v (some (.prim k h)) (.flt b) (some (.prim .float hf)) = some (if x = .nan then 0 else -1) := by
  rw [C42_compares_values h1 h2 hc (.inr ⟨hv, x, hx, rfl⟩)
    (.inr ⟨rfl, .nan, by simp [numOf, Datum.asFlt, hb, hn], rfl⟩)]
  simp only [SVal.ord]
  split
  · rename_i h; rw [h, Num.ord_self]
  · rename_i h; rw [Num.ord_nan h]

/-- Float types used in the examples. -/
def exFloat : Dti := .prim .float { isFinal := true, size := 4 }
def exDouble : Dti := .prim .float { isFinal := true, size := 8 }

example : Usable exFloat ∧ Usable exDouble ∧ canCompare exFloat exDouble = some true ∧
    numOf .float { isFinal := true, size := 4 } (.flt [0, 0, 128, 127]) = some .pinf ∧
    Num.ofBits [0, 0, 0, 0, 0, 0, 248, 127] = .nan := by
  refine ⟨⟨.prim .float { size := 4 }, .prim _ _ rfl, rfl, .prim _ _⟩,
    ⟨.prim .float { size := 8 }, .prim _ _ rfl, rfl, .prim _ _⟩, by decide +kernel, by decide +kernel, by decide +kernel⟩

/-! ### C43 -/

/-- The integer a datum of an integer or bit field type is. -/
def intOf (k : PKind) (v : Datum) : Option Int :=
  match k with
  | .bitField | .uint | .largeUint => v.asUint.map (fun n : Nat => (n : Int))
  | .int | .largeInt => v.asInt
  | .float => none

/-- C43. Two numbers of whatever numeral types, floating point included, compare by their exact
value. -/
theorem C43_numbers_by_value {k1 k2 : PKind} {h1 h2 : Hdr} {v1 v2 : Datum} {x1 x2 : Num} (u1 : Usable (.prim k1 h1))
    (u2 : Usable (.prim k2 h2)) (hc : canCompare (.prim k1 h1) (.prim k2 h2) = some true)
    (n1 : v1.isNull = false) (n2 : v2.isNull = false) (e1 : numOf k1 h1 v1 = some x1) (e2 : numOf k2 h2 v2 = some x2) :
    compareDatum v1 (some (.prim k1 h1)) v2 (some (.prim k2 h2)) =
      some (if Num.lt x1 x2 then -1 else if x1 = x2 then 0 else 1) :=
  C42_compares_values u1 u2 hc (.inr ⟨n1, x1, e1, rfl⟩) (.inr ⟨n2, x2, e2, rfl⟩)

theorem numOf_int {k : PKind} {h : Hdr} {v : Datum} {a : Int} (e : intOf k v = some a) : numOf k h v = some (.ofInt a) := by
  cases k <;> simp only [intOf] at e <;> simp only [numOf] <;> first
    | (rw [Option.map_eq_some_iff] at e ⊢; obtain ⟨n, hn, rfl⟩ := e; exact ⟨n, hn, rfl⟩)
    | (rw [e]; rfl)
    | cases e

/-- C43. Two integers of whatever integer and bit field types, signed and unsigned, of 1 to 32 bytes,
compare by their value. -/
theorem C43_integers_by_value {k1 k2 : PKind} {h1 h2 : Hdr} {v1 v2 : Datum} {a b : Int} (u1 : Usable (.prim k1 h1))
    (u2 : Usable (.prim k2 h2)) (hc : canCompare (.prim k1 h1) (.prim k2 h2) = some true)
    (e1 : intOf k1 v1 = some a) (e2 : intOf k2 v2 = some b) :
    compareDatum v1 (some (.prim k1 h1)) v2 (some (.prim k2 h2)) = some (if a < b then -1 else if a = b then 0 else 1) := by
  have nn : ∀ {k v} {z : Int}, intOf k v = some z → v.isNull = false := by
    intro k v z h; cases k <;> cases v <;> simp_all [intOf, Datum.isNull, Datum.asUint, Datum.asInt]
  rw [C43_numbers_by_value u1 u2 hc (nn e1) (nn e2) (numOf_int e1) (numOf_int e2)]
  have : (Num.ofInt a = Num.ofInt b) ↔ a = b := ⟨Num.ofInt_inj, fun h => by rw [h]⟩
  simp only [Num.ofInt_lt, this]

/-- Any two numeral types can be compared, as long as the name of the first does not fill its 64
bytes. -/
theorem C43_numerals_comparable {k1 k2 : PKind} {h1 h2 : Hdr} (hs : ShortNames (.prim k1 h1)) :
    canCompare (.prim k1 h1) (.prim k2 h2) = some true := by
  obtain ⟨b, hb⟩ := ident_total hs (.prim k2 h2)
  cases b <;> simp [canCompare, canCmpPrim, hb, isNum]

/-- -1 of a signed type is below 2^64-1 of an unsigned type; 2^53+1 is above the double 2^53. -/
example : Usable (.prim .int { isFinal := true, size := 8 }) ∧ Usable (.prim .largeUint { isFinal := true, size := 9 }) ∧
    canCompare (.prim .int { isFinal := true, size := 8 }) (.prim .largeUint { isFinal := true, size := 9 }) = some true ∧
    intOf .int (.int (-1)) = some (-1) ∧ intOf .largeUint (.uint (2 ^ 64 - 1)) = some (2 ^ 64 - 1) ∧
    compareDatum (.int (-1)) (some (.prim .int { isFinal := true, size := 8 })) (.uint (2 ^ 64 - 1))
      (some (.prim .largeUint { isFinal := true, size := 9 })) = some (-1) ∧
    compareDatum (.uint (2 ^ 53 + 1)) (some (.prim .uint { isFinal := true, size := 8 }))
      (.flt [0, 0, 0, 0, 0, 0, 64, 67]) (some exDouble) = some 1 := by
  refine ⟨⟨.prim .int { size := 8 }, .prim _ _ rfl, rfl, .prim _ _⟩,
    ⟨.prim .largeUint { size := 9 }, .prim _ _ rfl, rfl, .prim _ _⟩, by decide +kernel, by decide +kernel,
    by decide +kernel, by decide +kernel, by decide +kernel⟩

/-! ### C44 -/

/-- C44. On two data of one type `compare_datum` and `compare_datum2` give the same answer. -/
theorem C44_compare2_agrees {d : Dti} {v1 v2 : Datum} (h : Usable d) (hs : ShortNames d) (h1 : Proper d v1)
    (h2 : Proper d v2) : compareDatum v1 (some d) v2 (some d) = compareDatum2 v1 v2 (some d) ∧
      ∃ r : Int, compareDatum2 v1 v2 (some d) = some r ∧ (r = -1 ∨ r = 0 ∨ r = 1) := by
  obtain ⟨s1, m1⟩ := h1.means
  obtain ⟨s2, m2⟩ := h2.means
  rw [C42_compares_values h h (C42_comparable_reflexive hs) m1 m2, C42_compares_values2 h m1 m2]
  exact ⟨rfl, _, rfl, SVal.ord_range s1 s2⟩

example : Usable exFinal ∧ ShortNames exFinal ∧ Proper exFinal (.ptr exMem) ∧ Proper exFinal .null :=
  ⟨exFinal_usable, by simp [exFinal, ShortNames, ShortNamesAll, cname, strn],
    .inr ⟨rfl, exMem, 11, rfl, exMem_tuple⟩, .inl rfl⟩

end Props
end TS
