import Verif.ContResize
/-
The functions that follow a position through a tuple without changing it: element counts, the
growth allowed, and when an expansion succeeds.
-/
namespace TS
namespace Dti

section
variable {d : Dti} {m : Bytes} {S : Nat} {cs : List Elt} {o : Nat → Nat} {vs : List Val}

/-- One step into a container. -/
theorem walk (h : TyOk d) (hc : d.isCont = true) (r : CRep d m S cs o) (hv : EVals d cs vs) {i : Nat}
    (hlt : i < cs.length) :
    (vs[i]? = some .null ∧ d.ptrAt m (posOf d cs.length i) = some none) ∨
    ((posOf d cs.length i).ty.isBit = true ∧ (∃ v, vs[i]? = some (.bits v)) ∧
      ∃ o', d.ptrAt m (posOf d cs.length i) = some (some o')) ∨
    ∃ o' S' y, d.ptrAt m (posOf d cs.length i) = some (some o') ∧ vs[i]? = some y ∧ S' ≤ (m.drop o').length ∧
      Enc (posOf d cs.length i).ty ((m.drop o').take S') y := by
  have hok := posOf_ok h hc r.countOk hlt
  have hci := List.getElem?_eq_getElem hlt
  have hvi := List.getElem?_eq_getElem (l := vs) (i := i) (by rw [hv.1]; exact hlt)
  have hx := hv.2 i _ _ hci hvi
  have hel := r.elt i _ hci
  have hp := ptrAt_eq h hc r hci
  generalize cs[i] = c at hx hel hp hci
  generalize vs[i]'_ = y at hx hvi
  cases c with
  | null => left; exact ⟨by rw [hvi]; exact congrArg some hx, hp⟩
  | bits w => right; left; exact ⟨hel.1, ⟨w, by rw [hvi]; exact congrArg some hx⟩, _, hp⟩
  | fixd b =>
    right; right
    obtain ⟨e1, e2, e3, e4⟩ := hel
    have hs := slot_ok h hc r hlt e1
    simp only [slot, e2, Bool.false_eq_true, if_false] at hs
    have hsz := (enc_size hok hx).2.2.2.2.2 e2
    refine ⟨_, b.length, y, hp, hvi, by simp; omega, ?_⟩
    rw [hsz]
    have : (m.drop (posOf d cs.length i).off).take (posOf d cs.length i).ty.hdr.size = b := e4
    rw [this]; exact hx
  | var b =>
    right; right
    obtain ⟨e1, e2, e3, e4, e5, e6, e7⟩ := hel
    have := r.le
    refine ⟨_, b.length, y, hp, hvi, by simp; omega, ?_⟩
    have : (m.drop (o i)).take b.length = b := e5
    rw [this]; exact hx

end

/-- The number of elements a value has. -/
def valCount : Option Val → Nat
  | some (.node vs) => vs.length
  | _ => 0

theorem notCont_typeAt {d : Dti} (hc : d.isCont = false) (i : Nat) (pa : List Nat) : d.typeAt (i :: pa) = none := by
  simp [typeAt, tyAtNoData, hc]

theorem at_null (pa : List Nat) : Val.null.at' pa = some .null := by
  cases pa <;> rfl

theorem elemCount_ok (pa : List Nat) : ∀ {d t : Dti} {m : Bytes} {S : Nat} {val : Val},
    TyOk d → S ≤ m.length → Enc d (m.take S) val → d.typeAt pa = some t → t.isCont = true →
    d.elemCount m pa = some (valCount (val.at' pa)) := by
  induction pa with
  | nil =>
    intro d t m S val h hS e ht hc
    simp only [typeAt, Option.some.injEq] at ht
    subst ht
    obtain ⟨cs, o, vs, rfl, r, hv⟩ := crep_of_enc h hc hS e
    simp only [elemCount, Val.at', valCount, hv.1]
    exact getCount_eq h hc r
  | cons i pa ih =>
    intro d t m S val h hS e ht htc
    cases hc : d.isCont with
    | false => rw [notCont_typeAt hc] at ht; cases ht
    | true =>
      obtain ⟨cs, o, vs, rfl, r, hv⟩ := crep_of_enc h hc hS e
      by_cases hlt : i < cs.length
      · have hok := posOf_ok h hc r.countOk hlt
        have hty := tyAtNoData_pos h hc r.countOk hlt
        simp only [typeAt, hty, Option.bind_eq_bind, Option.bind_some] at ht
        simp only [elemCount, hc, getCount_eq h hc r, posInfo_eq h hc r hlt, Bool.not_true, Bool.false_eq_true, if_false,
          Option.bind_eq_bind, Option.bind_some, ge_iff_le, Nat.not_le.mpr hlt]
        rcases walk h hc r hv hlt with ⟨h1, h2⟩ | ⟨h1, ⟨v, h2⟩, o', h3⟩ | ⟨o', S', y, h1, h2, h3, h4⟩
        · simp only [h2, Option.bind_some, Val.at', h1, at_null]; rfl
        · exfalso
          have : (posOf d cs.length i).ty.isCont = false := by
            cases hcc : (posOf d cs.length i).ty with
            | prim => rfl
            | _ => rw [hcc] at h1; simp [isBit] at h1
          cases pa with
          | nil =>
            simp only [typeAt, Option.some.injEq] at ht
            rw [← ht, this] at htc; cases htc
          | cons => rw [notCont_typeAt this] at ht; cases ht
        · simp only [h1, Option.bind_some, Val.at', h2]
          exact ih hok h3 h4 ht htc
      · have hge : i ≥ cs.length := by omega
        have : vs[i]? = none := List.getElem?_eq_none (by rw [hv.1]; exact hge)
        simp only [elemCount, hc, getCount_eq h hc r, Bool.not_true, Bool.false_eq_true, if_false,
          Option.bind_eq_bind, Option.bind_some, hge, if_true, Val.at', this]
        rfl

/-- The allowance only limits. -/
theorem maxInc_min (pa : List Nat) : ∀ (d : Dti) (m : Bytes) (a b : Nat),
    d.maxInc m (min a b) pa = (d.maxInc m b pa).map (min a) := by
  induction pa with
  | nil =>
    intro d m a b
    unfold maxInc
    cases d.isVar with
    | false => simp
    | true =>
      simp only [Bool.not_true, Bool.false_eq_true, if_false, Option.bind_eq_bind]
      cases d.getSize m with
      | none => rfl
      | some s =>
        simp only [Option.bind_some]
        cases sub32 d.hdr.maxSize s with
        | none => rfl
        | some x => simp [Nat.min_assoc]
  | cons i pa ih =>
    intro d m a b
    unfold maxInc
    cases d.isVar with
    | false => simp
    | true =>
      simp only [Bool.not_true, Bool.false_eq_true, if_false, Option.bind_eq_bind]
      cases d.getSize m with
      | none => rfl
      | some s =>
        simp only [Option.bind_some]
        cases sub32 d.hdr.maxSize s with
        | none => rfl
        | some x =>
          simp only [Option.bind_some]
          cases d.isCont with
          | false => simp
          | true =>
            simp only [Bool.not_true, Bool.false_eq_true, if_false]
            cases d.getCount m with
            | none => rfl
            | some n =>
              simp only [Option.bind_some]
              split
              · simp
              · cases d.posInfo m i with
                | none => rfl
                | some p =>
                  simp only [Option.bind_some]
                  cases d.ptrAt m p with
                  | none => rfl
                  | some q =>
                    simp only [Option.bind_some]
                    cases q with
                    | none => simp
                    | some o => simp only [Nat.min_assoc]; exact ih _ _ _ _

/-- When an expansion is possible. -/
theorem canExpandElemI_iff (pa : List Nat) : ∀ {d t : Dti} {m : Bytes} {S : Nat} {val : Val} {index slots inc : Nat},
    TyOk d → S ≤ m.length → Enc d (m.take S) val → d.typeAt pa = some t → t.isVarCount = true →
    (∀ vs, val.at' pa = some (.node vs) → GrowPre t vs.length slots) →
    ∃ k q, d.maxInc m inc pa = some k ∧ d.canExpandElemI m index slots inc pa = some q ∧
      (q = true ↔ ∃ vs, val.at' pa = some (.node vs) ∧ index ≤ vs.length ∧
        fixedEnd t (vs.length + slots) ≤ fixedEnd t vs.length + k) := by
  induction pa with
  | nil =>
    intro d t m S val index slots inc h hS he ht hvc hg
    simp only [typeAt, Option.some.injEq] at ht
    subst ht
    obtain ⟨hc, hdv, c, hcd, hok, _⟩ := varCount_cont h hvc
    obtain ⟨cs, o, vs, rfl, r, hv⟩ := crep_of_enc h hc hS he
    obtain ⟨g1, g2⟩ := hg vs rfl
    rw [hv.1] at g1 g2
    have hlim := r.lt_lim h hc
    have hsum := r.sum
    have hmx := r.mx hdv
    unfold lim at hlim g1
    -- room plays no part in the answer
    have hext : CRep d (m ++ List.replicate d.hdr.maxSize 0) S cs o := by
      refine CRep.of_take h hc (by simp; omega) ?_
      rw [List.take_append_of_le_length hS]; exact r.take h hc
    obtain ⟨m', q, k1, k2, k3, k4, k5, k6⟩ := expand_ok h hvc hcd hext (index := index) (slots := slots) (inc := inc) rfl
      ⟨by omega, g2⟩ (by simp; omega)
    refine ⟨min inc (d.hdr.maxSize - S), q, ?_, k2 m o r, ?_⟩
    · simp only [maxInc, hdv, Bool.not_true, Bool.false_eq_true, if_false, getSize_eq h hc r, Option.bind_eq_bind,
        Option.bind_some, sub32_eq hmx]; rfl
    · rw [k5]
      constructor
      · intro ⟨q1, q2, q3⟩
        exact ⟨vs, rfl, by rw [hv.1]; exact q1, by rw [hv.1]; omega⟩
      · intro ⟨vs', q0, q1, q2⟩
        cases q0
        rw [hv.1] at q1 q2
        exact ⟨q1, by omega, by omega⟩
  | cons i pa ih =>
    intro d t m S val index slots inc h hS he ht hvc hg
    have htv := (typeAt_ok (i :: pa) h ht).2
    cases hc : d.isCont with
    | false => rw [notCont_typeAt hc] at ht; cases ht
    | true =>
      obtain ⟨cs, o, vs, rfl, r, hv⟩ := crep_of_enc h hc hS he
      have hdv : d.isVar = true := by
        have := (varCount_cont (typeAt_ok (i :: pa) h ht).1 hvc).2.1
        exact htv this
      have hmx := r.mx hdv
      by_cases hlt : i < cs.length
      · have hok := posOf_ok h hc r.countOk hlt
        have hty := tyAtNoData_pos h hc r.countOk hlt
        simp only [typeAt, hty, Option.bind_eq_bind, Option.bind_some] at ht
        simp only [canExpandElemI, maxInc, hc, hdv, getCount_eq h hc r, getSize_eq h hc r, sub32_eq hmx,
          posInfo_eq h hc r hlt, Bool.not_true, Bool.false_eq_true, if_false, Option.bind_eq_bind, Option.bind_some,
          ge_iff_le, Nat.not_le.mpr hlt]
        rcases walk h hc r hv hlt with ⟨h1, h2⟩ | ⟨h1, ⟨v, h2⟩, o', h3⟩ | ⟨o', S', y, h1, h2, h3, h4⟩
        · simp only [h2, Option.bind_some]
          refine ⟨0, false, rfl, rfl, ?_⟩
          simp only [Val.at', h1, at_null]
          simp
        · exfalso
          have : (posOf d cs.length i).ty.isCont = false := by
            cases hcc : (posOf d cs.length i).ty with
            | prim => rfl
            | _ => rw [hcc] at h1; simp [isBit] at h1
          cases pa with
          | nil =>
            simp only [typeAt, Option.some.injEq] at ht
            have := (varCount_cont (ht ▸ hok) hvc).1
            rw [← ht] at this; simp_all
          | cons => rw [notCont_typeAt this] at ht; cases ht
        · simp only [h1, Option.bind_some, Val.at', h2]
          exact ih hok h3 h4 ht hvc (fun vs' hvs' => hg vs' (by simp only [Val.at', h2]; exact hvs'))
      · have hge : i ≥ cs.length := by omega
        have : vs[i]? = none := List.getElem?_eq_none (by rw [hv.1]; exact hge)
        refine ⟨0, false, ?_, ?_, ?_⟩
        · simp [maxInc, hc, hdv, getCount_eq h hc r, getSize_eq h hc r, sub32_eq hmx, hge]
        · simp [canExpandElemI, hc, getCount_eq h hc r, hge]
        · simp [Val.at', this]

/-- When discarding is possible. -/
theorem canDiscardElemI_iff (pa : List Nat) : ∀ {d t : Dti} {m : Bytes} {S : Nat} {val : Val} {index slots : Nat},
    TyOk d → S ≤ m.length → Enc d (m.take S) val → d.typeAt pa = some t → t.isVarCount = true →
    ∃ q, d.canDiscardElemI m index slots pa = some q ∧
      (q = true ↔ ∃ vs, val.at' pa = some (.node vs) ∧ index < vs.length ∧ index + slots ≤ vs.length) := by
  induction pa with
  | nil =>
    intro d t m S val index slots h hS he ht hvc
    simp only [typeAt, Option.some.injEq] at ht
    subst ht
    obtain ⟨hc, hdv, c, hcd, hok, _⟩ := varCount_cont h hvc
    obtain ⟨cs, o, vs, rfl, r, hv⟩ := crep_of_enc h hc hS he
    simp only [canDiscardElemI, canDiscard, hvc, Bool.not_true, Bool.false_eq_true, if_false, getCount_eq h hc r,
      Option.bind_eq_bind, Option.bind_some]
    by_cases hi : index ≥ cs.length
    · rw [if_pos hi]
      refine ⟨false, rfl, ?_⟩
      simp only [Bool.false_eq_true, false_iff]
      intro ⟨vs', q0, q1, q2⟩
      cases q0
      have := hv.1
      omega
    · rw [if_neg hi]
      refine ⟨_, rfl, ?_⟩
      rw [decide_eq_true_iff]
      have := hv.1
      constructor
      · intro hs; exact ⟨vs, rfl, by omega, by omega⟩
      · intro ⟨vs', q0, q1, q2⟩; cases q0; omega
  | cons i pa ih =>
    intro d t m S val index slots h hS he ht hvc
    cases hc : d.isCont with
    | false => rw [notCont_typeAt hc] at ht; cases ht
    | true =>
      obtain ⟨cs, o, vs, rfl, r, hv⟩ := crep_of_enc h hc hS he
      by_cases hlt : i < cs.length
      · have hok := posOf_ok h hc r.countOk hlt
        have hty := tyAtNoData_pos h hc r.countOk hlt
        simp only [typeAt, hty, Option.bind_eq_bind, Option.bind_some] at ht
        simp only [canDiscardElemI, hc, getCount_eq h hc r,
          posInfo_eq h hc r hlt, Bool.not_true, Bool.false_eq_true, if_false, Option.bind_eq_bind, Option.bind_some,
          ge_iff_le, Nat.not_le.mpr hlt]
        rcases walk h hc r hv hlt with ⟨h1, h2⟩ | ⟨h1, ⟨v, h2⟩, o', h3⟩ | ⟨o', S', y, h1, h2, h3, h4⟩
        · simp only [h2, Option.bind_some]
          refine ⟨false, rfl, ?_⟩
          simp only [Val.at', h1, at_null]
          simp
        · exfalso
          have : (posOf d cs.length i).ty.isCont = false := by
            cases hcc : (posOf d cs.length i).ty with
            | prim => rfl
            | _ => rw [hcc] at h1; simp [isBit] at h1
          cases pa with
          | nil =>
            simp only [typeAt, Option.some.injEq] at ht
            have := (varCount_cont (ht ▸ hok) hvc).1
            rw [← ht] at this; simp_all
          | cons => rw [notCont_typeAt this] at ht; cases ht
        · simp only [h1, Option.bind_some, Val.at', h2]
          exact ih hok h3 h4 ht hvc
      · have hge : i ≥ cs.length := by omega
        have : vs[i]? = none := List.getElem?_eq_none (by rw [hv.1]; exact hge)
        refine ⟨false, ?_, ?_⟩
        · simp [canDiscardElemI, hc, getCount_eq h hc r, hge]
        · simp [Val.at', this]

end Dti
end TS
