import Verif.ContElem
/-
Reading an element anywhere inside of a tuple.
-/
namespace TS
namespace Dti

/-- Value `y` of type `t` is read as `dt`. -/
def Shows (t : Dti) (y : Val) (dt : Datum) : Prop :=
  match y with
  | .null => dt = .null
  | .bits v => t.isBit = true ∧ dt = .uint v
  | .raw b =>
    match t with
    | .prim .uint _ | .prim .largeUint _ => dt = .uint (leDec b)
    | .prim .int _ | .prim .largeInt _ => dt = .int (intDec b)
    | .prim .float _ => dt = .flt b
    | _ => False
  | .node vs =>
    match t with
    | .str bin _ => ∃ x, Val.node vs = chars x ∧ dt = .bytes (if bin then x else strn x)
    | .prim _ _ => False
    | t => ∃ m S, dt = .ptr m ∧ S ≤ m.length ∧ Enc t (m.take S) (.node vs)

/-- The two results of a read are equal, where two pointers to a tuple or array are not told apart. -/
def Same (a b : Option (Option Datum)) : Prop :=
  a = b ∨ ∃ x y, a = some (some (.ptr x)) ∧ b = some (some (.ptr y))

theorem chars_inj {x y : Bytes} (h : chars x = chars y) : x = y := by
  unfold chars at h
  injection h with h
  induction x generalizing y with
  | nil => cases y with
    | nil => rfl
    | cons => simp at h
  | cons a x ih => cases y with
    | nil => simp at h
    | cons b y =>
      simp only [List.map_cons, List.cons.injEq, Val.raw.injEq, and_true] at h
      rw [h.1, ih h.2]

theorem Shows.same {t : Dti} {y : Val} {a b : Datum} (h1 : Shows t y a) (h2 : Shows t y b) :
    Same (some (some a)) (some (some b)) := by
  cases y with
  | null => simp only [Shows] at h1 h2; subst h1; subst h2; exact Or.inl rfl
  | bits v => simp only [Shows] at h1 h2; left; rw [h1.2, h2.2]
  | raw x =>
    left
    cases t with
    | prim k h => cases k <;> simp only [Shows] at h1 h2 <;> first | exact h1.elim | rw [h1, h2]
    | _ => exact h1.elim
  | node vs =>
    cases t with
    | prim => exact h1.elim
    | str bin h =>
      obtain ⟨x, h3, h4⟩ := h1
      obtain ⟨x', h5, h6⟩ := h2
      have := chars_inj (h3.symm.trans h5)
      subst this
      left; rw [h4, h6]
    | tup h fs =>
      obtain ⟨m, _, h3, _⟩ := h1
      obtain ⟨m', _, h4, _⟩ := h2
      right; exact ⟨m, m', by rw [h3], by rw [h4]⟩
    | arr h c =>
      obtain ⟨m, _, h3, _⟩ := h1
      obtain ⟨m', _, h4, _⟩ := h2
      right; exact ⟨m, m', by rw [h3], by rw [h4]⟩

theorem str_vals {bin : Bool} {h : Hdr} {m : Bytes} {S : Nat} {cs : List Elt} {o : Nat → Nat} {vs : List Val}
    (r : CRep (.str bin h) m S cs o) (hv : EVals (.str bin h) cs vs) :
    Val.node vs = chars (rd m (offBitmap (.str bin h)) cs.length) ∧
      offBitmap (.str bin h) + cs.length ≤ m.length := by
  have hfe := fixedEnd_le r
  have hle := r.le
  have hfe' : fixedEnd (.str bin h) cs.length = offBitmap (.str bin h) + cs.length := by
    simp [fixedEnd]
  have hl : offBitmap (.str bin h) + cs.length ≤ m.length := by omega
  refine ⟨?_, hl⟩
  unfold chars
  congr 1
  apply List.ext_getElem?
  intro i
  by_cases hi : i < cs.length
  · have hvi := List.getElem?_eq_getElem (l := vs) (i := i) (by rw [hv.1]; exact hi)
    have hci := List.getElem?_eq_getElem hi
    have e := r.elt i _ hci
    have hx := hv.2 i _ _ hci hvi
    rw [hvi, List.getElem?_map]
    have hp : (posOf (.str bin h) cs.length i).ty = u8 := rfl
    have hpo : (posOf (.str bin h) cs.length i).off = offBitmap (.str bin h) + i := rfl
    generalize cs[i] = c at e hx
    generalize vs[i]'_ = y at hx
    cases c with
    | null => simp [EltAt, hp, u8, needsValid, isVar, hdr] at e
    | bits => simp [EltAt, hp, u8, isBit] at e
    | var => simp [EltAt, hp, u8, isVar, hdr] at e
    | fixd b =>
      obtain ⟨_, _, _, e4⟩ := e
      rw [hp, hpo] at e4
      simp only [EVal, hp] at hx
      have := (enc_prim hx).2.2
      rw [this, ← e4]
      have hsz : u8.hdr.size = 1 := rfl
      have hlt : offBitmap (.str bin h) + i < m.length := by omega
      have h1 : (rd m (offBitmap (.str bin h)) cs.length)[i]? = some (m[offBitmap (.str bin h) + i]) := by
        rw [rd_getElem?, if_pos hi, List.getElem?_eq_getElem hlt]
      rw [h1, hsz]
      simp only [Option.map_some, Option.some.injEq, Val.raw.injEq]
      apply List.ext_getElem?
      intro k
      rw [rd_getElem?]
      cases k with
      | zero => simp [List.getElem?_eq_getElem hlt]
      | succ k => simp
  · rw [List.getElem?_eq_none (by rw [hv.1]; omega), List.getElem?_eq_none (by
      rw [List.length_map, rd_length _ _ _ hl]; omega)]

theorem getDatum_ok {d : Dti} {m : Bytes} {S : Nat} {y : Val} (h : TyOk d) (hS : S ≤ m.length)
    (e : Enc d (m.take S) y) : ∃ dt, d.getDatum m = some (some dt) ∧ Shows d y dt := by
  cases hc : d.isCont with
  | false =>
    cases d with
    | prim k hh =>
      obtain ⟨h1, h2, h3⟩ := enc_prim e
      have hl : (m.take S).length = S := by simp; omega
      rw [hl] at h2
      subst h2
      have hld : load m 0 hh.size = some (m.take hh.size) := by
        rw [load_eq (by omega), rd_zero_eq_take]
      rw [h3]
      cases k <;> first | exact absurd rfl h1 | exact ⟨_, by simp only [getDatum, hld]; rfl, rfl⟩
    | _ => simp [isCont] at hc
  | true =>
    cases d with
    | prim => simp [isCont] at hc
    | str bin hh =>
      obtain ⟨cs, o, vs, h1, r, hv⟩ := crep_of_enc h hc hS e
      obtain ⟨h2, h3⟩ := str_vals r hv
      have hcnt := getCount_eq h hc r
      rw [h1]
      cases bin with
      | false =>
        refine ⟨.bytes (strn (rd m (offBitmap (.str false hh)) cs.length)), ?_, _, h2, rfl⟩
        simp only [getDatum, hcnt, Option.bind_eq_bind, Option.bind_some, load_eq h3]; rfl
      | true =>
        refine ⟨.bytes (rd m (offBitmap (.str true hh)) cs.length), ?_, _, h2, rfl⟩
        simp only [getDatum, hcnt, Option.bind_eq_bind, Option.bind_some, load_eq h3]; rfl
    | tup hh fs =>
      obtain ⟨cs, o, vs, h1, r, hv⟩ := crep_of_enc h hc hS e
      subst h1
      exact ⟨.ptr m, rfl, m, S, rfl, hS, e⟩
    | arr hh c =>
      obtain ⟨cs, o, vs, h1, r, hv⟩ := crep_of_enc h hc hS e
      subst h1
      exact ⟨.ptr m, rfl, m, S, rfl, hS, e⟩

/-- The contract of reading the element at `pa`, whose static type is `t?`. -/
def GetOk (d : Dti) (m : Bytes) (val : Val) (pa : List Nat) : Prop :=
  match val.at' pa with
  | none => d.getElem m pa = some none
  | some y => (y = .null ∧ d.getElem m pa = some (some .null)) ∨
      ∃ t dt, d.typeAt pa = some t ∧ d.getElem m pa = some (some dt) ∧ Shows t y dt

theorem getElem_notCont {d : Dti} (hc : d.isCont = false) (m : Bytes) (i : Nat) (pa : List Nat) :
    d.getElem m (i :: pa) = some none := by
  cases pa <;> simp [getElem, getCont, hc]

theorem getElem_ok (pa : List Nat) : ∀ {d : Dti} {m : Bytes} {S : Nat} {val : Val},
    TyOk d → S ≤ m.length → Enc d (m.take S) val → GetOk d m val pa := by
  induction pa with
  | nil =>
    intro d m S val h hS e
    simp only [GetOk, Val.at']
    right
    obtain ⟨dt, h1, h2⟩ := getDatum_ok h hS e
    exact ⟨d, dt, rfl, h1, h2⟩
  | cons i pa ih =>
    intro d m S val h hS e
    cases hc : d.isCont with
    | false =>
      unfold GetOk
      have hv : val.at' (i :: pa) = none := by
        cases d with
        | prim k hh => rw [(enc_prim e).2.2]; rfl
        | _ => simp [isCont] at hc
      rw [hv]
      exact getElem_notCont hc m i pa
    | true =>
      obtain ⟨cs, o, vs, h1, r, hv⟩ := crep_of_enc h hc hS e
      subst h1
      have hcnt := getCount_eq h hc r
      unfold GetOk
      by_cases hlt : i < cs.length
      · have hci := List.getElem?_eq_getElem hlt
        have hvi := List.getElem?_eq_getElem (l := vs) (i := i) (by rw [hv.1]; exact hlt)
        have hx := hv.2 i _ _ hci hvi
        have hel := r.elt i _ hci
        have hp := ptrAt_eq h hc r hci
        have hpi := posInfo_eq h hc r hlt
        have hok := posOf_ok h hc r.countOk hlt
        have hty := tyAtNoData_pos h hc r.countOk hlt
        generalize cs[i] = c at hx hel hp hci
        generalize vs[i]'_ = y at hx hvi
        simp only [Val.at', hvi]
        -- what the element's memory is
        have hptr : ∀ b, (c = .fixd b ∨ c = .var b) → ∃ p, eltPtr d (posOf d cs.length i) (o i) c = some p ∧
            (posOf d cs.length i).ty.isBit = false ∧ Enc (posOf d cs.length i).ty b y ∧
            b.length ≤ (m.drop p).length ∧ (m.drop p).take b.length = b := by
          intro b hb
          rcases hb with hb | hb
          · subst hb
            obtain ⟨e1, e2, e3, e4⟩ := hel
            have hs := slot_ok h hc r hlt e1
            simp only [slot, e2, Bool.false_eq_true, if_false] at hs
            have hsz := (enc_size hok hx).2.2.2.2.2 e2
            refine ⟨_, rfl, e1, hx, by simp; omega, ?_⟩
            rw [hsz]; exact e4
          · subst hb
            obtain ⟨e1, e2, e3, e4, e5, e6, e7⟩ := hel
            have := r.le
            refine ⟨_, rfl, isVar_not_bit hok e1, hx, by simp; omega, e5⟩
        cases pa with
        | nil =>
          simp only [Val.at']
          have hge : d.getElem m [i] = d.getContUnsafe m i := by
            simp only [getElem, getCont, hc, hcnt, Bool.not_true, Bool.false_eq_true, if_false, Option.bind_eq_bind,
              Option.bind_some, ge_iff_le, Nat.not_le.mpr hlt]
          have hta : d.typeAt [i] = some (posOf d cs.length i).ty := by
            simp only [typeAt, hty, Option.bind_eq_bind, Option.bind_some]
          rw [hge]
          unfold getContUnsafe getAt
          rw [hpi]
          simp only [Option.bind_eq_bind, Option.bind_some, hp]
          cases c with
          | null =>
            left
            simp only [EVal] at hx
            exact ⟨hx, rfl⟩
          | bits v =>
            right
            simp only [EVal] at hx
            subst hx
            obtain ⟨e1, e2, e3⟩ := hel
            refine ⟨_, .uint v, hta, ?_, e1, rfl⟩
            have hb := (lay_of h hc r.countOk).bf i hlt e1
            have hbm := bitmap_le_fixedEnd h hc r.countOk
            have hfe := fixedEnd_le r
            have := r.le
            simp only [eltPtr, e1, if_true]
            unfold getBits
            rw [if_pos (hok.bit_le e1), getBitsN_eq _ _ (by unfold bitmapBytes at hbm ⊢; omega), e3]
            rfl
          | fixd b =>
            right
            obtain ⟨p, p1, p2, p3, p4, p5⟩ := hptr b (Or.inl rfl)
            rw [p1]
            simp only [p2, Bool.false_eq_true, if_false]
            obtain ⟨dt, g1, g2⟩ := getDatum_ok hok p4 (by rw [p5]; exact p3)
            exact ⟨_, dt, hta, g1, g2⟩
          | var b =>
            right
            obtain ⟨p, p1, p2, p3, p4, p5⟩ := hptr b (Or.inr rfl)
            rw [p1]
            simp only [p2, Bool.false_eq_true, if_false]
            obtain ⟨dt, g1, g2⟩ := getDatum_ok hok p4 (by rw [p5]; exact p3)
            exact ⟨_, dt, hta, g1, g2⟩
        | cons j pa =>
          have hge : d.getElem m (i :: j :: pa) = (match eltPtr d (posOf d cs.length i) (o i) c with
              | none => some (some .null)
              | some o => getElem (posOf d cs.length i).ty (m.drop o) (j :: pa)) := by
            simp only [getElem, hc, hcnt, Bool.not_true, Bool.false_eq_true, if_false, Option.bind_eq_bind,
              Option.bind_some, ge_iff_le, Nat.not_le.mpr hlt, hpi, hp]
            rfl
          have hta : d.typeAt (i :: j :: pa) = (posOf d cs.length i).ty.typeAt (j :: pa) := by
            simp only [typeAt, hty, Option.bind_eq_bind, Option.bind_some]
          rw [hge, hta]
          cases c with
          | null =>
            simp only [EVal] at hx
            subst hx
            simp [Val.at', eltPtr]
          | bits v =>
            simp only [EVal] at hx
            subst hx
            simp only [Val.at', eltPtr]
            apply getElem_notCont
            have e1 := hel.1
            cases hcc : (posOf d cs.length i).ty with
            | prim => rfl
            | _ => rw [hcc] at e1; simp [isBit] at e1
          | fixd b =>
            obtain ⟨p, p1, p2, p3, p4, p5⟩ := hptr b (Or.inl rfl)
            rw [p1]
            exact ih hok p4 (by rw [p5]; exact p3)
          | var b =>
            obtain ⟨p, p1, p2, p3, p4, p5⟩ := hptr b (Or.inr rfl)
            rw [p1]
            exact ih hok p4 (by rw [p5]; exact p3)
      · have hvn : vs[i]? = none := List.getElem?_eq_none (by rw [hv.1]; omega)
        simp only [Val.at', hvn]
        have hge : i ≥ cs.length := by omega
        cases pa with
        | nil => simp [getElem, getCont, hc, hcnt, hge]
        | cons j pa => simp [getElem, hc, hcnt, hge]

/-- Two tuples of one type that agree in value at a position read the same there. -/
theorem getElem_same {d d' : Dti} {m m' : Bytes} {S S' : Nat} {val val' : Val} {pa pa' : List Nat} (h : TyOk d)
    (h' : TyOk d') (hS : S ≤ m.length) (e : Enc d (m.take S) val) (hS' : S' ≤ m'.length)
    (e' : Enc d' (m'.take S') val') (ht : d.typeAt pa = d'.typeAt pa') (hat : val.at' pa = val'.at' pa') :
    Same (d.getElem m pa) (d'.getElem m' pa') := by
  have g := getElem_ok pa h hS e
  have g' := getElem_ok pa' h' hS' e'
  unfold GetOk at g g'
  rw [hat] at g
  cases hv : val'.at' pa' with
  | none => rw [hv] at g g'; left; exact g.trans g'.symm
  | some y =>
    rw [hv] at g g'
    simp only at g g'
    rcases g with ⟨g1, g2⟩ | ⟨t, dt, g1, g2, g3⟩
    · rcases g' with ⟨g3, g4⟩ | ⟨t', dt', g3, g4, g5⟩
      · left; exact g2.trans g4.symm
      · subst g1; simp only [Shows] at g5; subst g5; left; exact g2.trans g4.symm
    · rcases g' with ⟨g4, g5⟩ | ⟨t', dt', g4, g5, g6⟩
      · subst g4; simp only [Shows] at g3; subst g3; left; exact g2.trans g5.symm
      · rw [g1, g4] at ht
        injection ht with ht
        subst ht
        rw [g2, g5]
        exact g3.same g6

end Dti
end TS
