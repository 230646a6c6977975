import Verif.Alias
import Verif.ContGet
import Verif.TypeIdent
/-
Where the elements of a tuple lie, and when a datum that points into a tuple may be set to an
element of the same tuple.
-/
namespace TS
namespace Dti

/-! ### Reading with offsets -/

/-- Reading with offsets is reading. -/
def LocAgrees (m : Bytes) (x : Option (Option Loc)) (y : Option (Option Datum)) : Prop :=
  match x with
  | none => y = none
  | some none => y = some none
  | some (some l) => ∃ w, l.den m = some w ∧ y = some (some w)

theorem strn_pre (b : Bytes) : b.take (strn b).length = strn b := by
  unfold strn; exact (List.prefix_iff_eq_take.mp (List.takeWhile_prefix _)).symm

theorem load_pre {m b : Bytes} {a n k : Nat} (h : load m a n = some b) (hk : k ≤ n) : load m a k = some (b.take k) := by
  unfold load at h ⊢
  split at h
  · injection h with h
    subst h
    rw [if_pos (by omega)]
    simp only [rd, List.take_take, Nat.min_eq_left hk]
  · cases h

theorem load_len {m b : Bytes} {a n : Nat} (h : load m a n = some b) : b.length = n ∧ a + n ≤ m.length := by
  unfold load at h
  split at h
  · injection h with h
    subst h
    exact ⟨rd_length _ _ _ (by omega), by omega⟩
  · cases h

theorem load_drop (m : Bytes) (o a n : Nat) (ho : o ≤ m.length) : load (m.drop o) a n = load m (o + a) n := by
  unfold load
  simp only [List.length_drop, rd, List.drop_drop]
  by_cases h : o + a + n ≤ m.length
  · rw [if_pos h, if_pos (by omega)]
  · rw [if_neg h, if_neg (by omega)]

theorem getDatum_loc (d : Dti) (m : Bytes) (o : Nat) (ho : o ≤ m.length) :
    LocAgrees m (d.getDatumLoc m o) (d.getDatum (m.drop o)) := by
  cases d with
  | prim k h =>
    simp only [getDatumLoc]
    cases hg : getDatum (.prim k h) (m.drop o) with
    | none => rfl
    | some x =>
      cases x with
      | none => rfl
      | some v => exact ⟨v, rfl, rfl⟩
  | str bin h =>
    cases hc : getCount (.str bin h) (m.drop o) with
    | none => cases bin <;> simp [getDatumLoc, getDatum, hc, LocAgrees]
    | some n =>
      cases hl : load m (o + offBitmap (.str bin h)) n with
      | none =>
        have := hl
        rw [← load_drop _ _ _ _ ho] at this
        cases bin <;> simp [getDatumLoc, getDatum, hc, LocAgrees, hl, this]
      | some b =>
        have hb := load_len hl
        have := hl
        rw [← load_drop _ _ _ _ ho] at this
        cases bin with
        | true => simp [getDatumLoc, getDatum, hc, LocAgrees, hl, this, Loc.den]
        | false =>
          have h2 := load_pre hl (k := (strn b).length) (by have := strn_le b; omega)
          simp [getDatumLoc, getDatum, hc, LocAgrees, hl, this, Loc.den, h2, strn_pre]
  | tup h fs => exact ⟨_, rfl, rfl⟩
  | arr h c => exact ⟨_, rfl, rfl⟩

/-- Reading with offsets is reading, anywhere inside of a tuple. -/
theorem getElem_loc (pa : List Nat) : ∀ {d : Dti} {m : Bytes} {o S : Nat} {val : Val}, TyOk d → o + S ≤ m.length →
    Enc d ((m.drop o).take S) val → LocAgrees m (d.getElemLoc m o pa) (d.getElem (m.drop o) pa) := by
  induction pa with
  | nil => intro d m o S val h hS e; exact getDatum_loc d m o (by omega)
  | cons i pa ih =>
    intro d m o S val h hS e
    cases hc : d.isCont with
    | false =>
      rw [getElem_notCont hc]
      cases pa <;> simp [getElemLoc, getContLoc, hc, LocAgrees]
    | true =>
      have hS' : S ≤ (m.drop o).length := by simp; omega
      obtain ⟨cs, off, vs, h1, r, hv⟩ := crep_of_enc h hc hS' e
      have hcnt := getCount_eq h hc r
      by_cases hlt : i < cs.length
      · have hpi := posInfo_eq h hc r hlt
        have hpp := ptrAt_eq h hc r (List.getElem?_eq_getElem hlt)
        cases hq : eltPtr d (posOf d cs.length i) (off i) cs[i] with
        | none =>
          rw [hq] at hpp
          cases pa <;> simp [getElemLoc, getContLoc, getElem, getCont, getContUnsafe, getAt, hc, hcnt, Nat.not_le.mpr hlt,
            hpi, hpp, LocAgrees, Loc.den]
        | some a =>
          rw [hq] at hpp
          cases hb : (posOf d cs.length i).ty.isBit with
          | true =>
            cases pa with
            | nil =>
              cases hg : getBits (m.drop o) a (posOf d cs.length i).off (posOf d cs.length i).ty.hdr.size <;>
              simp [getElemLoc, getContLoc, getElem, getCont, getContUnsafe, getAt, hc, hcnt, Nat.not_le.mpr hlt,
                hpi, hpp, LocAgrees, Loc.den, hb, hg]
            | cons j pa =>
              have hnc : (posOf d cs.length i).ty.isCont = false := by
                cases hcc : (posOf d cs.length i).ty with
                | prim => rfl
                | _ => rw [hcc] at hb; simp [isBit] at hb
              have hg : getElem d (m.drop o) (i :: j :: pa) = some none := by
                simp [getElem, hc, hcnt, hpi, hpp, getElem_notCont hnc]
              rw [hg]
              cases pa <;> simp [getElemLoc, getContLoc, hc, hcnt, hpi, hpp, hnc, LocAgrees]
          | false =>
            obtain ⟨n, y, a1, a2, a3, a4, a5, a6, a7, a8⟩ := kid_of h hc r hv hlt hb hpp
            have hok := posOf_ok h hc r.countOk hlt
            rw [List.drop_drop] at a6
            simp only [List.length_drop] at a5
            cases pa with
            | nil =>
              have := getDatum_loc (posOf d cs.length i).ty m (o + a) (by omega)
              simpa [getElemLoc, getContLoc, getElem, getCont, getContUnsafe, getAt, hc, hcnt, Nat.not_le.mpr hlt,
                hpi, hpp, hb] using this
            | cons j pa =>
              have := ih hok (by omega) a6
              simpa [getElemLoc, getElem, hc, hcnt, Nat.not_le.mpr hlt, hpi, hpp] using this
      · have hge : cs.length ≤ i := by omega
        cases pa <;> simp [getElemLoc, getContLoc, getElem, getCont, hc, hcnt, hge, LocAgrees]

/-- What a datum that points into the tuple points to. -/
def PointsTo (l : Loc) (o a n : Nat) (t : Dti) : Prop :=
  match l with
  | .val _ => True
  | .bytes x k => x = o + a + t.offBitmap ∧ t.offBitmap + k ≤ n ∧ t.isStr = true
  | .ptr x => x = o + a ∧ t.isStr = false ∧ t.isCont = true

theorem getDatum_points {d : Dti} {m : Bytes} {o S : Nat} {val : Val} {l : Loc} (h : TyOk d) (hS : o + S ≤ m.length)
    (e : Enc d ((m.drop o).take S) val) (hg : d.getDatumLoc m o = some (some l)) : PointsTo l o 0 S d := by
  cases d with
  | prim k hh =>
    simp only [getDatumLoc] at hg
    cases hx : getDatum (.prim k hh) (m.drop o) with
    | none => rw [hx] at hg; cases hg
    | some x =>
      rw [hx] at hg
      cases x with
      | none => cases hg
      | some v => cases hg; trivial
  | str bin hh =>
    have hS' : S ≤ (m.drop o).length := by simp; omega
    obtain ⟨cs, off, vs, h1, r, hv⟩ := crep_of_enc h rfl hS' e
    have hcnt := getCount_eq h rfl r
    have hfe := fixedEnd_le r
    have hfe' : fixedEnd (.str bin hh) cs.length = offBitmap (.str bin hh) + cs.length := by simp [fixedEnd]
    simp only [getDatumLoc, hcnt, Option.bind_eq_bind, Option.bind_some, Option.bind_eq_some_iff] at hg
    obtain ⟨b, hb, hg⟩ := hg
    cases hg
    have := load_len hb
    have := strn_le b
    refine ⟨by omega, ?_, rfl⟩
    split <;> omega
  | tup => cases hg; exact ⟨by omega, rfl, rfl⟩
  | arr => cases hg; exact ⟨by omega, rfl, rfl⟩

theorem getElem_points (pa : List Nat) : ∀ {d : Dti} {m : Bytes} {o S : Nat} {val : Val} {l : Loc}, TyOk d → o + S ≤ m.length →
    Enc d ((m.drop o).take S) val → d.getElemLoc m o pa = some (some l) →
    (∃ v, l = .val v) ∨ ∃ a n t, Spot d (m.drop o) pa a n t ∧ PointsTo l o a n t := by
  induction pa with
  | nil =>
    intro d m o S val l h hS e hg
    have hl : ((m.drop o).take S).length = S := by simp; omega
    have hz := enc_size h e
    rw [hl] at hz
    have hgs : d.getSize (m.drop o) = some S := by
      have := getSize_append (r := (m.drop o).drop S) hz.1
      rwa [List.take_append_drop] at this
    exact Or.inr ⟨0, S, d, ⟨rfl, rfl, hgs⟩, getDatum_points h hS e hg⟩
  | cons i pa ih =>
    intro d m o S val l h hS e hg
    cases hc : d.isCont with
    | false => cases pa <;> simp [getElemLoc, getContLoc, hc] at hg
    | true =>
      have hS' : S ≤ (m.drop o).length := by simp; omega
      obtain ⟨cs, off, vs, h1, r, hv⟩ := crep_of_enc h hc hS' e
      have hcnt := getCount_eq h hc r
      by_cases hlt : i < cs.length
      · have hpi := posInfo_eq h hc r hlt
        have hpp := ptrAt_eq h hc r (List.getElem?_eq_getElem hlt)
        cases hq : eltPtr d (posOf d cs.length i) (off i) cs[i] with
        | none =>
          rw [hq] at hpp
          cases pa <;> simp [getElemLoc, getContLoc, hc, hcnt, Nat.not_le.mpr hlt, hpi, hpp] at hg <;>
            exact Or.inl ⟨_, hg.symm⟩
        | some a =>
          rw [hq] at hpp
          cases hb : (posOf d cs.length i).ty.isBit with
          | true =>
            cases pa with
            | nil =>
              cases hx : getBits (m.drop o) a (posOf d cs.length i).off (posOf d cs.length i).ty.hdr.size <;>
                simp [getElemLoc, getContLoc, hc, hcnt, Nat.not_le.mpr hlt, hpi, hpp, hb, hx] at hg
              exact Or.inl ⟨_, hg.symm⟩
            | cons j pa =>
              have hnc : (posOf d cs.length i).ty.isCont = false := by
                cases hcc : (posOf d cs.length i).ty with
                | prim => rfl
                | _ => rw [hcc] at hb; simp [isBit] at hb
              cases pa <;> simp [getElemLoc, getContLoc, hc, hcnt, hpi, hpp, hnc] at hg
          | false =>
            obtain ⟨n, y, a1, a2, a3, a4, a5, a6, a7, a8⟩ := kid_of h hc r hv hlt hb hpp
            have hok := posOf_ok h hc r.countOk hlt
            rw [List.drop_drop] at a6
            simp only [List.length_drop] at a5
            have hstep : ((∃ v, l = .val v) ∨ ∃ b k t, Spot (posOf d cs.length i).ty (m.drop (o + a)) pa b k t ∧
                PointsTo l (o + a) b k t) → (∃ v, l = .val v) ∨ ∃ a n t, Spot d (m.drop o) (i :: pa) a n t ∧ PointsTo l o a n t := by
              rintro (hx | ⟨b, k, t, h2, h3⟩)
              · exact Or.inl hx
              · refine Or.inr ⟨a + b, k, t, ⟨hc, _, _, a, b, hcnt, hlt, hpi, hb, hpp, rfl, ?_⟩, ?_⟩
                · rw [List.drop_drop]; exact h2
                · unfold PointsTo at h3 ⊢
                  cases l with
                  | val => trivial
                  | bytes x k => exact ⟨by have := h3.1; omega, h3.2⟩
                  | ptr x => exact ⟨by have := h3.1; omega, h3.2⟩
            apply hstep
            cases pa with
            | nil =>
              simp [getElemLoc, getContLoc, hc, hcnt, Nat.not_le.mpr hlt, hpi, hpp, hb] at hg
              refine Or.inr ⟨0, n, _, ⟨rfl, rfl, ?_⟩, getDatum_points hok (by omega) a6 hg⟩
              rw [← List.drop_drop]; exact a1
            | cons j pa =>
              simp [getElemLoc, hc, hcnt, Nat.not_le.mpr hlt, hpi, hpp] at hg
              exact ih hok (by omega) a6 hg
      · have hge : cs.length ≤ i := by omega
        cases pa <;> simp [getElemLoc, getContLoc, hc, hcnt, hge] at hg

end Dti
end TS
