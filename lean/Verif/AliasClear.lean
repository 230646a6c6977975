import Verif.AliasFront
/-
Setting an element to a datum that points to memory apart from the tuple and the room it may grow into.
-/
namespace TS
namespace Dti

theorem setDatumLoc_at {t : Dti} {m : Bytes} {q inc e : Nat} {l : Loc} {w : Datum} {valid : Bool}
    (h : LowAt t l w m e) (hv : t.isVar = true) (hq : q ≤ m.length)
    (he : ∀ a k, l = .bytes a k → a + k ≤ q ∨ q + vsz t.hdr.maxSize ≤ a) :
    t.setDatumLoc m q valid inc l = atOff m q (fun c => t.setDatum c valid inc w) := by
  obtain ⟨h1, h2⟩ := h
  cases l with
  | val v => exact h2.elim
  | bytes a k =>
    cases w with
    | bytes b =>
      obtain ⟨h2, rfl⟩ := h2
      refine setDatumLoc_var ?_ hq he hv
      rw [Loc.den, load_eq (by omega)]; rfl
    | _ => exact h2.elim
  | ptr a =>
    cases w with
    | ptr src =>
      obtain ⟨n, g1, g2, g3, g4⟩ := h2
      rw [setDatumLoc_var (w := .ptr (m.drop a)) rfl hq (fun x y hx => by cases hx) hv]
      have hl : (src.take n).length = n := by simp; omega
      have hsz : t.getSize (m.drop a) = some n := by
        have := getSize_at (m := m) (o := a) (b := src.take n) (by rw [g1, hl]) (by rw [hl]; exact g4)
        rwa [hl] at this
      congr 1
      funext c
      have hs2 : t.getSize src = some n := by
        have := getSize_append (r := src.drop n) g1
        rwa [List.take_append_drop] at this
      refine setDatum_src hv hsz hs2 ?_
      rw [load_eq (by simp; omega), load_eq (by omega)]
      exact congrArg some g4
    | _ => exact h2.elim

/-- A string that does not even leave room for its own count is refused before anything is written. -/
theorem setDatumLoc_refused {t : Dti} {m : Bytes} {q inc a k : Nat} {w : Datum} {e : Nat}
    (h : LowAt t (.bytes a k) w m e) (hv : t.isVar = true) (hi : inc < vsz t.hdr.maxSize) :
    t.setDatumLoc m q false inc (.bytes a k) = atOff m q (fun c => t.setDatum c false inc w) := by
  obtain ⟨h1, h2⟩ := h
  cases w with
  | bytes b =>
    obtain ⟨h2, rfl⟩ := h2
    have hld : load m a k = some (rd m a k) := load_eq (by omega)
    cases t with
    | str bin hh =>
      simp only [isVar, hdr] at hv hi
      have hf : ∀ y, fits hh.maxSize 0 (vsz hh.maxSize + y) inc = false := by
        intro y
        simp [fits]
        omega
      have hlen : (rd m a k).length = k := by rw [rd_length]; omega
      rw [atOff_eq]
      cases bin with
      | false =>
        cases hu : u32 (vsz hh.maxSize + (strn (rd m a k)).length) with
        | none => simp [setDatumLoc, setDatum, hv, hld, oldSize, newSize, Datum.isNull, isBit, isVar, hdr, Datum.asBytes, hu]
        | some n =>
          have : n = vsz hh.maxSize + (strn (rd m a k)).length := by
            unfold u32 at hu; split at hu <;> simp_all
          subst this
          simp [setDatumLoc, setDatum, hv, hld, oldSize, newSize, Datum.isNull, isBit, isVar, hdr, Datum.asBytes, hu, hf]
      | true =>
        cases hu : u32 (vsz hh.maxSize + k) with
        | none => simp [setDatumLoc, setDatum, hv, hld, oldSize, newSize, Datum.isNull, isBit, isVar, hdr, Datum.asBytes, hu, hlen]
        | some n =>
          have : n = vsz hh.maxSize + k := by
            unfold u32 at hu; split at hu <;> simp_all
          subst this
          simp [setDatumLoc, setDatum, hv, hld, oldSize, newSize, Datum.isNull, isBit, isVar, hdr, Datum.asBytes, hu, hf, hlen]
    | prim k hh => rw [atOff_eq]; simp [setDatumLoc, Loc.den, hld, atOff_eq]
    | tup hh fs => rw [atOff_eq]; simp [setDatumLoc, Loc.den, hld, atOff_eq]
    | arr hh fs => rw [atOff_eq]; simp [setDatumLoc, Loc.den, hld, atOff_eq]
  | _ => exact h2.elim

theorem var_prefix {t : Dti} (h : TyOk t) (hv : t.isVar = true) : vsz t.hdr.maxSize ≤ t.hdr.size := by
  have hc : t.isCont = true := by
    cases h with
    | prim k h _ h2 => simp [isVar, hdr, h2] at hv
    | _ => rfl
  have h1 := fixedEnd_min h
  have h2 := bitmap_le_fixedEnd h hc (minCount_ok t)
  have h3 : t.hasSizeP = true ∨ t.hasCountP = true := by
    cases h with
    | prim => simp [isCont] at hc
    | str b h => exact .inr hv
    | tup h fs => exact .inl hv
    | arr h c _ _ h3 =>
      simp only [isVar, hdr] at hv
      rw [hv] at h3
      simp only [hasSizeP, hasCountP, isVarCount, hv]
      revert h3
      cases h.varCount <;> cases c.isVar <;> simp
  have h4 : t.w ≤ t.offBitmap := by
    unfold offBitmap offCountP
    rcases h3 with h3 | h3 <;> simp [h3]
  simp only [w] at h4
  omega

/-- Setting an element of variable size of data when the source starts behind the room it has. -/
theorem setElemILoc_high {t : Dti} {l : Loc} {w : Datum} {x e : Nat} (hv : t.isVar = true) (hf : l.from x) (pa : List Nat) :
    ∀ {d : Dti} {m : Bytes} {o S inc : Nat} {val : Val}, TyOk d → o + S ≤ m.length →
    Enc d ((m.drop o).take S) val → d.typeAt pa = some t → LowAt t l w m e → o + S + inc ≤ x →
    d.setElemILoc m o inc l true pa = atOff m o (fun c => d.setElemI c inc w true pa) := by
  have hfrom : ∀ {a k y}, l = .bytes a k → y ≤ x → y ≤ a := by
    intro a k y hl hy
    subst hl
    exact Nat.le_trans hy hf
  induction pa with
  | nil =>
    intro d m o S inc val h hS e' ht hl he
    simp only [typeAt, Option.some.injEq] at ht
    subst ht
    simp only [setElemILoc, setElemI, hl.notNull, Bool.false_eq_true, if_false]
    refine setDatumLoc_at hl hv (by omega) (fun a k hak => .inr (hfrom hak ?_))
    have h1 := var_prefix h hv
    have h2 := ((enc_size h e').2.2.2.2.1 hv).1
    rw [List.length_take, List.length_drop] at h2
    omega
  | cons i pa ih =>
    intro d m o S inc val h hS e' ht hl he
    have hc := typeAt_cont ht
    have hS' : S ≤ (m.drop o).length := by simp; omega
    have ho : o ≤ m.length := by omega
    obtain ⟨cs, off, vs, h1, r, hvs⟩ := crep_of_enc h hc hS' e'
    have hcnt := getCount_eq h hc r
    have hgs := getSize_eq h hc r
    by_cases hlt : i < cs.length
    · have hpi := posInfo_eq h hc r hlt
      have hty := typeAt_kid h hc r.countOk hlt ht
      have hok := posOf_ok h hc r.countOk hlt
      have hpv : (posOf d cs.length i).ty.isVar = true := typeAt_var pa hok hty hv
      have hb := isVar_not_bit hok hpv
      obtain ⟨c', q, o', g1, r', -, g3, g4, -⟩ := moveEnd_any h hc r (List.getElem?_eq_getElem hlt)
      have hlen : (m.take o ++ c').length = m.length := by simp [g3]; omega
      have hgs' := getSize_eq h hc r'
      have hl' : LowAt t l w (m.take o ++ c') e := by
        refine hl.move hf ?_ (by rw [hlen]; exact hl.1)
        apply rd_ext
        intro y hy
        rw [List.getElem?_append_right (by simp; omega), List.length_take, Nat.min_eq_left ho, g4 _ (by omega), List.getElem?_drop]
        congr 1; omega
      have hc'l : c'.length = m.length - o := by simpa using g3
      cases pa with
      | nil =>
        simp only [typeAt, Option.some.injEq] at hty
        subst hty
        have := setAtLoc_moved (d := d) (m := m) (o := o) (i := i) (inc := inc) (l := l) (w := w) ho hl.notNull hv g1 (by
          intro a? s n hn p1 p2
          rw [hgs'] at p2; cases p2
          cases a? with
          | none =>
            simp only [Option.getD_none, Option.isSome_none]
            by_cases hz : vsz (posOf d cs.length i).ty.hdr.maxSize ≤ n
            · exact setDatumLoc_at hl' hv (by omega) (fun a k hak => .inr (hfrom hak (by omega)))
            · cases hll : l with
              | val v => exact (hll ▸ hl').2.elim
              | bytes a k => exact setDatumLoc_refused (hll ▸ hl') hv (by omega)
              | ptr a => exact hll ▸ setDatumLoc_at hl' hv (by omega) (fun a k hak => by rw [hll] at hak; cases hak)
          | some a =>
            obtain ⟨n, y, a1, a2, a3, a4, a5, a6, -⟩ := kid_of h hc r' hvs hlt hb p1
            refine setDatumLoc_at hl' hv (by simp only [Option.getD_some]; omega) (fun a k hak => .inr (hfrom hak ?_))
            simp only [Option.getD_some]
            have h1 := var_prefix hok hv
            have h2 := ((enc_size hok a6).2.2.2.2.1 hv).1
            rw [List.length_take] at h2
            omega)
        rw [atOff_eq] at this ⊢
        simp only [setElemILoc, setContLoc, setElemI, setCont, setContUnsafe, hc, hcnt, hpi, Bool.not_true, Bool.false_eq_true,
          if_false, Option.bind_eq_bind, Option.bind_some, ge_iff_le, Nat.not_le.mpr hlt]
        exact this
      | cons j pa =>
        refine setElemILoc_step ho hc (typeAt_var _ h ht hv) hcnt hlt hgs hpi g1 ?_
        intro a n hn p1
        obtain ⟨n, y, a1, a2, a3, a4, a5, a6, -⟩ := kid_of h hc r' hvs hlt hb p1
        refine ih (val := y) hok (S := n) (by omega) ?_ hty hl' (by omega)
        rw [← List.drop_drop, cat_drop ho]
        exact a6
    · have hge : cs.length ≤ i := by omega
      rw [atOff_eq]
      cases pa <;> simp [setElemILoc, setContLoc, setElemI, setCont, hc, hcnt, hge]

end Dti
end TS
