import Verif.TypeSame
import Verif.ContEnc
/-
Two finalised types with the same normal form give the same meaning to all bytes.
-/
namespace TS
namespace Dti
variable {kn : Bool} {d e : Dti}

theorem posOf_same (h : SameTy kn d e) (hv : VarUp d) (n i : Nat) :
    PSame kn (posOf d n i) (posOf e n i) ∧ ((posOf d n i).ty.isVar = true → d.isVar = true) ∧ VarUp (posOf d n i).ty := by
  have ho := h.offBitmap
  cases d with
  | prim k g =>
    cases e with
    | prim => exact ⟨⟨rfl, fun _ => rfl, h⟩, fun hh => hh, hv⟩
    | _ => simp [SameTy, norm] at h
  | str b g =>
    cases e with
    | str b2 g2 =>
      simp only [posOf, ho]
      exact ⟨⟨rfl, fun _ => rfl, rfl⟩, by simp [u8, isVar, hdr], trivial⟩
    | _ => simp [SameTy, norm] at h
  | tup g fs =>
    cases e with
    | tup g2 gs =>
      have h0 := h
      simp only [SameTy, norm, Dti.tup.injEq, normAll_eq] at h
      have hi := congrArg (fun l => l[i]?) h.2
      simp only [List.getElem?_map] at hi
      simp only [posOf]
      cases h1 : fs[i]? with
      | none =>
        cases h2 : gs[i]? with
        | none => exact ⟨⟨rfl, fun _ => rfl, h0⟩, fun hh => hh, hv⟩
        | some q => simp [h1, h2] at hi
      | some p =>
        cases h2 : gs[i]? with
        | none => simp [h1, h2] at hi
        | some q =>
          simp only [h1, h2, Option.map_some, Option.some.injEq, Prod.mk.injEq] at hi
          obtain ⟨hf, hty⟩ := hi
          have hty : SameTy kn p.2 q.2 := hty
          simp only [nFld, Fld.mk.injEq] at hf
          refine ⟨⟨hf.2.1, ?_, hty⟩, ?_⟩
          · intro hn
            have := hf.2.2
            simp only at hn
            rw [← hty.needsValid, hn] at this
            simpa using this
          · exact hv.tyAt (i := i) (by simp [tyAt, h1])
    | _ => simp [SameTy, norm] at h
  | arr g c =>
    cases e with
    | arr g2 c2 =>
      have h0 := h
      simp only [SameTy, norm, Dti.arr.injEq] at h
      have hc : SameTy kn c c2 := h.2
      have hw : slot (Dti.arr g c).w c = slot (Dti.arr g2 c2).w c2 := by
        unfold slot
        rw [← hc.isVar, ← hc.size]
        split
        · rename_i hh; exact h0.w (hv.1 hh)
        · rfl
      simp only [posOf, ho, ← hc.isBit, ← hc.needsValid, ← hc.size, hw]
      split
      · split
        · exact ⟨⟨rfl, fun _ => rfl, hc⟩, hv.1, hv.2⟩
        · exact ⟨⟨rfl, fun _ => rfl, hc⟩, hv.1, hv.2⟩
      · exact ⟨⟨rfl, fun _ => rfl, hc⟩, hv.1, hv.2⟩
    | _ => simp [SameTy, norm] at h

theorem fixedEnd_same (h : SameTy kn d e) (hv : VarUp d) (n : Nat) : fixedEnd d n = fixedEnd e n := by
  have ho := h.offBitmap
  have hs := h.size
  cases d with
  | prim k g =>
    cases e with
    | prim => exact hs
    | _ => simp [SameTy, norm] at h
  | str b g =>
    cases e with
    | str b2 g2 => simp only [fixedEnd, ho]
    | _ => simp [SameTy, norm] at h
  | tup g fs =>
    cases e with
    | tup g2 gs => exact hs
    | _ => simp [SameTy, norm] at h
  | arr g c =>
    cases e with
    | arr g2 c2 =>
      have h0 := h
      simp only [SameTy, norm, Dti.arr.injEq] at h
      have hc : SameTy kn c c2 := h.2
      have hw : slot (Dti.arr g c).w c = slot (Dti.arr g2 c2).w c2 := by
        unfold slot
        rw [← hc.isVar, ← hc.size]
        split
        · rename_i hh; exact h0.w (hv.1 hh)
        · rfl
      simp only [fixedEnd, bitsOf, ho, ← hc.isBit, ← hc.needsValid, ← hc.size, hw]
    | _ => simp [SameTy, norm] at h

theorem eltAt_same (h : SameTy kn d e) {p q : PosInfo} (hp : PSame kn p q) (hup : p.ty.isVar = true → d.isVar = true)
    {m : Bytes} {S fe o : Nat} {c : Elt} (hc : EltAt d m S fe p o c) : EltAt e m S fe q o c := by
  have hw : p.ty.isVar = true → d.word m p.off = e.word m q.off := by
    intro hh
    unfold word
    rw [h.w (hup hh), hp.off]
  cases c with
  | null =>
    rcases hc with ⟨h1, h2⟩ | ⟨h1, h2⟩
    · exact .inl ⟨by rw [← hp.ty.needsValid]; exact h1, by rw [← h.offBitmap, ← hp.vbit h1]; exact h2⟩
    · exact .inr ⟨by rw [← hp.ty.isVar]; exact h1, by rw [← hw h1]; exact h2⟩
  | bits v =>
    obtain ⟨h1, h2, h3⟩ := hc
    refine ⟨by rw [← hp.ty.isBit]; exact h1, fun hn => ?_, by rw [← h.offBitmap, ← hp.off, ← hp.ty.size]; exact h3⟩
    rw [← hp.ty.needsValid] at hn
    rw [← h.offBitmap, ← hp.vbit hn]; exact h2 hn
  | fixd b =>
    obtain ⟨h1, h2, h3, h4⟩ := hc
    refine ⟨by rw [← hp.ty.isBit]; exact h1, by rw [← hp.ty.isVar]; exact h2, fun hn => ?_,
      by rw [← hp.off, ← hp.ty.size]; exact h4⟩
    rw [← hp.ty.needsValid] at hn
    rw [← h.offBitmap, ← hp.vbit hn]; exact h3 hn
  | var b =>
    obtain ⟨h1, h2, h3, h4, h5, h6, h7⟩ := hc
    exact ⟨by rw [← hp.ty.isVar]; exact h1, by rw [← hw h1]; exact h2, h3, h4, h5, h6, by rw [← hp.ty.getSize]; exact h7⟩

theorem varCount_isVar (hv : d.isVarCount = true) : d.isVar = true := by
  cases d <;> simp_all [isVarCount, isVar, hdr]

theorem crep_same (h : SameTy kn d e) (hc : d.isCont = true) (hv : VarUp d) {m : Bytes} {S : Nat} {cs : List Elt} {o : Nat → Nat}
    (r : CRep d m S cs o) : CRep e m S cs o where
  le := r.le
  mx hh := by rw [← h.maxSize (by rw [h.isVar]; exact hh)]; exact r.mx (by rw [h.isVar]; exact hh)
  cntF hh := by
    rw [← h.isVarCount] at hh
    rw [← h.count hc hh]; exact r.cntF hh
  cntV hh := by
    rw [← h.isVarCount] at hh
    have := r.cntV hh
    unfold word at this ⊢
    rw [← h.w (varCount_isVar hh), ← h.offCountP]; exact this
  szP hh := by
    rw [← h.hasSizeP] at hh
    have := r.szP hh
    have hvv : d.isVar = true := by
      unfold Dti.hasSizeP at hh
      cases d <;> simp_all [isVar, hdr]
    unfold word at this ⊢
    rw [← h.w hvv]; exact this
  sum := by rw [← fixedEnd_same h hv]; exact r.sum
  elt i c hi := by
    obtain ⟨p1, p2, _⟩ := posOf_same h hv cs.length i
    rw [← fixedEnd_same h hv]
    exact eltAt_same h p1 p2 (r.elt i c hi)
  disj := r.disj

/-- Bytes that are a value of one type are the same value of the other. -/
theorem enc_same {b : Bytes} {v : Val} (hen : Enc d b v) : ∀ {e : Dti}, SameTy kn d e → TyOk d → VarUp d → Enc e b v := by
  induction hen with
  | @prim k h b h1 h2 =>
    intro e he _ _
    have hs := he.size
    cases e with
    | prim k2 g2 =>
      simp only [SameTy, norm, Dti.prim.injEq] at he
      obtain ⟨rfl, _⟩ := he
      exact .prim h1 (by rw [h2]; exact hs)
    | _ => simp [SameTy, norm] at he
  | @cont d b cs o vs hc r hl hn hb hf hv ihf ihv =>
    intro e he hd hup
    have hok : ∀ (i : Nat) c, cs[i]? = some c → TyOk (posOf d cs.length i).ty := fun i c hi =>
      posOf_ok hd hc r.countOk (List.getElem?_eq_some_iff.mp hi).1
    refine .cont (by rw [← he.isCont]; exact hc) (crep_same he hc hup r) hl hn hb ?_ ?_
    · intro i x y hx hy
      obtain ⟨p1, p2, p3⟩ := posOf_same he hup cs.length i
      exact ihf i x y hx hy p1.ty (hok i _ hx) p3
    · intro i x y hx hy
      obtain ⟨p1, p2, p3⟩ := posOf_same he hup cs.length i
      exact ihv i x y hx hy p1.ty (hok i _ hx) p3

end Dti
end TS
