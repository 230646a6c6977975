import Verif.EncSame
import Verif.ContDatum
/-
Raising the maximum sizes in a type: as long as the width of the offsets, sizes and counts does not
change, data of the type remain data of the new type.
-/
namespace TS
namespace Dti

/-- The new members of a type or field: the maximum size may be raised as long as
`get_value_size_on_page` of it is the same. Names and whether the object is static do not matter. -/
structure HW (g g' : Hdr) : Prop where
  isFinal : g'.isFinal = g.isFinal
  nullable : g'.nullable = g.nullable
  isVar : g'.isVar = g.isVar
  size : g'.size = g.size
  varCount : g'.varCount = g.varCount
  count : g'.count = g.count
  bits : g'.bits = g.bits
  le : g.maxSize ≤ g'.maxSize
  w : vsz g'.maxSize = vsz g.maxSize

theorem HW.refl (g : Hdr) : HW g g := ⟨rfl, rfl, rfl, rfl, rfl, rfl, rfl, Nat.le_refl _, rfl⟩

/-- The second type is the first with maximum sizes raised, at any depth. -/
inductive Widens : Dti → Dti → Prop
  | prim {k g g'} : HW g g' → Widens (.prim k g) (.prim k g')
  | str {b g g'} : HW g g' → Widens (.str b g) (.str b g')
  | tup {g g' fs fs'} : HW g g' → fs.length = fs'.length →
      (∀ (i : Nat) f t f' t', fs[i]? = some (f, t) → fs'[i]? = some (f', t') → f'.off = f.off) →
      (∀ (i : Nat) f t f' t', fs[i]? = some (f, t) → fs'[i]? = some (f', t') → f'.vbit = f.vbit) →
      (∀ (i : Nat) f t f' t', fs[i]? = some (f, t) → fs'[i]? = some (f', t') → Widens t t') →
      Widens (.tup g fs) (.tup g' fs')
  | arr {g g' c c'} : HW g g' → Widens c c' → Widens (.arr g c) (.arr g' c')

variable {d e : Dti}

namespace Widens

theorem refl : ∀ d : Dti, Widens d d := by
  refine ind (fun k h => .prim (.refl h)) (fun b h => .str (.refl h)) (fun h fs ih => ?_)
    (fun h c ih => .arr (.refl h) ih)
  refine .tup (.refl h) rfl ?_ ?_ ?_ <;> intro i f t f' t' h1 h2 <;> rw [h1] at h2 <;> cases h2
  · rfl
  · rfl
  · exact ih f t (List.mem_of_getElem? h1)

theorem hw (h : Widens d e) : HW d.hdr e.hdr := by cases h <;> assumption
theorem isBit (h : Widens d e) : e.isBit = d.isBit := by
  cases h with
  | @prim k => cases k <;> rfl
  | _ => rfl
theorem isCont (h : Widens d e) : e.isCont = d.isCont := by cases h <;> rfl
theorem kind (h : Widens d e) : e.kind = d.kind := by cases h <;> rfl
theorem isVar (h : Widens d e) : e.isVar = d.isVar := h.hw.isVar
theorem size (h : Widens d e) : e.hdr.size = d.hdr.size := h.hw.size
theorem count (h : Widens d e) : e.hdr.count = d.hdr.count := h.hw.count
theorem w (h : Widens d e) : e.w = d.w := h.hw.w
theorem needsValid (h : Widens d e) : e.needsValid = d.needsValid := by
  unfold Dti.needsValid; rw [h.isVar, h.hw.nullable]
theorem isNullable (h : Widens d e) : e.isNullable = d.isNullable := by
  unfold Dti.isNullable; rw [h.isVar, h.hw.nullable]
theorem isVarCount (h : Widens d e) : e.isVarCount = d.isVarCount := by
  cases h with
  | prim => rfl
  | str h => exact h.isVar
  | tup => rfl
  | arr h => simp only [Dti.isVarCount]; rw [h.isVar, h.varCount]
theorem hasSizeP (h : Widens d e) : e.hasSizeP = d.hasSizeP := by
  cases h with
  | prim => rfl
  | str h => rfl
  | tup h => exact h.isVar
  | arr h hc => simp only [Dti.hasSizeP]; rw [h.isVar, hc.isVar]
theorem hasCountP (h : Widens d e) : e.hasCountP = d.hasCountP := h.isVarCount
theorem offCountP (h : Widens d e) : e.offCountP = d.offCountP := by
  unfold Dti.offCountP; rw [h.w, h.hasSizeP]
theorem offBitmap (h : Widens d e) : e.offBitmap = d.offBitmap := by
  unfold Dti.offBitmap; rw [h.offCountP, h.w, h.hasCountP]
theorem word (h : Widens d e) (m : Bytes) (a : Nat) : e.word m a = d.word m a := by
  unfold Dti.word; rw [h.w]
theorem loadVal (h : Widens d e) (m : Bytes) (a : Nat) :
    TS.loadVal m e.hdr.maxSize a = TS.loadVal m d.hdr.maxSize a := by
  unfold TS.loadVal; rw [h.hw.w]
theorem slot {c c' : Dti} (hc : Widens c c') (w : Nat) : Dti.slot w c' = Dti.slot w c := by
  unfold Dti.slot; rw [hc.isVar, hc.size]

/-- The element types of widened tuples, with their positions. -/
theorem field {g g' : Hdr} {fs fs' : List (Fld × Dti)} (h : Widens (.tup g fs) (.tup g' fs')) (i : Nat) :
    (fs[i]? = none ∧ fs'[i]? = none) ∨ ∃ f t f' t', fs[i]? = some (f, t) ∧ fs'[i]? = some (f', t') ∧
      f'.off = f.off ∧ f'.vbit = f.vbit ∧ Widens t t' := by
  cases h with
  | tup _ hl h1 h2 h3 =>
    by_cases hi : i < fs.length
    · have e1 := List.getElem?_eq_getElem hi
      have e2 := List.getElem?_eq_getElem (l := fs') (i := i) (by omega)
      exact .inr ⟨_, _, _, _, e1, e2, h1 i _ _ _ _ e1 e2, h2 i _ _ _ _ e1 e2, h3 i _ _ _ _ e1 e2⟩
    · exact .inl ⟨List.getElem?_eq_none (by omega), List.getElem?_eq_none (by omega)⟩

end Widens

/-- Positions at the same place. -/
structure PWide (p q : PosInfo) : Prop where
  off : q.off = p.off
  vbit : q.vbit = p.vbit
  ty : Widens p.ty q.ty

theorem posOf_widen (h : Widens d e) (n i : Nat) : PWide (posOf d n i) (posOf e n i) := by
  have ho := h.offBitmap
  have h0 := h
  have hw := h.w
  cases h with
  | prim h => exact ⟨rfl, rfl, h0⟩
  | str h => simp only [posOf, ho]; exact ⟨rfl, rfl, .refl _⟩
  | tup h =>
    simp only [posOf]
    rcases h0.field i with ⟨e1, e2⟩ | ⟨f, t, f', t', e1, e2, e3, e4, e5⟩
    · rw [e1, e2]; exact ⟨rfl, rfl, h0⟩
    · rw [e1, e2]; exact ⟨e3, e4, e5⟩
  | arr h hc =>
    simp only [posOf, ho, hw, hc.isBit, hc.needsValid, hc.size, hc.slot]
    split
    · split <;> exact ⟨rfl, rfl, hc⟩
    · exact ⟨rfl, rfl, hc⟩

theorem bitsOf_widen (h : Widens d e) (n : Nat) : bitsOf e n = bitsOf d n := by
  cases h with
  | prim => rfl
  | str => rfl
  | tup h => exact h.bits
  | arr h hc => simp only [bitsOf, hc.isBit, hc.needsValid, hc.size]

theorem fixedEnd_widen (h : Widens d e) (n : Nat) : fixedEnd e n = fixedEnd d n := by
  have ho := h.offBitmap
  have hw := h.w
  have hb := bitsOf_widen h n
  cases h with
  | prim h => exact h.size
  | str => simp only [fixedEnd, ho]
  | tup h => exact h.size
  | arr h hc => simp only [fixedEnd, ho, hw, hb, hc.isBit, hc.slot]

/-- What is read through `e` where `d` was written. -/
theorem eltAt_widen (h : Widens d e) {p q : PosInfo} (hp : PWide p q) {m : Bytes} {S fe o : Nat} {c : Elt}
    (hc : EltAt d m S fe p o c) (hv : ∀ b, c = .var b → q.ty.getSize b = some b.length) : EltAt e m S fe q o c := by
  cases c with
  | null =>
    simp only [EltAt, h.offBitmap, h.word, hp.off, hp.vbit, hp.ty.needsValid, hp.ty.isVar]
    exact hc
  | bits v =>
    simp only [EltAt, h.offBitmap, hp.off, hp.vbit, hp.ty.needsValid, hp.ty.isBit, hp.ty.size]
    exact hc
  | fixd b =>
    simp only [EltAt, h.offBitmap, hp.off, hp.vbit, hp.ty.needsValid, hp.ty.isBit, hp.ty.isVar, hp.ty.size]
    exact hc
  | var b =>
    obtain ⟨h1, h2, h3, h4, h5, h6, _⟩ := hc
    exact ⟨by rw [hp.ty.isVar]; exact h1, by rw [h.word, hp.off]; exact h2, h3, h4, h5, h6, hv b rfl⟩

theorem crep_widen (h : Widens d e) {m : Bytes} {S : Nat} {cs : List Elt} {o : Nat → Nat} (r : CRep d m S cs o)
    (hv : ∀ (i : Nat) b, cs[i]? = some (.var b) → (posOf e cs.length i).ty.getSize b = some b.length) :
    CRep e m S cs o where
  le := r.le
  mx hh := Nat.le_trans (r.mx (by rw [← h.isVar]; exact hh)) h.hw.le
  cntF hh := by rw [h.count]; exact r.cntF (by rw [← h.isVarCount]; exact hh)
  cntV hh := by rw [h.word, h.offCountP]; exact r.cntV (by rw [← h.isVarCount]; exact hh)
  szP hh := by rw [h.word, h.w]; exact r.szP (by rw [← h.hasSizeP]; exact hh)
  sum := by rw [fixedEnd_widen h]; exact r.sum
  elt i c hi := by
    rw [fixedEnd_widen h]
    exact eltAt_widen h (posOf_widen h _ i) (r.elt i c hi) (fun b hb => hv i b (by rw [← hb]; exact hi))
  disj := r.disj

/-- Data of a type are the same data of the type with raised maximum sizes. -/
theorem enc_widen {b : Bytes} {v : Val} (hen : Enc d b v) : ∀ {e : Dti}, Widens d e → TyOk e → Enc e b v := by
  induction hen with
  | @prim k h b h1 h2 =>
    intro e he _
    cases he with
    | prim hh => exact .prim h1 (by rw [h2, hh.size])
  | @cont d b cs o vs hc r hl hn hb hf hv ihf ihv =>
    intro e he hok
    have hce : e.isCont = true := by rw [he.isCont]; exact hc
    have hcnt : CountOk e cs.length := fun hh => by rw [he.count]; exact r.cntF (by rw [← he.isVarCount]; exact hh)
    have hel : ∀ (i : Nat) c, cs[i]? = some c → TyOk (posOf e cs.length i).ty := fun i c hi =>
      posOf_ok hok hce hcnt (List.getElem?_eq_some_iff.mp hi).1
    have hvar : ∀ (i : Nat) x y, cs[i]? = some (.var x) → vs[i]? = some y → Enc (posOf e cs.length i).ty x y :=
      fun i x y hx hy => ihv i x y hx hy (posOf_widen he _ i).ty (hel i _ hx)
    refine .cont hce (crep_widen he r ?_) hl hn hb ?_ hvar
    · intro i x hx
      have hlt : i < vs.length := by rw [hl]; exact (List.getElem?_eq_some_iff.mp hx).1
      exact (enc_size (hel i _ hx) (hvar i x _ hx (List.getElem?_eq_getElem hlt))).1
    · intro i x y hx hy
      exact ihf i x y hx hy (posOf_widen he _ i).ty (hel i _ hx)

/-! ### Reading -/

theorem getCount_widen (h : Widens d e) (m : Bytes) : e.getCount m = d.getCount m := by
  unfold Dti.getCount; rw [h.isCont, h.isVarCount, h.count, h.loadVal, h.offCountP]

theorem bitmapBits_widen (h : Widens d e) (m : Bytes) : e.bitmapBits m = d.bitmapBits m := by
  have hg := getCount_widen h m
  cases h with
  | prim => rfl
  | str => rfl
  | tup h => simp only [bitmapBits, h.bits]
  | arr h hc => simp only [bitmapBits, hg, hc.isBit, hc.needsValid, hc.size]

theorem posInfo_widen (h : Widens d e) (m : Bytes) (i : Nat) : (d.posInfo m i = none ∧ e.posInfo m i = none) ∨
    ∃ p q, d.posInfo m i = some p ∧ e.posInfo m i = some q ∧ PWide p q := by
  have ho := h.offBitmap
  have hb := bitmapBits_widen h m
  have hw := h.w
  have h0 := h
  cases h with
  | prim => exact .inl ⟨rfl, rfl⟩
  | tup h =>
    simp only [posInfo]
    rcases h0.field i with ⟨e1, e2⟩ | ⟨f, t, f', t', e1, e2, e3, e4, e5⟩
    · rw [e1, e2]; exact .inl ⟨rfl, rfl⟩
    · rw [e1, e2]; exact .inr ⟨_, _, rfl, rfl, e3, e4, e5⟩
  | @str s g g' h =>
    have : posInfo (.str s g') m i = posInfo (.str s g) m i := by
      simp only [posInfo, ho, hb, hw]; rfl
    rw [this]
    cases hp : posInfo (.str s g) m i with
    | none => exact .inl ⟨rfl, rfl⟩
    | some p => exact .inr ⟨p, p, rfl, rfl, rfl, rfl, .refl _⟩
  | arr h hc =>
    simp only [posInfo, ho, hb, hw, tyAt, Option.bind_eq_bind, Option.bind_some, hc.isBit, hc.needsValid, hc.size, hc.isVar]
    rename_i g g' c c'
    cases bitmapBits (.arr g c) m with
    | none => exact .inl ⟨rfl, rfl⟩
    | some bb =>
      simp only [Option.bind_some]
      cases u32 (offBitmap (.arr g c) + bitmapBytes bb) with
      | none => exact .inl ⟨rfl, rfl⟩
      | some fe =>
        simp only [Option.bind_some]
        split
        · split <;> exact .inr ⟨_, _, rfl, rfl, rfl, rfl, hc⟩
        · split
          · cases u32 (fe + c.hdr.size * i) with
            | none => exact .inl ⟨rfl, rfl⟩
            | some o => exact .inr ⟨_, _, rfl, rfl, rfl, rfl, hc⟩
          · cases u32 (fe + (Dti.arr g c).w * i) with
            | none => exact .inl ⟨rfl, rfl⟩
            | some o => exact .inr ⟨_, _, rfl, rfl, rfl, rfl, hc⟩

theorem posInfo_wbind {β : Type} (h : Widens d e) (m : Bytes) (i : Nat) {f g : PosInfo → Option β}
    (hfg : ∀ p q, PWide p q → f q = g p) : (e.posInfo m i >>= f) = (d.posInfo m i >>= g) := by
  rcases posInfo_widen h m i with ⟨h1, h2⟩ | ⟨p, q, h1, h2, hs⟩
  · rw [h1, h2]; rfl
  · rw [h1, h2]; exact hfg p q hs

theorem ptrAt_widen (h : Widens d e) {p q : PosInfo} (hp : PWide p q) (m : Bytes) : e.ptrAt m q = d.ptrAt m p := by
  unfold Dti.ptrAt
  rw [hp.ty.needsValid, hp.ty.isBit, hp.ty.isVar, hp.vbit, hp.off, h.offBitmap, h.loadVal]

theorem getDatum_widen (h : Widens d e) (m : Bytes) : e.getDatum m = d.getDatum m := by
  have hg := getCount_widen h m
  have ho := h.offBitmap
  cases h with
  | @prim k g g' h => cases k <;> simp only [getDatum, h.size]
  | @str b g g' h => cases b <;> simp only [getDatum, hg, ho]
  | tup => rfl
  | arr => rfl

theorem getContUnsafe_widen (h : Widens d e) (m : Bytes) (i : Nat) : e.getContUnsafe m i = d.getContUnsafe m i := by
  unfold getContUnsafe getAt
  refine posInfo_wbind h m i fun p q hp => ?_
  rw [ptrAt_widen h hp, hp.ty.isBit, hp.ty.size, hp.off]
  simp only [getDatum_widen hp.ty]

theorem getCont_widen (h : Widens d e) (m : Bytes) (i : Nat) : e.getCont m i = d.getCont m i := by
  unfold getCont
  rw [h.isCont, getCount_widen h, getContUnsafe_widen h]

theorem getElem_widen (pa : List Nat) : ∀ {d e : Dti}, Widens d e → ∀ (m : Bytes), e.getElem m pa = d.getElem m pa := by
  induction pa with
  | nil => intro d e h m; simp only [getElem]; exact getDatum_widen h m
  | cons i pa ih =>
    intro d e h m
    cases pa with
    | nil => simp only [getElem]; exact getCont_widen h m i
    | cons j pa =>
      simp only [getElem]
      rw [h.isCont, getCount_widen h]
      cases d.isCont with
      | false => rfl
      | true =>
        simp only [Bool.not_true, Bool.false_eq_true, if_false]
        refine obind _ (fun n => ?_)
        split
        · rfl
        · refine posInfo_wbind h m i (fun p q hp => ?_)
          rw [ptrAt_widen h hp]
          simp only [ih hp.ty]

end Dti
end TS
