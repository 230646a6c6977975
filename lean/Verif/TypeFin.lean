import Verif.TypeLay
/-
`finalize_type_info` yields well formed types (C29), is idempotent (C30); the size definition
agrees with the type (C28).
-/
namespace TS
namespace Dti

/-- The bit part of `Apart`, on fields. -/
structure BitApart (x y : Fld × Dti) : Prop where
  vv : x.2.needsValid → y.2.needsValid → x.1.vbit < y.1.vbit
  vb : x.2.needsValid → y.2.isBit → x.1.vbit < y.1.off
  bv : x.2.isBit → y.2.needsValid → x.1.off + x.2.hdr.size ≤ y.1.vbit
  bb : x.2.isBit → y.2.isBit → x.1.off + x.2.hdr.size ≤ y.1.off

structure BitsSpec (b : Nat) (fs r : List (Fld × Dti)) (e : Nat) : Prop where
  tys : r.map Prod.snd = fs.map Prod.snd
  le : b ≤ e
  vb : ∀ x ∈ r, x.2.needsValid → b ≤ x.1.vbit ∧ x.1.vbit < e
  bf : ∀ x ∈ r, x.2.isBit → b ≤ x.1.off ∧ x.1.off + x.2.hdr.size ≤ e ∧
    (x.2.needsValid → x.1.vbit < x.1.off)
  pw : r.Pairwise BitApart

theorem assignBits_spec (fs : List (Fld × Dti)) (b : Nat) :
    BitsSpec b fs (assignBits b fs).1 (assignBits b fs).2 := by
  induction fs generalizing b with
  | nil => exact ⟨rfl, Nat.le_refl _, by simp [assignBits], by simp [assignBits], by simp [assignBits]⟩
  | cons x fs ih =>
    obtain ⟨f, t⟩ := x
    simp only [assignBits]
    have h := ih (if t.isBit then (if t.needsValid then b + 1 else b) + t.hdr.size
      else if t.needsValid then b + 1 else b)
    generalize hr : assignBits (if t.isBit then (if t.needsValid then b + 1 else b) + t.hdr.size
      else if t.needsValid then b + 1 else b) fs = r at h
    have hle := h.le
    refine ⟨?_, ?_, ?_, ?_, ?_⟩
    · simp [h.tys]
    · by_cases hb : t.isBit <;> by_cases hn : t.needsValid <;> simp [hb, hn] at hle <;> omega
    · intro y hy hyn
      rcases List.mem_cons.mp hy with rfl | hy
      · simp only at hyn
        by_cases hb : t.isBit <;> simp [hb, hyn] at hle ⊢ <;> omega
      · have := h.vb y hy hyn
        by_cases hb : t.isBit <;> by_cases hn : t.needsValid <;> simp [hb, hn] at this <;> omega
    · intro y hy hyb
      rcases List.mem_cons.mp hy with rfl | hy
      · simp only at hyb
        by_cases hn : t.needsValid <;> simp [hyb, hn] at hle ⊢ <;> omega
      · have := h.bf y hy hyb
        refine ⟨?_, this.2⟩
        by_cases hb : t.isBit <;> by_cases hn : t.needsValid <;> simp [hb, hn] at this <;> omega
    · refine List.pairwise_cons.mpr ⟨?_, h.pw⟩
      intro y hy
      constructor
      · intro hn hyn
        have := h.vb y hy hyn
        simp only at hn
        by_cases hb : t.isBit <;> simp [hb, hn] at this ⊢ <;> omega
      · intro hn hyn
        have := h.bf y hy hyn
        simp only at hn
        by_cases hb : t.isBit <;> simp [hb, hn] at this ⊢ <;> omega
      · intro hb hyn
        have := h.vb y hy hyn
        simp only at hb
        by_cases hn : t.needsValid <;> simp [hb, hn] at this ⊢ <;> omega
      · intro hb hyn
        have := h.bf y hy hyn
        simp only at hb
        by_cases hn : t.needsValid <;> simp [hb, hn] at this ⊢ <;> omega

/-- Total of the byte slots. -/
def slots (w : Nat) (fs : List (Fld × Dti)) : Nat :=
  (fs.map (fun p => if p.2.isBit then 0 else slot w p.2)).sum

theorem slots_congr {w : Nat} {fs gs : List (Fld × Dti)} (h : fs.map Prod.snd = gs.map Prod.snd) :
    slots w fs = slots w gs := by
  have e : ∀ l : List (Fld × Dti), slots w l =
      ((l.map Prod.snd).map (fun t => if t.isBit then 0 else slot w t)).sum := by
    intro l; simp [slots, Function.comp_def]
  rw [e, e, h]

/-- What the second loop does to one field. -/
structure OffRel (x y : Fld × Dti) : Prop where
  ty : y.2 = x.2
  name : y.1.name = x.1.name
  vbit : y.1.vbit = x.1.vbit
  bit : x.2.isBit → y.1.off = x.1.off

structure OffsSpec (w s : Nat) (fs r : List (Fld × Dti)) (e : Nat) : Prop where
  len : r.length = fs.length
  rel : ∀ (i : Nat) x y, fs[i]? = some x → r[i]? = some y → OffRel x y
  end_ : e = s + slots w fs
  fx : ∀ x ∈ r, x.2.isBit = false → s ≤ x.1.off ∧ x.1.off + slot w x.2 ≤ e
  pw : r.Pairwise (fun x y => x.2.isBit = false → y.2.isBit = false → x.1.off + slot w x.2 ≤ y.1.off)

theorem assignOffs_spec (w : Nat) (fs : List (Fld × Dti)) (s : Nat) (hs : s + slots w fs < 4294967296) :
    OffsSpec w s fs (assignOffs w s fs).1 (assignOffs w s fs).2 := by
  induction fs generalizing s with
  | nil =>
    exact ⟨rfl, by simp [assignOffs], by simp [assignOffs, slots], by simp [assignOffs],
      by simp [assignOffs]⟩
  | cons x fs ih =>
    obtain ⟨f, t⟩ := x
    simp only [assignOffs]
    by_cases hb : t.isBit
    · rw [if_pos hb]
      have hsl : slots w ((f, t) :: fs) = slots w fs := by simp [slots, hb]
      have h := ih s (by omega)
      refine ⟨by simp [h.len], ?_, by simp [hsl, h.end_], ?_, ?_⟩
      · intro i x y hx hy
        cases i with
        | zero =>
          simp at hx hy; subst hx; subst hy
          exact ⟨rfl, rfl, rfl, fun _ => rfl⟩
        | succ i => simp at hx hy; exact h.rel i x y hx hy
      · intro y hy hyb
        rcases List.mem_cons.mp hy with rfl | hy
        · simp [hb] at hyb
        · exact h.fx y hy hyb
      · refine List.pairwise_cons.mpr ⟨?_, h.pw⟩
        intro y hy hxb
        simp [hb] at hxb
    · rw [if_neg hb]
      have hsl : slots w ((f, t) :: fs) = slot w t + slots w fs := by simp [slots, hb]
      have hw : w32 (s + if t.isVar then w else t.hdr.size) = s + slot w t := by
        unfold slot at *
        rw [w32_eq]
        omega
      rw [hw]
      have h := ih (s + slot w t) (by omega)
      have he := h.end_
      refine ⟨by simp [h.len], ?_, by simp [hsl, h.end_]; omega, ?_, ?_⟩
      · intro i x y hx hy
        cases i with
        | zero =>
          simp at hx hy; subst hx; subst hy
          exact ⟨rfl, rfl, rfl, fun h => absurd h hb⟩
        | succ i => simp at hx hy; exact h.rel i x y hx hy
      · intro y hy hyb
        rcases List.mem_cons.mp hy with rfl | hy
        · simp only; omega
        · have := h.fx y hy hyb; omega
      · refine List.pairwise_cons.mpr ⟨?_, h.pw⟩
        intro y hy hxb hyb
        have := h.fx y hy hyb
        simp only; omega

/-- Fields that differ at most in their layout. -/
def SameFields (fs gs : List (Fld × Dti)) : Prop := fs.map Prod.snd = gs.map Prod.snd

theorem any_congr {fs gs : List (Fld × Dti)} (h : fs.map Prod.snd = gs.map Prod.snd) :
    fs.any (fun p => p.2.isVar) = gs.any (fun p => p.2.isVar) := by
  have e : ∀ l : List (Fld × Dti), l.any (fun p => p.2.isVar) = (l.map Prod.snd).any isVar := by
    intro l; simp [List.any_map, Function.comp_def]
  rw [e, e, h]

theorem mem_snd {fs gs : List (Fld × Dti)} (h : fs.map Prod.snd = gs.map Prod.snd) {f : Fld} {t : Dti}
    (ht : (f, t) ∈ fs) : ∃ g, (g, t) ∈ gs := by
  have : t ∈ gs.map Prod.snd := by rw [← h]; exact List.mem_map.mpr ⟨_, ht, rfl⟩
  obtain ⟨⟨g, t'⟩, h1, h2⟩ := List.mem_map.mp this
  exact ⟨g, by rw [← h2]; exact h1⟩

theorem rel_snd {w s e : Nat} {fs r : List (Fld × Dti)} (h : OffsSpec w s fs r e) :
    r.map Prod.snd = fs.map Prod.snd := by
  apply List.ext_getElem?
  intro i
  rw [List.getElem?_map, List.getElem?_map]
  by_cases hi : i < fs.length
  · have hi' : i < r.length := by rw [h.len]; exact hi
    have h1 := List.getElem?_eq_getElem hi
    have h2 := List.getElem?_eq_getElem hi'
    have := (h.rel i _ _ h1 h2).ty
    rw [h1, h2]; simp [this]
  · rw [List.getElem?_eq_none (l := r) (by rw [h.len]; omega), List.getElem?_eq_none (l := fs) (by omega)]

theorem isBit_false_pos {t : Dti} (h : TyOk t) : 1 ≤ t.hdr.size := by
  cases h with
  | prim => simpa [hdr]
  | str b h h1 h2 h3 h4 =>
    simp only [hdr]
    cases hv : h.isVar with
    | false => have := h3 hv; omega
    | true => have := h4 hv; have := vsz_pos h.maxSize; omega
  | tup => simpa [hdr]
  | arr => simpa [hdr]

theorem isVar_not_bit {t : Dti} (h : TyOk t) (hv : t.isVar = true) : t.isBit = false := by
  cases h with
  | prim k h h1 h2 => simp [isVar, hdr, h2] at hv
  | str => rfl
  | tup => rfl
  | arr => rfl

theorem slot_pos {t : Dti} (h : TyOk t) (mx : Nat) : 1 ≤ slot (vsz mx) t := by
  unfold slot
  split
  · exact vsz_pos _
  · exact isBit_false_pos h

theorem bitmapBytes_mono {a b : Nat} (h : a ≤ b) : bitmapBytes a ≤ bitmapBytes b := by
  unfold bitmapBytes; omega

/-- A tuple whose fields are finalised: its own finalisation is sound. -/
theorem finTup_ok {h : Hdr} {fs : List (Fld × Dti)} {d : Dti} (hlen : fs.length = h.count)
    (hc : h.count ≠ 0) (hfs : ∀ f t, (f, t) ∈ fs → TyOk t) (hfin : finTup h fs = some d)
    (hsm : Small d) : TyOk d := by
  unfold finTup at hfin
  simp only at hfin
  have hB := assignBits_spec fs 0
  generalize hr1 : assignBits 0 fs = r1 at hB hfin
  obtain ⟨fs1, b⟩ := r1
  simp only at hB hfin
  generalize hv : fs.any (fun p => p.2.isVar) = v at hfin
  generalize hr2 : assignOffs (vsz h.maxSize) (w32 ((if v then vsz h.maxSize else 0) + bitmapBytes b)) fs1
    = r2 at hfin
  obtain ⟨fs2, e⟩ := r2
  simp only at hfin
  split at hfin
  · cases hfin
  · rename_i hmax
    cases hfin
    -- sizes do not wrap
    have htys : fs2.map Prod.snd = fs1.map Prod.snd := by
      have : ∀ (w : Nat) (l : List (Fld × Dti)) (s : Nat),
          (assignOffs w s l).1.map Prod.snd = l.map Prod.snd := by
        intro w l
        induction l with
        | nil => intro s; rfl
        | cons x l ih =>
          intro s
          obtain ⟨f, t⟩ := x
          simp only [assignOffs]
          split <;> simp [ih]
      have := this (vsz h.maxSize) fs1 (w32 ((if v then vsz h.maxSize else 0) + bitmapBytes b))
      rw [hr2] at this
      exact this
    have hsn := htys.trans hB.tys
    have hsm4 : (v = true → h.maxSize < lim) ∧ h.count < lim ∧
        vsz h.maxSize + bitmapBytes b + slots (vsz h.maxSize) fs2 < lim := by
      cases hsm with
      | tup _ _ a1 a2 a3 a4 => exact ⟨a2, a3, a4⟩
    obtain ⟨hsmx, hscnt, hssz⟩ := hsm4
    have hw0 : (if v then vsz h.maxSize else 0) ≤ vsz h.maxSize := by split <;> omega
    have hsl12 : slots (vsz h.maxSize) fs1 = slots (vsz h.maxSize) fs2 := slots_congr htys.symm
    unfold lim at *
    rw [w32_eq (by omega)] at hr2
    have hO := assignOffs_spec (vsz h.maxSize) fs1
      ((if v then vsz h.maxSize else 0) + bitmapBytes b) (by omega)
    rw [hr2] at hO
    simp only at hO
    have hend := hO.end_
    have hok2 : ∀ f t, (f, t) ∈ fs2 → TyOk t := by
      intro f t hft
      obtain ⟨g, hg⟩ := mem_snd hsn hft
      exact hfs g t hg
    have hlen2 : fs2.length = h.count := by
      rw [← hlen, ← List.length_map (f := Prod.snd), hsn, List.length_map]
    have hpos1 : 1 ≤ e := by
      obtain ⟨⟨f, t⟩, ht⟩ : ∃ x, x ∈ fs2 := by
        cases fs2 with
        | nil => simp at hlen2; omega
        | cons x l => exact ⟨x, by simp⟩
      by_cases hb : t.isBit
      · obtain ⟨g, hg⟩ := mem_snd htys ht
        have h1 := hB.bf (g, t) hg hb
        have h2 := isBit_false_pos (hok2 f t ht)
        have : 1 ≤ bitmapBytes b := by unfold bitmapBytes; simp only at h1; omega
        omega
      · have h1 := hO.fx (f, t) ht (by simpa using hb)
        have h2 := slot_pos (hok2 f t ht) h.maxSize
        simp only at h1; omega
    -- layout
    have hget : ∀ i, i < h.count → ∃ x, fs2[i]? = some x ∧ ∃ y, fs1[i]? = some y ∧ OffRel y x := by
      intro i hi
      have hi1 : i < fs1.length := by rw [← hO.len, hlen2]; exact hi
      refine ⟨_, List.getElem?_eq_getElem (by rw [hlen2]; exact hi), _, List.getElem?_eq_getElem hi1, ?_⟩
      exact hO.rel i _ _ (List.getElem?_eq_getElem hi1) (List.getElem?_eq_getElem _)
    have hpo : ∀ i x, fs2[i]? = some x → ∀ (h' : Hdr) n, posOf (.tup h' fs2) n i = ⟨x.1.off, x.1.vbit, x.2⟩ := by
      intro i x hx h' n
      simp [posOf, hx]
    refine TyOk.tup _ _ rfl rfl hok2 hlen2 (by simp only; omega) ?_ ?_ (by simp only; omega) hpos1
      (by simp only; unfold lim; omega) (by simp only; unfold lim; omega) ?_
    · simp only
      rw [← hv]; exact (any_congr hsn).symm
    · simp only
      constructor
      · intro i hi
        obtain ⟨x, hx, y, hy, hrel⟩ := hget i hi
        rw [hpo i x hx]; simp only
        intro hn
        have := hB.vb y (List.mem_of_getElem? hy) (by rw [← hrel.ty]; exact hn)
        rw [hrel.vbit]; exact this.2
      · intro i hi
        obtain ⟨x, hx, y, hy, hrel⟩ := hget i hi
        rw [hpo i x hx]; simp only
        intro hn
        have hb := hn
        rw [hrel.ty] at hb
        have := hB.bf y (List.mem_of_getElem? hy) hb
        rw [hrel.ty, hrel.bit hb]; exact this.2.1
      · intro i hi
        obtain ⟨x, hx, y, hy, hrel⟩ := hget i hi
        rw [hpo i x hx]; simp only
        intro hn hn2
        rw [hrel.ty] at hn hn2
        have := hB.bf y (List.mem_of_getElem? hy) hn
        rw [hrel.vbit, hrel.bit hn]; exact this.2.2 hn2
      · intro i hi
        obtain ⟨x, hx, y, hy, hrel⟩ := hget i hi
        rw [hpo i x hx]; simp only
        intro hn
        exact hO.fx x (List.mem_of_getElem? hx) hn
      · intro i j hij hj
        obtain ⟨x, hx, y, hy, hrel⟩ := hget i (by omega)
        obtain ⟨x', hx', y', hy', hrel'⟩ := hget j hj
        rw [hpo i x hx, hpo j x' hx']
        obtain ⟨hi1, hxe⟩ := List.getElem?_eq_some_iff.mp hx
        obtain ⟨hj1, hxe'⟩ := List.getElem?_eq_some_iff.mp hx'
        obtain ⟨hi2, hye⟩ := List.getElem?_eq_some_iff.mp hy
        obtain ⟨hj2, hye'⟩ := List.getElem?_eq_some_iff.mp hy'
        have p1 := List.pairwise_iff_getElem.mp hB.pw i j hi2 hj2 hij
        have p2 := List.pairwise_iff_getElem.mp hO.pw i j hi1 hj1 hij
        rw [hye, hye'] at p1
        rw [hxe, hxe'] at p2
        constructor
        · simp only [hrel.ty, hrel'.ty, hrel.vbit, hrel'.vbit]; exact p1.vv
        · simp only [hrel.ty, hrel'.ty, hrel.vbit]
          intro a1 a2; rw [hrel'.bit a2]; exact p1.vb a1 a2
        · simp only [hrel.ty, hrel'.ty, hrel'.vbit]
          intro a1 a2; rw [hrel.bit a1]; exact p1.bv a1 a2
        · simp only [hrel.ty, hrel'.ty]
          intro a1 a2; rw [hrel.bit a1, hrel'.bit a2]; exact p1.bb a1 a2
        · exact p2
    · simp only
      intro hv1
      subst hv1
      simp at hmax
      exact ⟨hmax, hsmx rfl⟩

theorem fixedEnd_congr {h h' : Hdr} (c : Dti) (n : Nat) (h1 : h.isVar = h'.isVar)
    (h2 : h.varCount = h'.varCount) (h3 : h.maxSize = h'.maxSize) :
    fixedEnd (.arr h c) n = fixedEnd (.arr h' c) n := by
  simp only [fixedEnd, offBitmap, offCountP, hasSizeP, hasCountP, isVarCount, bitsOf, w, hdr, h1, h2, h3]

theorem finArr_ok {h : Hdr} {c d : Dti} (hc : TyOk c) (hfin : finArr h c = some d)
    (hsm : Small d) : TyOk d := by
  unfold finArr at hfin
  split at hfin
  · cases hfin
  rename_i hcount
  have hcv : c.isVar = true → c.isBit = false := isVar_not_bit hc
  have hcp := isBit_false_pos hc
  have hge := vsz_pos h.maxSize
  have hle := vsz_le h.maxSize
  -- the fixed end of the finished type
  generalize hH : ({ h with isVar := h.varCount || c.isVar, bits := arrBits h c } : Hdr) = H at hfin
  have hHv : H.isVar = (h.varCount || c.isVar) := by rw [← hH]
  have hHc : H.varCount = h.varCount := by rw [← hH]
  have hHn : H.count = h.count := by rw [← hH]
  have hHm : H.maxSize = h.maxSize := by rw [← hH]
  have hHb : H.bits = arrBits h c := by rw [← hH]
  rw [← hHc, ← hHn] at hcount
  rw [← hHm] at hge hle
  unfold finArrSize at hfin
  split at hfin
  · rename_i hv
    have hv : H.isVar = false := by simpa using hv
    rw [hHv] at hv
    simp at hv
    obtain ⟨hv1, hv2⟩ := hv
    rw [← hHc] at hv1
    have hcount : H.count ≠ 0 := by simpa [hv1] using hcount
    cases hfin
    cases hsm with
    | arr _ _ a1 a2 a3 =>
      have a4 := (a3 hv1).2
      have hcong := fixedEnd_congr (h := { H with size := arrSize H c, isFinal := true }) (h' := H)
        c H.count rfl rfl rfl
      simp only at a4 hcong
      have he : fixedEnd (.arr H c) H.count = bitmapBytes H.bits + if c.isBit then 0 else H.count * c.hdr.size := by
        rw [hHb]
        rw [hHc] at hv1
        by_cases hb : c.isBit <;>
        simp [fixedEnd, offBitmap, offCountP, hasSizeP, hasCountP, isVarCount, hHc, hHn, hHv, hv1, hv2, hb, bitsOf,
          slot, arrBits]
      rw [hcong, he] at a4
      have hsz : arrSize H c = fixedEnd (.arr H c) H.count := by
        rw [he]
        unfold arrSize lim at *
        by_cases hb : c.isBit
        · simp only [hb, if_true] at a4 ⊢
          rw [w32_eq (by omega)]; rfl
        · simp only [hb] at a4 ⊢
          simp at a4 ⊢
          rw [w32_eq (x := H.count * c.hdr.size) (by omega), w32_eq (by omega)]
      have hpos : 1 ≤ fixedEnd (.arr H c) H.count := by
        rw [he]
        by_cases hb : c.isBit
        · have : 1 * 1 ≤ h.count * (c.needsValid.toNat + c.hdr.size) :=
            Nat.mul_le_mul (by omega) (by omega)
          rw [hHc] at hv1
          simp only [hHb, hb, if_true, bitmapBytes, arrBits, hv1]
          simp
          omega
        · have : 1 * 1 ≤ H.count * c.hdr.size := Nat.mul_le_mul (by omega) (by omega)
          simp only [hb]; simp; omega
      refine TyOk.arr _ _ rfl hc (by simp [hHv, hHc]) ?_ ?_ ?_ ?_ ?_
      · intro _
        refine ⟨by simp only; omega, (a3 hv1).1, ?_⟩
        exact hsz.trans hcong.symm
      · intro h1; simp only [hv1] at h1; cases h1
      · simp only; rw [hsz]; exact hpos
      · simp only; rw [hsz, he]; exact a4
      · intro h1
        rw [hHc] at hv1
        simp [hHv, hv1, hv2] at h1
  · rename_i hv
    have hv : H.isVar = true := by simpa using hv
    split at hfin
    · cases hfin
    rename_i hmax
    cases hfin
    cases hsm with
    | arr _ _ a1 a2 a3 =>
      have hm := a2 (by simpa using hv)
      simp only at hm a3
      have hcong := fun n => fixedEnd_congr (h := { H with size := arrMin H c, isFinal := true }) (h' := H)
        c n rfl rfl rfl
      by_cases hvc : H.varCount
      · have he : fixedEnd (.arr H c) 0 = arrMin H c := by
          by_cases hb : c.isBit <;> simp [fixedEnd, arrMin, hvc, hb, bitsOf, bitmapBytes]
        have ho : 1 ≤ arrMin H c := by
          simp [arrMin, offBitmap, hasCountP, isVarCount, hvc, w, hdr, hv]; omega
        refine TyOk.arr _ _ rfl hc (by simp [hHv, hHc]) ?_ ?_ ?_ ?_ ?_
        · intro h1; simp only [hvc] at h1; cases h1
        · intro _
          exact (he.symm).trans (hcong 0).symm
        · exact ho
        · simp only; unfold lim at *; omega
        · intro _; simp only; exact ⟨by omega, hm⟩
      · have hvc : H.varCount = false := by simpa using hvc
        have hcv1 : c.isVar = true := by
          rw [hHv, ← hHc, hvc] at hv; simpa using hv
        have hcb := hcv hcv1
        have hcount : H.count ≠ 0 := by simpa [hvc] using hcount
        have a4 := (a3 hvc).2
        have hnv : c.needsValid = false := by simp [needsValid, hcv1]
        have he : fixedEnd (.arr H c) H.count = vsz H.maxSize + H.count * vsz H.maxSize := by
          simp [fixedEnd, offBitmap, offCountP, hasSizeP, hasCountP, isVarCount, hv, hvc, hcv1, hcb,
            bitsOf, bitmapBytes, w, hdr, slot, hnv]
        rw [hcong, he] at a4
        have hsz : arrMin H c = fixedEnd (.arr H c) H.count := by
          rw [he]
          unfold lim at *
          simp [arrMin, offBitmap, offCountP, hasSizeP, hasCountP, isVarCount, hvc, hv, hcv1, hcb, w, hdr]
          rw [Nat.mul_comm, w32_eq (x := H.count * vsz H.maxSize) (by omega), w32_eq (by omega)]
        refine TyOk.arr _ _ rfl hc (by simp [hHv, hHc]) ?_ ?_ ?_ ?_ ?_
        · intro _
          refine ⟨by simp only; omega, (a3 hvc).1, ?_⟩
          exact hsz.trans (hcong _).symm
        · intro h1; simp only [hvc] at h1; cases h1
        · simp only; rw [hsz, he]; omega
        · simp only; rw [hsz, he]; exact a4
        · intro _; simp only; exact ⟨by omega, hm⟩

theorem finStr_ok {b : Bool} {h : Hdr} {d : Dti} (hfin : finStr b h = some d) (hsm : Small d) :
    TyOk d := by
  unfold finStr at hfin
  split at hfin
  · cases hfin
  · rename_i hc
    split at hfin
    · rename_i hv
      split at hfin
      · cases hfin
      · rename_i hm
        cases hfin
        cases hsm with
        | str _ _ a1 a2 =>
          exact TyOk.str _ _ rfl (by simp [hv]) (by intro h; cases h) (fun _ => ⟨rfl, by simp only; omega, a1 rfl⟩)
    · rename_i hv
      have hv : h.varCount = false := by simpa using hv
      cases hfin
      cases hsm with
      | str _ _ a1 a2 =>
        have hcount : h.count ≠ 0 := by simpa [hv] using hc
        exact TyOk.str _ _ rfl (by simp [hv]) (fun _ => ⟨rfl, by simp only; omega, a2 rfl⟩) (by intro h; cases h)

theorem finPrim_ok {k : PKind} {h : Hdr} {d : Dti} (hfin : finPrim k h = some d) : TyOk d := by
  unfold finPrim at hfin
  simp only at hfin
  cases k <;> simp only at hfin <;> split at hfin <;>
  first
  | (cases hfin; done)
  | (rename_i hok
     simp at hok
     cases hfin
     exact TyOk.prim _ _ rfl rfl (by simp only; omega) (by simp only; omega) (by simp <;> omega)
       (by simp <;> omega) (by simp <;> omega))

theorem finalizeAll_mem {fs gs : List (Fld × Dti)} (h : finalizeAll fs = some gs) :
    gs.length = fs.length ∧ ∀ g t', (g, t') ∈ gs → ∃ t, (g, t) ∈ fs ∧ finalize t = some t' := by
  induction fs generalizing gs with
  | nil => simp [finalizeAll] at h; subst h; simp
  | cons x fs ih =>
    obtain ⟨f, t⟩ := x
    simp only [finalizeAll, Option.bind_eq_bind, Option.bind_eq_some_iff, Option.pure_def] at h
    obtain ⟨t1, h1, r, h2, h3⟩ := h
    cases h3
    obtain ⟨i1, i2⟩ := ih h2
    refine ⟨by simp [i1], ?_⟩
    intro g t' hm
    rcases List.mem_cons.mp hm with hm | hm
    · cases hm; exact ⟨t, by simp, h1⟩
    · obtain ⟨t0, h4, h5⟩ := i2 g t' hm
      exact ⟨t0, by simp [h4], h5⟩

theorem finTup_fields {h : Hdr} {fs : List (Fld × Dti)} {d : Dti} (hfin : finTup h fs = some d) :
    ∃ h' gs, d = .tup h' gs ∧ gs.map Prod.snd = fs.map Prod.snd := by
  unfold finTup at hfin
  simp only at hfin
  generalize w32 _ = s at hfin
  split at hfin
  · cases hfin
  · injection hfin with hfin
    refine ⟨_, _, hfin.symm, ?_⟩
    have : ∀ (w : Nat) (l : List (Fld × Dti)) (s : Nat),
        (assignOffs w s l).1.map Prod.snd = l.map Prod.snd := by
      intro w l
      induction l with
      | nil => intro s; rfl
      | cons x l ih =>
        intro s
        obtain ⟨f, t⟩ := x
        simp only [assignOffs]
        split <;> simp [ih]
    rw [this]
    exact (assignBits_spec fs 0).tys

theorem finArr_cont {h : Hdr} {c d : Dti} (hfin : finArr h c = some d) : ∃ h', d = .arr h' c := by
  unfold finArr finArrSize at hfin
  simp only at hfin
  split at hfin
  · cases hfin
  · split at hfin
    · injection hfin with hfin; exact ⟨_, hfin.symm⟩
    · split at hfin
      · cases hfin
      · injection hfin with hfin; exact ⟨_, hfin.symm⟩

theorem finalize_ok (d : Dti) : ∀ d', Fresh d → finalize d = some d' → Small d' → TyOk d' := by
  induction d using ind with
  | hp k h =>
    intro d' hf hfin hsm
    simp only [finalize] at hfin
    split at hfin
    · rename_i hfi
      cases hfin
      cases hf with
      | ok h => exact h
      | prim _ _ h => simp [h] at hfi
    · exact finPrim_ok hfin
  | hs b h =>
    intro d' hf hfin hsm
    simp only [finalize] at hfin
    split at hfin
    · rename_i hfi
      cases hfin
      cases hf with
      | ok h => exact h
      | str _ _ h => simp [h] at hfi
    · exact finStr_ok hfin hsm
  | ht h fs ih =>
    intro d' hf hfin hsm
    simp only [finalize] at hfin
    split at hfin
    · rename_i hfi
      cases hfin
      cases hf with
      | ok h => exact h
      | tup _ _ h => simp [h] at hfi
    · rename_i hfi
      cases hf with
      | ok h1 => cases h1; contradiction
      | tup _ _ _ hlen hfr =>
        split at hfin
        · cases hfin
        · rename_i hc
          simp only [Option.bind_eq_bind, Option.bind_eq_some_iff] at hfin
          obtain ⟨gs, h1, h2⟩ := hfin
          obtain ⟨hl, hm⟩ := finalizeAll_mem h1
          obtain ⟨h', gs', rfl, hsn⟩ := finTup_fields h2
          refine finTup_ok (by omega) hc ?_ h2 hsm
          intro f t hft
          obtain ⟨t0, m1, m2⟩ := hm f t hft
          refine ih f t0 m1 t (hfr f t0 m1) m2 ?_
          obtain ⟨g, hg⟩ := mem_snd hsn.symm hft
          cases hsm with
          | tup _ _ a1 => exact a1 g t hg
  | ha h c ih =>
    intro d' hf hfin hsm
    simp only [finalize] at hfin
    split at hfin
    · rename_i hfi
      cases hfin
      cases hf with
      | ok h => exact h
      | arr _ _ h => simp [h] at hfi
    · rename_i hfi
      cases hf with
      | ok h1 => cases h1; contradiction
      | arr _ _ _ hfr =>
        simp only [Option.bind_eq_bind, Option.bind_eq_some_iff] at hfin
        obtain ⟨c', h1, h2⟩ := hfin
        obtain ⟨h', rfl⟩ := finArr_cont h2
        have hsc : Small c' := by cases hsm; assumption
        exact finArr_ok (ih c' hfr h1 hsc) h2 hsm

end Dti
end TS
