import Verif.TypeFin
/-
Layout of every container type, and agreement of the size definition with the type.
-/
namespace TS
namespace Dti

theorem not_var_needs {t : Dti} (h : t.isVar = true) : t.needsValid = false := by
  simp [needsValid, h]

theorem TyOk.final {d : Dti} (h : TyOk d) : d.hdr.isFinal = true := by
  cases h <;> simpa [hdr]

theorem TyOk.maxSize {d : Dti} (h : TyOk d) (hv : d.isVar = true) :
    d.hdr.size ≤ d.hdr.maxSize ∧ d.hdr.maxSize < lim := by
  cases h with
  | prim k h a1 a2 => simp [isVar, hdr, a2] at hv
  | str b h a1 a2 a3 a4 => exact ⟨(a4 hv).2.1, (a4 hv).2.2⟩
  | tup h fs a1 a2 a3 a4 a5 a6 a7 a8 a9 a10 a11 a12 => exact a12 hv
  | arr h c a1 a2 a3 a4 a5 a6 a7 a8 => exact a8 hv

theorem TyOk.size_pos {d : Dti} (h : TyOk d) : 1 ≤ d.hdr.size := isBit_false_pos h

theorem TyOk.size_lt {d : Dti} (h : TyOk d) : d.hdr.size < lim := by
  cases h with
  | prim k h a1 a2 a3 a4 => simp only [hdr]; unfold lim; omega
  | str b h a1 a2 a3 a4 =>
    simp only [hdr]
    cases hv : h.isVar with
    | false => have := a3 hv; omega
    | true => have := a4 hv; omega
  | tup h fs a1 a2 a3 a4 a5 a6 a7 a8 a9 a10 a11 a12 => exact a10
  | arr h c a1 a2 a3 a4 a5 a6 a7 a8 => exact a7

/-- A variable sized well formed type is a container that carries its size or its element count. -/
theorem TyOk.prefix {d : Dti} (h : TyOk d) (hv : d.isVar = true) :
    d.isCont = true ∧ (d.hasSizeP = true ∨ d.hasCountP = true) := by
  cases h with
  | prim k h a1 a2 => simp [isVar, hdr, a2] at hv
  | str b h a1 a2 a3 a4 => simp [isVar, hdr] at hv; simp [isCont, hasCountP, isVarCount, hv]
  | tup h fs => simp [isVar, hdr] at hv; simp [isCont, hasSizeP, hv]
  | arr h c a1 a2 a3 a4 a5 a6 a7 a8 =>
    simp [isVar, hdr] at hv
    simp [isCont, hasSizeP, hasCountP, isVarCount, hv]
    rw [hv] at a3
    cases hc : c.isVar with
    | true => simp
    | false => right; simpa [hc] using a3.symm

/-- Whether `n` can be the element count of a container of this type. -/
def CountOk (d : Dti) (n : Nat) : Prop := d.isVarCount = false → n = d.hdr.count

theorem lay_of {d : Dti} (h : TyOk d) (hc : d.isCont = true) {n : Nat} (hn : CountOk d n) :
    Lay d.w (bitsOf d n) (d.offBitmap + bitmapBytes (bitsOf d n)) (fixedEnd d n) n (posOf d n) := by
  cases h with
  | prim k h => simp [isCont] at hc
  | str b h a1 a2 a3 a4 =>
    have hu : u8.needsValid = false := rfl
    have hb : u8.isBit = false := rfl
    have hs : slot (w (.str b h)) u8 = 1 := rfl
    have h0 : bitmapBytes 0 = 0 := rfl
    constructor
    · intro i hi h; simp only [posOf, hu] at h; cases h
    · intro i hi h; simp only [posOf, hb] at h; cases h
    · intro i hi h; simp only [posOf, hb] at h; cases h
    · intro i hi h; simp only [posOf, fixedEnd, bitsOf, hs, h0]; omega
    · intro i j hij hj
      constructor
      · simp only [posOf, hu]; intro h; cases h
      · simp only [posOf, hu]; intro h; cases h
      · simp only [posOf, hb]; intro h; cases h
      · simp only [posOf, hb]; intro h; cases h
      · simp only [posOf, hs]; intro _ _; omega
  | tup h fs a1 a2 a3 a4 a5 a6 a7 a8 a9 a10 a11 a12 =>
    have hn : n = h.count := hn rfl
    subst hn
    have ho : offBitmap (.tup h fs) = if h.isVar then vsz h.maxSize else 0 := by
      simp [offBitmap, offCountP, hasSizeP, hasCountP, isVarCount, w, hdr]
      cases h.isVar <;> simp
    rw [ho]
    exact a7
  | arr h c a1 a2 a3 a4 a5 a6 a7 a8 =>
    by_cases hb : c.isBit
    · by_cases hv : c.needsValid
      · have hmul : ∀ i j : Nat, i < j → (1 + c.hdr.size) * i + (1 + c.hdr.size) ≤ (1 + c.hdr.size) * j := by
          intro i j hij
          have := Nat.mul_le_mul_left (1 + c.hdr.size) (show i + 1 ≤ j from hij)
          rw [Nat.mul_add] at this; omega
        have hcm : n * (1 + c.hdr.size) = (1 + c.hdr.size) * n := Nat.mul_comm _ _
        constructor
        · intro i hi _; have := hmul i n hi; simp [posOf, bitsOf, hb, hv, hcm]; omega
        · intro i hi _; have := hmul i n hi; simp [posOf, bitsOf, hb, hv, hcm]; omega
        · intro i hi _ _; simp [posOf, hb, hv]
        · intro i hi h; simp [posOf, hb, hv] at h
        · intro i j hij hj
          have := hmul i j hij
          constructor <;> simp [posOf, hb, hv] <;> omega
      · have hmul : ∀ i j : Nat, i < j → c.hdr.size * i + c.hdr.size ≤ c.hdr.size * j := by
          intro i j hij
          have := Nat.mul_le_mul_left c.hdr.size (show i + 1 ≤ j from hij)
          rw [Nat.mul_add] at this; omega
        have hcm : n * c.hdr.size = c.hdr.size * n := Nat.mul_comm _ _
        constructor
        · intro i hi h; simp [posOf, hb, hv] at h
        · intro i hi _; have := hmul i n hi; simp [posOf, bitsOf, hb, hv, hcm]; omega
        · intro i hi _ h; simp [posOf, hb, hv] at h
        · intro i hi h; simp [posOf, hb, hv] at h
        · intro i j hij hj
          have := hmul i j hij
          constructor <;> simp [posOf, hb, hv] <;> omega
    · have hb : c.isBit = false := by simpa using hb
      have hmul : ∀ i j : Nat, i < j →
          slot (w (.arr h c)) c * i + slot (w (.arr h c)) c ≤ slot (w (.arr h c)) c * j := by
        intro i j hij
        have := Nat.mul_le_mul_left (slot (w (.arr h c)) c) (show i + 1 ≤ j from hij)
        rw [Nat.mul_add] at this; omega
      have hcm : n * slot (w (.arr h c)) c = slot (w (.arr h c)) c * n := Nat.mul_comm _ _
      constructor
      · intro i hi h
        simp [posOf, hb] at h
        simp [posOf, bitsOf, hb, h]; exact hi
      · intro i hi h; simp [posOf, hb] at h
      · intro i hi h; simp [posOf, hb] at h
      · intro i hi h
        have := hmul i n hi
        simp [posOf, bitsOf, hb, fixedEnd, hcm]; omega
      · intro i j hij hj
        have := hmul i j hij
        constructor
        · simp [posOf, hb]; intro h; simp [h, hij]
        · simp [posOf, hb]
        · simp [posOf, hb]
        · simp [posOf, hb]
        · simp [posOf, hb]; omega

theorem getSize_sizeDef {d : Dti} {d0 sd : SizeDef} (hsd : sizeDefOf d0 d = some sd)
    (t : Bytes) : tupleSize sd t = getSize d t := by
  unfold sizeDefOf at hsd
  split at hsd
  · cases hsd
  · rename_i hb
    split at hsd
    · rename_i hv
      split at hsd
      · cases hsd
      · cases hsd
        have hv : d.isVar = false := by simpa using hv
        simp [tupleSize, getSize, hb, hv]
    · rename_i hv
      have hv : d.isVar = true := by simpa using hv
      simp only at hsd
      split at hsd
      · cases hsd
      · split at hsd
        · rename_i hs
          cases hsd
          simp [tupleSize, getSize, hb, hv, hs]
        · rename_i hs
          have hs : d.hasSizeP = false := by simpa using hs
          have ho : d.offCountP = 0 := by simp [offCountP, hs]
          cases hc : d.cont with
          | none => simp [hc] at hsd
          | some c =>
            simp [hc] at hsd
            subst hsd
            simp only [tupleSize, getSize, hb, hv, hs, ho, hc, w]
            cases loadVal t d.hdr.maxSize 0 <;> simp

theorem sizeDefOf_isSome {d : Dti} (d0 : SizeDef) (h : TyOk d) :
    (sizeDefOf d0 d).isSome = !d.isBit := by
  unfold sizeDefOf
  have hp := h.size_pos
  cases hb : d.isBit with
  | true => simp
  | false =>
    cases hv : d.isVar with
    | false => simp; omega
    | true =>
      obtain ⟨h1, h2⟩ := h.prefix hv
      simp only [Bool.false_eq_true, if_false, Bool.not_true]
      have h3 : ¬ ((!d.hasSizeP && !d.hasCountP) = true) := by
        rcases h2 with h2 | h2 <;> simp [h2]
      rw [if_neg h3]
      split
      · rfl
      · rename_i hs
        cases d with
        | prim => simp [isCont] at h1
        | tup h fs => simp [isVar, hdr] at hv; simp [hasSizeP, hv] at hs
        | str => simp [cont]
        | arr => simp [cont]

end Dti
end TS
