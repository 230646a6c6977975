import Verif.ContSet
import Verif.BitMove
/-
Moving elements of a container with a variable number of elements to other indices.
-/
namespace TS
namespace Dti

section
variable {d c : Dti} {m m' : Bytes} {S : Nat} {cs : List Elt} {o : Nat → Nat}

/-- An element that is found at another place of another memory. -/
theorem EltAt.move {S' fe fe' oi oi' : Nat} {p p' : PosInfo} {x : Elt} (e : EltAt d m S fe p oi x)
    (hty : p'.ty = p.ty)
    (hv : p.ty.needsValid = true → bit m' d.offBitmap p'.vbit = bit m d.offBitmap p.vbit)
    (hb : p.ty.isBit = true → ∀ x, x < p.ty.hdr.size →
      bit m' d.offBitmap (p'.off + x) = bit m d.offBitmap (p.off + x))
    (hf : p.ty.isBit = false → p.ty.isVar = false → rd m' p'.off p.ty.hdr.size = rd m p.off p.ty.hdr.size)
    (hw : p.ty.isVar = true → d.word m p.off = 0 → d.word m' p'.off = 0)
    (hh : ∀ b, x = .var b → d.word m' p'.off = oi' ∧ fe' ≤ oi' ∧ oi' + b.length ≤ S' ∧
      rd m' oi' b.length = rd m oi b.length) :
    EltAt d m' S' fe' p' oi' x := by
  cases x with
  | null =>
    rcases e with ⟨h1, h2⟩ | ⟨h1, h2⟩
    · left; exact ⟨by rw [hty]; exact h1, by rw [hv h1]; exact h2⟩
    · right; exact ⟨by rw [hty]; exact h1, hw h1 h2⟩
  | bits v =>
    obtain ⟨h1, h2, h3⟩ := e
    refine ⟨by rw [hty]; exact h1, fun h => by rw [hty] at h; rw [hv h]; exact h2 h, ?_⟩
    rw [hty, bitsVal_ext _ _ _ (hb h1)]; exact h3
  | fixd b =>
    obtain ⟨h1, h2, h3, h4⟩ := e
    exact ⟨by rw [hty]; exact h1, by rw [hty]; exact h2, fun h => by rw [hty] at h; rw [hv h]; exact h3 h,
      by rw [hty, hf h1 h2]; exact h4⟩
  | var b =>
    obtain ⟨h1, h2, h3, h4, h5, h6, h7⟩ := e
    obtain ⟨g1, g2, g3, g4⟩ := hh b rfl
    exact ⟨by rw [hty]; exact h1, g1, g2, g3, by rw [g4]; exact h5, h6, by rw [hty]; exact h7⟩

/-! ### the layout of a container of equal elements -/

theorem cont_posOf (hc : d.cont = some c) (hb : c.isBit = false) (n i : Nat) :
    posOf d n i = ⟨d.offBitmap + bitmapBytes (n * c.needsValid.toNat) + slot d.w c * i,
      i * c.needsValid.toNat, c⟩ := by
  cases d with
  | prim => simp [cont] at hc
  | tup => simp [cont] at hc
  | str b h =>
    simp only [cont, Option.some.injEq] at hc
    subst hc
    have h1 : slot (w (.str b h)) u8 = 1 := rfl
    have h2 : u8.needsValid = false := rfl
    simp [posOf, h1, h2, bitmapBytes]
  | arr h c' =>
    simp only [cont, Option.some.injEq] at hc
    subst hc
    simp [posOf, hb]

theorem cont_posOf_bit (hc : d.cont = some c) (hb : c.isBit = true) (n i : Nat) :
    (posOf d n i).ty = c ∧ (posOf d n i).off = i * c.eltBits + c.needsValid.toNat ∧
      (c.needsValid = true → (posOf d n i).vbit = i * c.eltBits) := by
  cases d with
  | prim => simp [cont] at hc
  | tup => simp [cont] at hc
  | str b h =>
    simp only [cont, Option.some.injEq] at hc
    subst hc
    simp [u8, isBit] at hb
  | arr h c' =>
    simp only [cont, Option.some.injEq] at hc
    subst hc
    simp only [posOf, hb, if_true, eltBits]
    cases hn : c'.needsValid with
    | true => simp [Nat.mul_comm]
    | false => simp [Nat.mul_comm]

theorem cont_fixedEnd (hc : d.cont = some c) (hb : c.isBit = false) (n : Nat) :
    fixedEnd d n = d.offBitmap + bitmapBytes (n * c.needsValid.toNat) + n * slot d.w c := by
  cases d with
  | prim => simp [cont] at hc
  | tup => simp [cont] at hc
  | str b h =>
    simp only [cont, Option.some.injEq] at hc
    subst hc
    have h1 : slot (w (.str b h)) u8 = 1 := rfl
    have h2 : u8.needsValid = false := rfl
    simp [fixedEnd, h1, h2, bitmapBytes]
  | arr h c' =>
    simp only [cont, Option.some.injEq] at hc
    subst hc
    simp [fixedEnd, bitsOf, hb]

theorem cont_fixedEnd_bit (hc : d.cont = some c) (hb : c.isBit = true) (n : Nat) :
    fixedEnd d n = d.offBitmap + bitmapBytes (n * c.eltBits) := by
  cases d with
  | prim => simp [cont] at hc
  | tup => simp [cont] at hc
  | str b h =>
    simp only [cont, Option.some.injEq] at hc
    subst hc
    simp [u8, isBit] at hb
  | arr h c' =>
    simp only [cont, Option.some.injEq] at hc
    subst hc
    simp [fixedEnd, bitsOf, hb, eltBits]

theorem varCount_cont (h : TyOk d) (hvc : d.isVarCount = true) :
    d.isCont = true ∧ d.isVar = true ∧ ∃ c, d.cont = some c ∧ TyOk c ∧ d.hasSizeP = c.isVar := by
  cases h with
  | prim => simp [isVarCount] at hvc
  | tup => simp [isVarCount] at hvc
  | str b h => exact ⟨rfl, hvc, u8, rfl, u8_ok, rfl⟩
  | arr h c a1 a2 =>
    simp [isVarCount] at hvc
    exact ⟨rfl, hvc.1, c, rfl, a2, by simp [hasSizeP, hvc.1]⟩

theorem cont_ty (hc : d.cont = some c) (n i : Nat) : (posOf d n i).ty = c := by
  cases hb : c.isBit with
  | true => exact (cont_posOf_bit hc hb n i).1
  | false => rw [cont_posOf hc hb]

/-! ### what a move of elements must achieve -/

/-- Element `i` of `n` in `m` is element `j` of `n'` in `m'`; offsets are changed by `g`. -/
structure Moved (d c : Dti) (m m' : Bytes) (n n' i j : Nat) (g : Nat → Nat) : Prop where
  vb : c.needsValid = true →
    bit m' d.offBitmap (posOf d n' j).vbit = bit m d.offBitmap (posOf d n i).vbit
  bf : c.isBit = true → ∀ x, x < c.hdr.size →
    bit m' d.offBitmap ((posOf d n' j).off + x) = bit m d.offBitmap ((posOf d n i).off + x)
  fx : c.isBit = false → c.isVar = false →
    rd m' (posOf d n' j).off c.hdr.size = rd m (posOf d n i).off c.hdr.size
  wd : c.isVar = true → d.word m' (posOf d n' j).off =
    if d.word m (posOf d n i).off = 0 then 0 else g (d.word m (posOf d n i).off)

/-- Element `j` of `n'` in `m'` has all its bits and bytes zero. -/
structure Zeroed (d c : Dti) (m' : Bytes) (n' j : Nat) : Prop where
  vb : c.needsValid = true → bit m' d.offBitmap (posOf d n' j).vbit = false
  bf : c.isBit = true → ∀ x, x < c.hdr.size → bit m' d.offBitmap ((posOf d n' j).off + x) = false
  fx : c.isBit = false → c.isVar = false →
    rd m' (posOf d n' j).off c.hdr.size = List.replicate c.hdr.size 0
  wd : c.isVar = true → d.word m' (posOf d n' j).off = 0

/-- The content of a new slot: NULL, or zero if the element type is not nullable. -/
def blank (c : Dti) : Elt :=
  if c.isNullable then .null else if c.isBit then .bits 0 else .fixd (List.replicate c.hdr.size 0)

theorem Zeroed.elt {n' j S' fe oi : Nat} (hc : d.cont = some c) (z : Zeroed d c m' n' j) :
    EltAt d m' S' fe (posOf d n' j) oi (blank c) := by
  have ht := cont_ty hc n' j
  unfold blank
  cases hn : c.isNullable with
  | true =>
    simp only [if_true, EltAt, ht]
    cases hv : c.isVar with
    | true => right; exact ⟨rfl, z.wd hv⟩
    | false =>
      have : c.needsValid = true := by simp [needsValid, hv]; simpa [isNullable, hv] using hn
      left; exact ⟨this, z.vb this⟩
  | false =>
    have hnv : c.needsValid = false := by
      simp [isNullable] at hn; simp [needsValid, hn]
    have hv : c.isVar = false := by simp [isNullable] at hn; exact hn.1
    simp only [Bool.false_eq_true, if_false]
    cases hb : c.isBit with
    | true =>
      simp only [if_true, EltAt, ht]
      refine ⟨hb, by simp [hnv], ?_⟩
      have := bitsVal_ext (m := List.replicate 0 0) (m' := m') (off := 0) (off' := d.offBitmap) c.hdr.size 0
        (posOf d n' j).off (by intro x hx; rw [z.bf hb x hx]; simp [bit])
      rw [this]
      apply Nat.eq_of_testBit_eq
      intro x
      rw [testBit_bitsVal]
      simp [bit]
    | false =>
      simp only [Bool.false_eq_true, if_false, EltAt, ht]
      exact ⟨hb, hv, by simp [hnv], z.fx hb hv⟩

theorem Moved.elt {n n' i j S' fe fe' : Nat} {g : Nat → Nat} {oi oi' : Nat} {x : Elt} (hc : d.cont = some c)
    (mv : Moved d c m m' n n' i j g) (e : EltAt d m S fe (posOf d n i) oi x) (hfe : 1 ≤ fe)
    (hh : ∀ b, x = .var b → oi' = g oi ∧ fe' ≤ oi' ∧ oi' + b.length ≤ S' ∧
      rd m' oi' b.length = rd m oi b.length) :
    EltAt d m' S' fe' (posOf d n' j) oi' x := by
  have ht := cont_ty hc n i
  have ht' := cont_ty hc n' j
  refine e.move (by rw [ht, ht']) ?_ ?_ ?_ ?_ ?_
  · rw [ht]; exact mv.vb
  · rw [ht]; exact mv.bf
  · rw [ht]; exact mv.fx
  · rw [ht]; intro hv h0; rw [mv.wd hv, if_pos h0]
  · intro b hb
    obtain ⟨h1, h2, h3, h4⟩ := hh b hb
    subst hb
    refine ⟨?_, h2, h3, h4⟩
    have e1 := e.1
    rw [ht] at e1
    have e2 := e.2.1
    have e3 := e.2.2.1
    rw [mv.wd e1, e2, if_neg (by omega), h1]

/-! ### bytes -/

theorem moveIn_eq {dst src len : Nat} (h1 : src + len ≤ m.length) (h2 : dst + len ≤ m.length) :
    moveIn m dst src len = some (wr m dst (rd m src len)) := by
  unfold moveIn
  rw [load_eq h1]
  simp only [Option.bind_eq_bind, Option.bind_some]
  exact store_eq (by rw [rd_length _ _ _ h1]; exact h2)

theorem moveIn_ok {dst src len : Nat} (h1 : src + len ≤ m.length) (h2 : dst + len ≤ m.length) :
    ∃ m', moveIn m dst src len = some m' ∧ m'.length = m.length ∧
      (∀ x l, x + l ≤ dst ∨ dst + len ≤ x → rd m' x l = rd m x l) ∧
      (∀ x l, x + l ≤ len → rd m' (dst + x) l = rd m (src + x) l) := by
  have hl := rd_length m src len h1
  refine ⟨_, moveIn_eq h1 h2, by simp, ?_, ?_⟩
  · intro x l hx
    exact rd_wr_disj _ _ _ _ _ (by rw [hl]; exact hx)
  · intro x l hx
    rw [rd_wr_sub _ _ _ (by rw [hl]; exact h2) _ _ (by omega) (by rw [hl]; omega)]
    rw [show dst + x - dst = x by omega, rd_rd _ _ _ _ _ hx]

theorem zeroIn_ok {a len : Nat} (h : a + len ≤ m.length) :
    ∃ m', zeroIn m a len = some m' ∧ m'.length = m.length ∧
      (∀ x l, x + l ≤ a ∨ a + len ≤ x → rd m' x l = rd m x l) ∧
      (∀ x l, x + l ≤ len → rd m' (a + x) l = List.replicate l 0) := by
  unfold zeroIn
  refine ⟨_, store_eq (by simpa using h), by simp, ?_, ?_⟩
  · intro x l hx
    exact rd_wr_disj _ _ _ _ _ (by simpa using hx)
  · intro x l hx
    rw [rd_wr_sub _ _ _ (by simpa using h) _ _ (by omega) (by simp; omega)]
    rw [show a + x - a = x by omega]
    exact rd_replicate _ _ _ _ hx

theorem bit_of_rd {off j a l : Nat} (h : rd m' a l = rd m a l) (h1 : a ≤ off + j / 8) (h2 : off + j / 8 < a + l) :
    bit m' off j = bit m off j := by
  apply bit_congr
  have := congrArg (fun b => b[off + j / 8 - a]?) h
  simp only [rd_getElem?] at this
  rw [if_pos (by omega), if_pos (by omega), show a + (off + j / 8 - a) = off + j / 8 by omega] at this
  exact this

end
end Dti
end TS
