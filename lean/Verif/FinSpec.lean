import Verif.PropsType
/-
When `finalize_type_info` accepts a type, and the size it computes: a specification over the members
that a user sets, and the proof that the code agrees with it.
-/
namespace TS
namespace Dti

/-! ### Specification -/

mutual
/-- Data of the type have no fixed size: a string, binary or array with a variable element count, or
anything that contains such a type. -/
def Varies : Dti → Bool
  | .prim .. => false
  | .str _ h => h.varCount
  | .tup _ fs => VariesAny fs
  | .arr h c => h.varCount || Varies c
def VariesAny : List (Fld × Dti) → Bool
  | [] => false
  | (_, t) :: r => Varies t || VariesAny r
end

/-- Bits an element of the type takes in the bitmap of its container: one for NULL if it is declared
nullable and has a fixed size, and the bits of a bit field. -/
def BitsOf (t : Dti) : Nat :=
  (if !Varies t && t.hdr.nullable then 1 else 0) + (if t.isBit then t.hdr.size else 0)

mutual
/-- The size of the smallest datum: the size and the element count where these vary, the bitmap, and
for every element its own size or, if that varies, the width of an offset. -/
def Least : Dti → Nat
  | .prim _ h => h.size
  | .str _ h => if h.varCount then vsz h.maxSize else h.count
  | .tup h fs => (if VariesAny fs then vsz h.maxSize else 0) + bitmapBytes (BitsAll fs) + LeastAll (vsz h.maxSize) fs
  | .arr h c =>
    (if Varies c then vsz h.maxSize else 0) +
    if h.varCount then vsz h.maxSize
    else bitmapBytes (h.count * BitsOf c) +
      h.count * (if c.isBit then 0 else if Varies c then vsz h.maxSize else Least c)
def LeastAll (w : Nat) : List (Fld × Dti) → Nat
  | [] => 0
  | (_, t) :: r => (if t.isBit then 0 else if Varies t then w else Least t) + LeastAll w r
def BitsAll : List (Fld × Dti) → Nat
  | [] => 0
  | (_, t) :: r => BitsOf t + BitsAll r
end

mutual
/-- The types that can be used: primitive types have one of the sizes there are, fixed element
counts are not 0, there is at least one field, and where the size varies the smallest datum is not
larger than the largest one allowed. -/
def Sound : Dti → Prop
  | .prim k h =>
    match k with
    | .bitField => 1 ≤ h.size ∧ h.size ≤ 64
    | .uint | .int => 1 ≤ h.size ∧ h.size ≤ 8
    | .float => h.size = 4 ∨ h.size = 8
    | .largeUint | .largeInt => 1 ≤ h.size ∧ h.size ≤ 32
  | .str b h => (h.varCount = false → h.count ≠ 0) ∧ (h.varCount = true → Least (.str b h) ≤ h.maxSize)
  | .tup h fs => h.count ≠ 0 ∧ SoundAll fs ∧ (VariesAny fs = true → Least (.tup h fs) ≤ h.maxSize)
  | .arr h c => Sound c ∧ (h.varCount = false → h.count ≠ 0) ∧
      (Varies (.arr h c) = true → Least (.arr h c) ≤ h.maxSize)
def SoundAll : List (Fld × Dti) → Prop
  | [] => True
  | (_, t) :: r => Sound t ∧ SoundAll r
end

mutual
/-- The size of the smallest datum of the type and of everything it contains fits 32 bits. -/
def Fits32 : Dti → Prop
  | .prim .. => True
  | .str b h => Least (.str b h) < 4294967296
  | .tup h fs => Least (.tup h fs) < 4294967296 ∧ Fits32All fs
  | .arr h c => Least (.arr h c) < 4294967296 ∧ Fits32 c
def Fits32All : List (Fld × Dti) → Prop
  | [] => True
  | (_, t) :: r => Fits32 t ∧ Fits32All r
end

/-- A type as a user builds it: nothing in it is finalised, except for types that were finalised by
`finalize_type_info` before; tuples have as many fields as they say. -/
inductive Built : Dti → Prop
  | prim (k) (h : Hdr) : h.isFinal = false → Built (.prim k h)
  | str (b) (h : Hdr) : h.isFinal = false → Built (.str b h)
  | tup (h : Hdr) (fs : List (Fld × Dti)) : h.isFinal = false → fs.length = h.count →
      (∀ f t, (f, t) ∈ fs → Built t) → Built (.tup h fs)
  | arr (h : Hdr) (c) : h.isFinal = false → Built c → Built (.arr h c)
  | again {d d'} : Built d → finalize d = some d' → Built d'

/-! ### The specification does not look at what finalisation writes -/

/-- Two types that the specification does not tell apart. -/
structure SameSpec (a b : Dti) : Prop where
  varies : Varies a = Varies b
  bits : BitsOf a = BitsOf b
  least : Least a = Least b
  sound : Sound a ↔ Sound b
  fits : Fits32 a ↔ Fits32 b
  bit : a.isBit = b.isBit

theorem SameSpec.refl (a : Dti) : SameSpec a a := ⟨rfl, rfl, rfl, Iff.rfl, Iff.rfl, rfl⟩

/-- The same for the fields of two tuples. -/
structure SameAll (a b : List (Fld × Dti)) : Prop where
  varies : VariesAny a = VariesAny b
  bits : BitsAll a = BitsAll b
  least : ∀ w, LeastAll w a = LeastAll w b
  sound : SoundAll a ↔ SoundAll b
  fits : Fits32All a ↔ Fits32All b

theorem SameAll.nil : SameAll [] [] := ⟨rfl, rfl, fun _ => rfl, Iff.rfl, Iff.rfl⟩

theorem SameAll.cons {a b : List (Fld × Dti)} {f g : Fld} {s t : Dti} (h : SameSpec s t) (hr : SameAll a b) :
    SameAll ((f, s) :: a) ((g, t) :: b) where
  varies := by simp only [VariesAny, h.varies, hr.varies]
  bits := by simp only [BitsAll, h.bits, hr.bits]
  least w := by simp only [LeastAll, h.bit, h.varies, h.least, hr.least]
  sound := by simp only [SoundAll, h.sound, hr.sound]
  fits := by simp only [Fits32All, h.fits, hr.fits]

theorem SameAll.trans {a b c : List (Fld × Dti)} (h : SameAll a b) (g : SameAll b c) : SameAll a c :=
  ⟨h.varies.trans g.varies, h.bits.trans g.bits, fun w => (h.least w).trans (g.least w), h.sound.trans g.sound,
    h.fits.trans g.fits⟩

theorem same_assignBits (fs : List (Fld × Dti)) (b : Nat) : SameAll (assignBits b fs).1 fs := by
  induction fs generalizing b with
  | nil => exact .nil
  | cons p r ih =>
    obtain ⟨f, t⟩ := p
    simp only [assignBits]
    exact .cons (.refl t) (ih _)

theorem same_assignOffs (w : Nat) (fs : List (Fld × Dti)) (s : Nat) : SameAll (assignOffs w s fs).1 fs := by
  induction fs generalizing s with
  | nil => exact .nil
  | cons p r ih =>
    obtain ⟨f, t⟩ := p
    simp only [assignOffs]
    split
    · exact .cons (.refl t) (ih _)
    · exact .cons (.refl t) (ih _)

theorem same_tup {h h' : Hdr} {fs gs : List (Fld × Dti)} (hs : SameAll fs gs) (hm : h.maxSize = h'.maxSize)
    (hc : h.count = h'.count) (hn : h.nullable = h'.nullable) : SameSpec (.tup h fs) (.tup h' gs) where
  varies := by simp only [Varies, hs.varies]
  bits := by simp [BitsOf, Varies, hs.varies, hdr, hn, isBit]
  least := by simp only [Least, hs.varies, hs.bits, hs.least, hm]
  sound := by simp only [Sound, Least, hs.varies, hs.bits, hs.least, hm, hc, hs.sound]
  fits := by simp only [Fits32, Least, hs.varies, hs.bits, hs.least, hm, hs.fits]
  bit := rfl

theorem same_arr {h h' : Hdr} {c c' : Dti} (hs : SameSpec c c') (hm : h.maxSize = h'.maxSize)
    (hc : h.count = h'.count) (hn : h.nullable = h'.nullable) (hv : h.varCount = h'.varCount) :
    SameSpec (.arr h c) (.arr h' c') where
  varies := by simp only [Varies, hs.varies, hv]
  bits := by simp [BitsOf, Varies, hs.varies, hdr, hn, isBit, hv]
  least := by simp only [Least, hs.varies, hs.bits, hs.least, hm, hc, hv, hs.bit]
  sound := by simp only [Sound, Least, Varies, hs.varies, hs.bits, hs.least, hm, hc, hv, hs.bit, hs.sound]
  fits := by simp only [Fits32, Least, hs.varies, hs.bits, hs.least, hm, hc, hv, hs.bit, hs.fits]
  bit := rfl

theorem same_finalizeAll {fs gs : List (Fld × Dti)} (ih : ∀ f t, (f, t) ∈ fs → ∀ t', finalize t = some t' → SameSpec t' t)
    (h : finalizeAll fs = some gs) : SameAll gs fs := by
  induction fs generalizing gs with
  | nil => simp [finalizeAll] at h; subst h; exact .nil
  | cons x fs ihf =>
    obtain ⟨f, t⟩ := x
    simp only [finalizeAll, Option.bind_eq_bind, Option.bind_eq_some_iff, Option.pure_def, Option.some.injEq] at h
    obtain ⟨t', h1, r, h2, rfl⟩ := h
    exact .cons (ih f t (by simp) t' h1) (ihf (fun f t hm => ih f t (List.mem_cons_of_mem _ hm)) h2)

theorem same_finTup {h : Hdr} {fs : List (Fld × Dti)} {d' : Dti} (hf : finTup h fs = some d') : SameSpec d' (.tup h fs) := by
  unfold finTup at hf
  simp only [Option.ite_none_left_eq_some, Option.some.injEq] at hf
  obtain ⟨_, rfl⟩ := hf
  exact same_tup ((same_assignOffs _ _ _).trans (same_assignBits _ _)) rfl rfl rfl

theorem same_finArr {h : Hdr} {c d' : Dti} (hf : finArr h c = some d') : SameSpec d' (.arr h c) := by
  unfold finArr finArrSize at hf
  split at hf
  · cases hf
  · split at hf
    · cases hf; exact same_arr (.refl c) rfl rfl rfl rfl
    · split at hf
      · cases hf
      · cases hf; exact same_arr (.refl c) rfl rfl rfl rfl

theorem same_finalize : ∀ d d', finalize d = some d' → SameSpec d' d := by
  intro d
  induction d using Dti.ind with
  | hp k h =>
    intro d' hf
    simp only [finalize] at hf
    split at hf
    · cases hf; exact .refl _
    · simp only [finPrim, Option.ite_none_right_eq_some, Option.some.injEq] at hf
      obtain ⟨_, rfl⟩ := hf
      cases k <;> exact ⟨rfl, rfl, rfl, Iff.rfl, Iff.rfl, rfl⟩
  | hs b h =>
    intro d' hf
    simp only [finalize] at hf
    split at hf
    · cases hf; exact .refl _
    · unfold finStr at hf
      split at hf
      · cases hf
      · split at hf
        · split at hf
          · cases hf
          · cases hf; exact ⟨rfl, rfl, rfl, Iff.rfl, Iff.rfl, rfl⟩
        · cases hf; exact ⟨rfl, rfl, rfl, Iff.rfl, Iff.rfl, rfl⟩
  | ht h fs ih =>
    intro d' hf
    simp only [finalize] at hf
    split at hf
    · cases hf; exact .refl _
    · split at hf
      · cases hf
      · simp only [Option.bind_eq_bind, Option.bind_eq_some_iff] at hf
        obtain ⟨gs, h1, h2⟩ := hf
        have a := same_finTup h2
        have b := same_tup (h := h) (h' := h) (same_finalizeAll ih h1) rfl rfl rfl
        exact ⟨a.varies.trans b.varies, a.bits.trans b.bits, a.least.trans b.least, a.sound.trans b.sound,
          a.fits.trans b.fits, a.bit.trans b.bit⟩
  | ha h c ih =>
    intro d' hf
    simp only [finalize] at hf
    split at hf
    · cases hf; exact .refl _
    · simp only [Option.bind_eq_bind, Option.bind_eq_some_iff] at hf
      obtain ⟨c', h1, h2⟩ := hf
      have a := same_finArr h2
      have b := same_arr (h := h) (h' := h) (ih c' h1) rfl rfl rfl rfl
      exact ⟨a.varies.trans b.varies, a.bits.trans b.bits, a.least.trans b.least, a.sound.trans b.sound,
        a.fits.trans b.fits, a.bit.trans b.bit⟩

/-! ### The code agrees -/

/-- What the header of a finalised type says agrees with the specification. -/
structure Agrees (d' d : Dti) : Prop where
  same : SameSpec d' d
  varies : d'.isVar = Varies d
  size : d'.hdr.size = Least d
  bits : BitsOf d = (if d'.needsValid then 1 else 0) + (if d'.isBit then d'.hdr.size else 0)

theorem bits_header {d : Dti} (hv : d.isVar = Varies d) :
    BitsOf d = (if d.needsValid then 1 else 0) + (if d.isBit then d.hdr.size else 0) := by
  simp only [BitsOf, needsValid, hv]

theorem Agrees.of {d' d : Dti} (h : SameSpec d' d) (hv : d'.isVar = Varies d) (hs : d'.hdr.size = Least d) : Agrees d' d :=
  ⟨h, hv, hs, by rw [← h.bits]; exact bits_header (hv.trans h.varies.symm)⟩

/-- The fields of a tuple after finalisation, against those before. -/
structure AgreesAll (gs fs : List (Fld × Dti)) : Prop where
  same : SameAll gs fs
  elt : ∀ f t, (f, t) ∈ gs → t.isVar = Varies t ∧ t.hdr.size = Least t

theorem variesAny_eq {gs : List (Fld × Dti)} (h : ∀ f t, (f, t) ∈ gs → t.isVar = Varies t ∧ t.hdr.size = Least t) :
    VariesAny gs = gs.any (fun p => p.2.isVar) := by
  induction gs with
  | nil => rfl
  | cons p r ih =>
    obtain ⟨f, t⟩ := p
    simp only [VariesAny, List.any_cons, ih (fun f t hm => h f t (List.mem_cons_of_mem _ hm)),
      (h f t (by simp)).1]

theorem assignBits_end (gs : List (Fld × Dti)) (b : Nat)
    (h : ∀ f t, (f, t) ∈ gs → t.isVar = Varies t ∧ t.hdr.size = Least t) : (assignBits b gs).2 = b + BitsAll gs := by
  induction gs generalizing b with
  | nil => rfl
  | cons p r ih =>
    obtain ⟨f, t⟩ := p
    have hb := bits_header (h f t (by simp)).1
    simp only [assignBits, BitsAll, ih _ (fun f t hm => h f t (List.mem_cons_of_mem _ hm)), hb]
    cases t.needsValid <;> cases t.isBit <;> simp <;> omega

theorem assignBits_types (gs : List (Fld × Dti)) (b : Nat) (P : Dti → Prop) (h : ∀ f t, (f, t) ∈ gs → P t) :
    ∀ f t, (f, t) ∈ (assignBits b gs).1 → P t := by
  induction gs generalizing b with
  | nil => intro f t hm; cases hm
  | cons p r ih =>
    obtain ⟨f, t⟩ := p
    intro f' t' hm
    simp only [assignBits, List.mem_cons, Prod.mk.injEq] at hm
    rcases hm with ⟨_, rfl⟩ | hm
    · exact h f t' (by simp)
    · exact ih _ (fun f t hm => h f t (List.mem_cons_of_mem _ hm)) _ _ hm

theorem assignOffs_end (w : Nat) (gs : List (Fld × Dti)) (s : Nat)
    (h : ∀ f t, (f, t) ∈ gs → t.isVar = Varies t ∧ t.hdr.size = Least t) (hs : s + LeastAll w gs < 4294967296) :
    (assignOffs w s gs).2 = s + LeastAll w gs := by
  induction gs generalizing s with
  | nil => rfl
  | cons p r ih =>
    obtain ⟨f, t⟩ := p
    have h0 := h f t (by simp)
    have hr := fun f t hm => h f t (List.mem_cons_of_mem _ hm)
    simp only [LeastAll] at hs ⊢
    simp only [assignOffs]
    cases hb : t.isBit with
    | true =>
      simp only [hb, if_true] at hs ⊢
      rw [ih s hr (by omega)]; omega
    | false =>
      simp only [hb, Bool.false_eq_true, if_false, h0.1, h0.2] at hs ⊢
      rw [w32_eq (by omega), ih _ hr (by omega)]; omega

theorem finTup_spec {h : Hdr} {gs : List (Fld × Dti)}
    (hg : ∀ f t, (f, t) ∈ gs → t.isVar = Varies t ∧ t.hdr.size = Least t) (hl : Least (.tup h gs) < 4294967296) :
    ((VariesAny gs = true ∧ h.maxSize < Least (.tup h gs)) ∧ finTup h gs = none) ∨
    (¬ (VariesAny gs = true ∧ h.maxSize < Least (.tup h gs)) ∧
      ∃ d', finTup h gs = some d' ∧ d'.isVar = VariesAny gs ∧ d'.hdr.size = Least (.tup h gs)) := by
  have hb := assignBits_end gs 0 hg
  have hty := assignBits_types gs 0 (fun t => t.isVar = Varies t ∧ t.hdr.size = Least t) hg
  have hsb := same_assignBits gs 0
  have hv := variesAny_eq hg
  have he := assignOffs_end (vsz h.maxSize) (assignBits 0 gs).1
    ((if VariesAny gs then vsz h.maxSize else 0) + bitmapBytes (BitsAll gs)) hty (by
      rw [hsb.least]; simp only [Least] at hl; omega)
  have hw : w32 ((if VariesAny gs then vsz h.maxSize else 0) + bitmapBytes (BitsAll gs)) =
      (if VariesAny gs then vsz h.maxSize else 0) + bitmapBytes (BitsAll gs) := by
    apply w32_eq; simp only [Least] at hl; omega
  rw [hsb.least] at he
  have hle : (if VariesAny gs then vsz h.maxSize else 0) + bitmapBytes (BitsAll gs) + LeastAll (vsz h.maxSize) gs =
      Least (.tup h gs) := by simp only [Least]
  rw [hle] at he
  unfold finTup
  simp only [← hv, hb, Nat.zero_add, hw, he]
  by_cases hc : VariesAny gs = true ∧ h.maxSize < Least (.tup h gs)
  · exact Or.inl ⟨hc, by rw [if_pos (by simp [hc.1, hc.2])]⟩
  · rw [if_neg (by simpa using hc)]
    exact Or.inr ⟨hc, _, rfl, rfl, rfl⟩

theorem finArr_spec {h : Hdr} {c : Dti} (hc1 : c.isVar = Varies c) (hc2 : c.hdr.size = Least c)
    (hl : Least (.arr h c) < 4294967296) :
    (((h.varCount = false ∧ h.count = 0) ∨ (Varies (.arr h c) = true ∧ h.maxSize < Least (.arr h c))) ∧ finArr h c = none) ∨
    (¬ ((h.varCount = false ∧ h.count = 0) ∨ (Varies (.arr h c) = true ∧ h.maxSize < Least (.arr h c))) ∧
      ∃ d', finArr h c = some d' ∧ d'.isVar = Varies (.arr h c) ∧ d'.hdr.size = Least (.arr h c)) := by
  have hb := bits_header hc1
  unfold finArr
  by_cases h0 : h.varCount = false ∧ h.count = 0
  · exact Or.inl ⟨Or.inl h0, by rw [if_pos (by simp [h0])]⟩
  · have h0' : ¬ (!h.varCount && decide (h.count = 0)) = true := by simpa using h0
    rw [if_neg h0']
    have hvar : (h.varCount || c.isVar) = Varies (.arr h c) := by simp only [Varies, hc1]
    -- the size
    have hsz : ∀ h' : Hdr, h' = { h with isVar := h.varCount || c.isVar, bits := arrBits h c } →
        (Varies (.arr h c) = false → arrSize h' c = Least (.arr h c)) ∧
        (Varies (.arr h c) = true → arrMin h' c = Least (.arr h c)) := by
      rintro h' rfl
      constructor
      · intro hv
        simp only [Varies, Bool.or_eq_false_iff] at hv
        simp only [Least, hv.1, hv.2, Bool.false_eq_true, if_false, Nat.zero_add] at hl ⊢
        simp only [arrSize, arrBits, hv.1, hc1, hv.2, Bool.false_eq_true, if_false, Bool.not_false, if_true, hc2]
        cases hbit : c.isBit with
        | true =>
          simp only [hbit, if_true] at hb hl ⊢
          have : c.needsValid.toNat + Least c = BitsOf c := by
            rw [hb, hc2]; cases c.needsValid <;> simp
          rw [this, w32_eq (by omega)]; omega
        | false =>
          simp only [hbit, Bool.false_eq_true, if_false] at hb hl ⊢
          have : c.needsValid.toNat = BitsOf c := by
            rw [hb]; cases c.needsValid <;> simp
          rw [this, w32_eq (x := h.count * Least c) (by omega), w32_eq (by omega)]
      · intro hv
        simp only [arrMin, offBitmap, offCountP, hasSizeP, hasCountP, isVarCount, w, hdr, hc1]
        simp only [Varies] at hv
        simp only [Least] at hl ⊢
        cases hvc : h.varCount with
        | true =>
          simp only [hvc, Bool.true_or, Bool.true_and, if_true] at hl ⊢
          cases Varies c <;> simp
        | false =>
          rw [hvc, Bool.false_or] at hv
          have hnb : c.isBit = false := by
            cases c with
            | prim k hh => simp [Varies] at hv
            | _ => rfl
          have hbz : BitsOf c = 0 := by simp [BitsOf, hv, hnb]
          simp only [hvc, hv, hnb, hbz, Bool.false_or, Bool.false_eq_true, if_false, if_true, Bool.not_true,
            Bool.and_self, Bool.and_false, Bool.toNat_true, Bool.toNat_false, Nat.mul_one, Nat.mul_zero, Nat.add_zero] at hl ⊢
          have hz : bitmapBytes 0 = 0 := rfl
          rw [hz, Nat.zero_add] at hl ⊢
          rw [Nat.mul_comm (vsz h.maxSize) h.count, w32_eq (x := h.count * _) (by omega), w32_eq (by omega)]
    obtain ⟨s1, s2⟩ := hsz _ rfl
    unfold finArrSize
    cases hv : Varies (.arr h c) with
    | false =>
      simp only [hvar, hv, Bool.not_false, if_true] at s1 ⊢
      exact Or.inr ⟨by simp [h0], _, rfl, rfl, s1 trivial⟩
    | true =>
      simp only [hvar, hv, Bool.not_true, Bool.false_eq_true, if_false, gt_iff_lt] at s2 ⊢
      have s2 := s2 trivial
      rw [s2]
      by_cases hx : h.maxSize < Least (.arr h c)
      · exact Or.inl ⟨Or.inr ⟨trivial, hx⟩, by rw [if_pos hx]⟩
      · rw [if_neg hx]
        refine Or.inr ⟨?_, _, rfl, rfl, rfl⟩
        rintro (hh | hh)
        · exact h0 hh
        · exact hx hh.2

theorem finalizeAll_spec {fs : List (Fld × Dti)}
    (ih : ∀ f t, (f, t) ∈ fs → (Sound t → ∃ t', finalize t = some t') ∧
      ∀ t', finalize t = some t' → Sound t ∧ t'.isVar = Varies t ∧ t'.hdr.size = Least t) :
    (SoundAll fs → ∃ gs, finalizeAll fs = some gs) ∧
    ∀ gs, finalizeAll fs = some gs → SoundAll fs ∧ SameAll gs fs ∧
      ∀ f t, (f, t) ∈ gs → t.isVar = Varies t ∧ t.hdr.size = Least t := by
  induction fs with
  | nil =>
    refine ⟨fun _ => ⟨_, rfl⟩, fun gs h => ?_⟩
    simp [finalizeAll] at h; subst h
    exact ⟨trivial, .nil, by simp⟩
  | cons x fs ihf =>
    obtain ⟨f, t⟩ := x
    obtain ⟨a1, a2⟩ := ih f t (by simp)
    obtain ⟨b1, b2⟩ := ihf (fun f t hm => ih f t (List.mem_cons_of_mem _ hm))
    constructor
    · intro ⟨h1, h2⟩
      obtain ⟨t', h1⟩ := a1 h1
      obtain ⟨r, h2⟩ := b1 h2
      exact ⟨(f, t') :: r, by simp [finalizeAll, h1, h2]⟩
    · intro gs h
      simp only [finalizeAll, Option.bind_eq_bind, Option.bind_eq_some_iff, Option.pure_def, Option.some.injEq] at h
      obtain ⟨t', h1, r, h2, rfl⟩ := h
      obtain ⟨c1, c2, c3⟩ := a2 t' h1
      obtain ⟨e1, e2, e3⟩ := b2 r h2
      have hs := same_finalize t t' h1
      refine ⟨⟨c1, e1⟩, .cons hs e2, ?_⟩
      intro f' t0 hm
      rcases List.mem_cons.mp hm with hm | hm
      · cases hm
        exact ⟨c2.trans hs.varies.symm, c3.trans hs.least.symm⟩
      · exact e3 f' t0 hm

theorem fits_all {fs : List (Fld × Dti)} (h : Fits32All fs) : ∀ f t, (f, t) ∈ fs → Fits32 t := by
  induction fs with
  | nil => intro f t hm; cases hm
  | cons x fs ih =>
    obtain ⟨g, s⟩ := x
    intro f t hm
    rcases List.mem_cons.mp hm with hm | hm
    · cases hm; exact h.1
    · exact ih h.2 f t hm

theorem finPrim_spec (k : PKind) (h : Hdr) :
    (¬ Sound (.prim k h) ∧ finPrim k h = none) ∨
    (Sound (.prim k h) ∧ ∃ d', finPrim k h = some d' ∧ d'.isVar = false ∧ d'.hdr.size = h.size) := by
  have key : ∀ {P : Prop} [Decidable P] {x : Option Dti}, (Sound (.prim k h) ↔ P) →
      (finPrim k h = if decide P = true then some (.prim k { h with isVar := false, isFinal := true }) else none) →
      (¬ Sound (.prim k h) ∧ finPrim k h = none) ∨
      (Sound (.prim k h) ∧ ∃ d', finPrim k h = some d' ∧ d'.isVar = false ∧ d'.hdr.size = h.size) := by
    intro P _ _ h1 h2
    rw [h1, h2]
    by_cases hP : P
    · exact Or.inr ⟨hP, _, by rw [if_pos (by simpa using hP)], rfl, rfl⟩
    · exact Or.inl ⟨hP, by simp [hP]⟩
  cases k
  · exact key (x := none) (P := 1 ≤ h.size ∧ h.size ≤ 64) Iff.rfl rfl
  · exact key (x := none) (P := 1 ≤ h.size ∧ h.size ≤ 8) Iff.rfl rfl
  · exact key (x := none) (P := 1 ≤ h.size ∧ h.size ≤ 8) Iff.rfl rfl
  · exact key (x := none) (P := h.size = 4 ∨ h.size = 8) Iff.rfl rfl
  · exact key (x := none) (P := 1 ≤ h.size ∧ h.size ≤ 32) Iff.rfl rfl
  · exact key (x := none) (P := 1 ≤ h.size ∧ h.size ≤ 32) Iff.rfl rfl

/-- `finalize_type_info` accepts exactly the sound types and computes what the specification says. -/
theorem finalize_spec {d : Dti} (hb : Built d) : Fits32 d →
    (Sound d → ∃ d', finalize d = some d') ∧
    ∀ d', finalize d = some d' → Sound d ∧ d'.isVar = Varies d ∧ d'.hdr.size = Least d := by
  induction hb with
  | prim k h hf =>
    intro _
    simp only [finalize, hf, Bool.false_eq_true, if_false]
    rcases finPrim_spec k h with ⟨h1, h2⟩ | ⟨h1, d', h2, h3, h4⟩
    · rw [h2]; exact ⟨fun h => absurd h h1, fun _ h => by cases h⟩
    · rw [h2]
      refine ⟨fun _ => ⟨d', rfl⟩, fun d2 h => ?_⟩
      cases h
      exact ⟨h1, h3, h4⟩
  | str b h hf =>
    intro _
    simp only [finalize, hf, Bool.false_eq_true, if_false, finStr, Sound, Least, Varies]
    cases hv : h.varCount with
    | true =>
      simp only [Bool.not_true, Bool.false_and, Bool.false_eq_true, if_false, if_true, gt_iff_lt, false_implies, true_and,
        true_implies, reduceCtorEq]
      by_cases hx : h.maxSize < vsz h.maxSize
      · rw [if_pos hx]
        exact ⟨fun h => by omega, fun _ h => by cases h⟩
      · rw [if_neg hx]
        refine ⟨fun _ => ⟨_, rfl⟩, fun d' hh => ?_⟩
        cases hh
        exact ⟨by omega, rfl, rfl⟩
    | false =>
      simp only [Bool.not_false, Bool.true_and, decide_eq_true_eq, Bool.false_eq_true, if_false, false_implies, and_true,
        true_implies]
      by_cases hx : h.count = 0
      · rw [if_pos hx]
        exact ⟨fun h => absurd hx h, fun _ h => by cases h⟩
      · rw [if_neg hx]
        refine ⟨fun _ => ⟨_, rfl⟩, fun d' hh => ?_⟩
        cases hh
        exact ⟨hx, rfl, rfl⟩
  | tup h fs hf hl hfs ih =>
    intro hfit
    simp only [Fits32] at hfit
    obtain ⟨i1, i2⟩ := finalizeAll_spec (fun f t hm => ih f t hm (fits_all hfit.2 f t hm))
    simp only [finalize, hf, Bool.false_eq_true, if_false, Sound, Varies]
    by_cases h0 : h.count = 0
    · rw [if_pos h0]
      exact ⟨fun hh => absurd h0 hh.1, fun _ hh => by cases hh⟩
    · rw [if_neg h0]
      constructor
      · intro ⟨_, g2, g3⟩
        obtain ⟨gs, hgs⟩ := i1 g2
        obtain ⟨e1, e2, e3⟩ := i2 gs hgs
        have hs := same_tup (h := h) (h' := h) e2 rfl rfl rfl
        rcases finTup_spec (h := h) e3 (by rw [hs.least]; exact hfit.1) with ⟨k1, k2⟩ | ⟨k1, d', k2, k3, k4⟩
        · rw [hs.least, e2.varies] at k1
          have := g3 k1.1
          omega
        · exact ⟨d', by rw [hgs]; exact k2⟩
      · intro d' hd'
        simp only [Option.bind_eq_bind, Option.bind_eq_some_iff] at hd'
        obtain ⟨gs, hgs, hd'⟩ := hd'
        obtain ⟨e1, e2, e3⟩ := i2 gs hgs
        have hs := same_tup (h := h) (h' := h) e2 rfl rfl rfl
        rcases finTup_spec (h := h) e3 (by rw [hs.least]; exact hfit.1) with ⟨k1, k2⟩ | ⟨k1, d2, k2, k3, k4⟩
        · rw [k2] at hd'; cases hd'
        · rw [k2] at hd'
          cases hd'
          rw [hs.least, e2.varies] at k1
          exact ⟨⟨h0, e1, fun hv => by
            by_cases hx : h.maxSize < Least (.tup h fs)
            · exact absurd ⟨hv, hx⟩ k1
            · omega⟩, k3.trans e2.varies, k4.trans hs.least⟩
  | arr h c hf hc ih =>
    intro hfit
    simp only [Fits32] at hfit
    obtain ⟨i1, i2⟩ := ih hfit.2
    simp only [finalize, hf, Bool.false_eq_true, if_false, Sound]
    constructor
    · intro ⟨g1, g2, g3⟩
      obtain ⟨c', hc'⟩ := i1 g1
      obtain ⟨e1, e2, e3⟩ := i2 c' hc'
      have hsc := same_finalize c c' hc'
      have hs := same_arr (h := h) (h' := h) hsc rfl rfl rfl rfl
      rcases finArr_spec (h := h) (e2.trans hsc.varies.symm) (e3.trans hsc.least.symm) (by rw [hs.least]; exact hfit.1) with
        ⟨k1, k2⟩ | ⟨k1, d', k2, k3, k4⟩
      · rw [hs.least, hs.varies] at k1
        rcases k1 with k1 | k1
        · exact absurd k1.2 (g2 k1.1)
        · have := g3 k1.1
          omega
      · exact ⟨d', by rw [hc']; exact k2⟩
    · intro d' hd'
      simp only [Option.bind_eq_bind, Option.bind_eq_some_iff] at hd'
      obtain ⟨c', hc', hd'⟩ := hd'
      obtain ⟨e1, e2, e3⟩ := i2 c' hc'
      have hsc := same_finalize c c' hc'
      have hs := same_arr (h := h) (h' := h) hsc rfl rfl rfl rfl
      rcases finArr_spec (h := h) (e2.trans hsc.varies.symm) (e3.trans hsc.least.symm) (by rw [hs.least]; exact hfit.1) with
        ⟨k1, k2⟩ | ⟨k1, d2, k2, k3, k4⟩
      · rw [k2] at hd'; cases hd'
      · rw [k2] at hd'
        cases hd'
        rw [hs.least, hs.varies] at k1
        refine ⟨⟨e1, fun hv h0 => k1 (Or.inl ⟨hv, h0⟩), fun hv => ?_⟩, k3.trans hs.varies, k4.trans hs.least⟩
        by_cases hx : h.maxSize < Least (.arr h c)
        · exact absurd (Or.inr ⟨hv, hx⟩) k1
        · omega
  | @again d d' hb hf ih =>
    intro hfit
    have hs := same_finalize d d' hf
    obtain ⟨i1, i2⟩ := ih (hs.fits.mp hfit)
    obtain ⟨e1, e2, e3⟩ := i2 d' hf
    have hid : finalize d' = some d' := Props.C30_idempotent hf
    rw [hid]
    refine ⟨fun _ => ⟨d', rfl⟩, fun d2 h => ?_⟩
    cases h
    exact ⟨hs.sound.mpr e1, e2.trans hs.varies.symm, e3.trans hs.least.symm⟩

end Dti
end TS
