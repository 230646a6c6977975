import Verif.FinSpec
/-
The documented limits on sizes over the members that a user sets, and the proof that they are enough
for everything that is proved about finalised types.
-/
namespace TS
namespace Dti

mutual
/-- The limits of /repo/README.md:14-23 on a type as a user builds it: maximum sizes, element counts
and the sizes of the smallest data are below 2GB. -/
def Limits : Dti → Prop
  | .prim .. => True
  | .str _ h => (h.varCount = true → h.maxSize < lim) ∧ (h.varCount = false → h.count < lim)
  | .tup h fs => (VariesAny fs = true → h.maxSize < lim) ∧ h.count < lim ∧ Least (.tup h fs) + 4 < lim ∧ LimitsAll fs
  | .arr h c => (Varies (.arr h c) = true → h.maxSize < lim) ∧
      (h.varCount = false → h.count < lim ∧ Least (.arr h c) < lim) ∧ Limits c
def LimitsAll : List (Fld × Dti) → Prop
  | [] => True
  | (_, t) :: r => Limits t ∧ LimitsAll r
end

theorem limits_all {fs : List (Fld × Dti)} (h : LimitsAll fs) : ∀ f t, (f, t) ∈ fs → Limits t := by
  induction fs with
  | nil => intro f t hm; cases hm
  | cons x fs ih =>
    obtain ⟨g, s⟩ := x
    intro f t hm
    rcases List.mem_cons.mp hm with hm | hm
    · cases hm; exact h.1
    · exact ih h.2 f t hm

theorem limits_assignBits (fs : List (Fld × Dti)) (b : Nat) : LimitsAll (assignBits b fs).1 ↔ LimitsAll fs := by
  induction fs generalizing b with
  | nil => exact Iff.rfl
  | cons p r ih => obtain ⟨f, t⟩ := p; simp only [assignBits, LimitsAll, ih]

theorem limits_assignOffs (w : Nat) (fs : List (Fld × Dti)) (s : Nat) : LimitsAll (assignOffs w s fs).1 ↔ LimitsAll fs := by
  induction fs generalizing s with
  | nil => exact Iff.rfl
  | cons p r ih =>
    obtain ⟨f, t⟩ := p
    simp only [assignOffs]
    split <;> simp only [LimitsAll, ih]

theorem limits_finalizeAll {fs gs : List (Fld × Dti)}
    (ih : ∀ f t, (f, t) ∈ fs → ∀ t', finalize t = some t' → (Limits t' ↔ Limits t)) (h : finalizeAll fs = some gs) :
    LimitsAll gs ↔ LimitsAll fs := by
  induction fs generalizing gs with
  | nil => simp [finalizeAll] at h; subst h; exact Iff.rfl
  | cons x fs ihf =>
    obtain ⟨f, t⟩ := x
    simp only [finalizeAll, Option.bind_eq_bind, Option.bind_eq_some_iff, Option.pure_def, Option.some.injEq] at h
    obtain ⟨t', h1, r, h2, rfl⟩ := h
    simp only [LimitsAll, ih f t (by simp) t' h1, ihf (fun f t hm => ih f t (List.mem_cons_of_mem _ hm)) h2]

/-- The limits do not look at what finalisation writes. -/
theorem limits_finalize : ∀ d d', finalize d = some d' → (Limits d' ↔ Limits d) := by
  intro d
  induction d using Dti.ind with
  | hp k h =>
    intro d' hf
    simp only [finalize] at hf
    split at hf
    · cases hf; exact Iff.rfl
    · simp only [finPrim, Option.ite_none_right_eq_some, Option.some.injEq] at hf
      obtain ⟨_, rfl⟩ := hf
      exact Iff.rfl
  | hs b h =>
    intro d' hf
    simp only [finalize] at hf
    split at hf
    · cases hf; exact Iff.rfl
    · unfold finStr at hf
      split at hf
      · cases hf
      · split at hf
        · split at hf
          · cases hf
          · cases hf; exact Iff.rfl
        · cases hf; exact Iff.rfl
  | ht h fs ih =>
    intro d' hf
    have hs := same_finalize _ _ hf
    simp only [finalize] at hf
    split at hf
    · cases hf; exact Iff.rfl
    · split at hf
      · cases hf
      · simp only [Option.bind_eq_bind, Option.bind_eq_some_iff] at hf
        obtain ⟨gs, h1, h2⟩ := hf
        have hl := limits_finalizeAll ih h1
        unfold finTup at h2
        simp only [Option.ite_none_left_eq_some, Option.some.injEq] at h2
        obtain ⟨_, rfl⟩ := h2
        have hv := hs.varies
        simp only [Varies] at hv
        simp only [Limits, hs.least, hv, limits_assignOffs, limits_assignBits, hl]
  | ha h c ih =>
    intro d' hf
    have hs := same_finalize _ _ hf
    simp only [finalize] at hf
    split at hf
    · cases hf; exact Iff.rfl
    · simp only [Option.bind_eq_bind, Option.bind_eq_some_iff] at hf
      obtain ⟨c', h1, h2⟩ := hf
      unfold finArr finArrSize at h2
      split at h2
      · cases h2
      · split at h2
        · cases h2
          simp only [Limits, hs.least, hs.varies, ih c' h1]
        · split at h2
          · cases h2
          · cases h2
            simp only [Limits, hs.least, hs.varies, ih c' h1]

theorem fitsAll_of {fs : List (Fld × Dti)} (h : ∀ f t, (f, t) ∈ fs → Fits32 t) : Fits32All fs := by
  induction fs with
  | nil => trivial
  | cons x fs ih =>
    obtain ⟨g, s⟩ := x
    exact ⟨h g s (by simp), ih fun f t hm => h f t (List.mem_cons_of_mem _ hm)⟩

theorem limits_fits (d : Dti) : Limits d → Fits32 d := by
  have hlim : lim = 2147483648 := rfl
  induction d using Dti.ind with
  | hp k h => intro _; trivial
  | hs b h =>
    intro hl
    simp only [Limits] at hl
    simp only [Fits32, Least]
    have := vsz_le h.maxSize
    cases hv : h.varCount with
    | true => simp only [if_true]; omega
    | false => have := hl.2 hv; simp only [Bool.false_eq_true, if_false]; omega
  | ht h fs ih =>
    intro hl
    simp only [Limits] at hl
    exact ⟨by omega, fitsAll_of fun f t hm => ih f t hm (limits_all hl.2.2.2 f t hm)⟩
  | ha h c ih =>
    intro hl
    simp only [Limits] at hl
    refine ⟨?_, ih hl.2.2⟩
    cases hv : h.varCount with
    | true =>
      simp only [Least, hv, if_true]
      have := vsz_le h.maxSize
      split <;> omega
    | false => have := hl.2.1 hv; omega

theorem slots_least {w : Nat} {gs : List (Fld × Dti)} (h : ∀ f t, (f, t) ∈ gs → t.isVar = Varies t ∧ t.hdr.size = Least t) :
    (gs.map (fun p => if p.2.isBit then 0 else slot w p.2)).sum = LeastAll w gs := by
  induction gs with
  | nil => rfl
  | cons p r ih =>
    obtain ⟨f, t⟩ := p
    have h0 := h f t (by simp)
    simp only [List.map_cons, List.sum_cons, LeastAll]
    rw [ih fun f t hm => h f t (List.mem_cons_of_mem _ hm)]
    simp only [slot, h0.1, h0.2]

theorem assignOffs_types (w : Nat) (gs : List (Fld × Dti)) (s : Nat) (P : Dti → Prop) (h : ∀ f t, (f, t) ∈ gs → P t) :
    ∀ f t, (f, t) ∈ (assignOffs w s gs).1 → P t := by
  induction gs generalizing s with
  | nil => intro f t hm; cases hm
  | cons p r ih =>
    obtain ⟨f, t⟩ := p
    intro f' t' hm
    simp only [assignOffs] at hm
    have h0 := h f t (by simp)
    have hr := fun f t hm => h f t (List.mem_cons_of_mem _ hm)
    split at hm
    · rcases List.mem_cons.mp hm with hm | hm
      · cases hm; exact h0
      · exact ih _ hr _ _ hm
    · rcases List.mem_cons.mp hm with hm | hm
      · cases hm; exact h0
      · exact ih _ hr _ _ hm

theorem finalizeAll_types {fs gs : List (Fld × Dti)} {P : Dti → Prop}
    (ih : ∀ f t, (f, t) ∈ fs → ∀ t', finalize t = some t' → P t') (h : finalizeAll fs = some gs) :
    ∀ f t, (f, t) ∈ gs → P t := by
  induction fs generalizing gs with
  | nil => simp [finalizeAll] at h; subst h; intro f t hm; cases hm
  | cons x fs ihf =>
    obtain ⟨f, t⟩ := x
    simp only [finalizeAll, Option.bind_eq_bind, Option.bind_eq_some_iff, Option.pure_def, Option.some.injEq] at h
    obtain ⟨t', h1, r, h2, rfl⟩ := h
    intro f' t0 hm
    rcases List.mem_cons.mp hm with hm | hm
    · cases hm; exact ih f t (by simp) _ h1
    · exact ihf (fun f t hm => ih f t (List.mem_cons_of_mem _ hm)) h2 f' t0 hm

theorem fixedEnd_least {h : Hdr} {c : Dti} (hc1 : c.isVar = Varies c) (hc2 : c.hdr.size = Least c)
    (hv : h.isVar = Varies (.arr h c)) (hvc : h.varCount = false) : fixedEnd (.arr h c) h.count = Least (.arr h c) := by
  have hb := bits_header hc1
  simp only [Varies, hvc, Bool.false_or] at hv
  have hh : (Dti.arr h c).hdr = h := rfl
  simp only [fixedEnd, Least, hvc, Bool.false_eq_true, if_false, bitsOf, offBitmap, offCountP, hasSizeP, hasCountP, isVarCount, w,
    hh, hv, hc1, slot, hc2, Bool.and_self, Bool.and_false, Bool.toNat_false, Nat.mul_zero, Nat.add_zero]
  cases hbit : c.isBit with
  | true =>
    simp only [hbit, if_true] at hb ⊢
    have h1 : c.needsValid.toNat + Least c = BitsOf c := by rw [hb, hc2]; cases c.needsValid <;> simp
    have h2 : Varies c = false := by
      cases c with
      | prim => rfl
      | _ => simp [isBit] at hbit
    rw [h1, h2]; simp
  | false =>
    simp only [hbit, Bool.false_eq_true, if_false, Nat.add_zero] at hb ⊢
    have h1 : c.needsValid.toNat = BitsOf c := by rw [hb]; cases c.needsValid <;> simp
    rw [h1]
    cases Varies c <;> simp <;> omega

/-- The limits on what a user sets imply the limits that the other proofs ask for. -/
theorem limits_small {d : Dti} (hb : Built d) : Limits d →
    Fresh d ∧ ∀ d', finalize d = some d' → Small d' := by
  induction hb with
  | prim k h hf =>
    intro _
    refine ⟨.prim k h hf, fun d' h' => ?_⟩
    simp only [finalize, hf, Bool.false_eq_true, if_false, finPrim, Option.ite_none_right_eq_some, Option.some.injEq] at h'
    obtain ⟨_, rfl⟩ := h'
    exact .prim _ _
  | str b h hf =>
    intro hl
    simp only [Limits] at hl
    refine ⟨.str b h hf, fun d' h' => ?_⟩
    simp only [finalize, hf, Bool.false_eq_true, if_false] at h'
    unfold finStr at h'
    split at h'
    · cases h'
    · split at h'
      · rename_i hv
        split at h'
        · cases h'
        · cases h'
          exact .str _ _ (fun _ => hl.1 hv) (by simp)
      · rename_i hv
        cases h'
        exact .str _ _ (by simp) (fun _ => hl.2 (by simpa using hv))
  | tup h fs hf hlen hfs ih =>
    intro hl
    have hfit := limits_fits _ hl
    simp only [Limits] at hl
    have hall := limits_all hl.2.2.2
    refine ⟨.tup h fs hf hlen fun f t hm => (ih f t hm (hall f t hm)).1, fun d' h' => ?_⟩
    have hs := same_finalize _ _ h'
    have hv := ((finalize_spec (.tup h fs hf hlen hfs) hfit).2 d' h').2.1
    simp only [finalize, hf, Bool.false_eq_true, if_false] at h'
    split at h'
    · cases h'
    · simp only [Option.bind_eq_bind, Option.bind_eq_some_iff] at h'
      obtain ⟨gs, h1, h2⟩ := h'
      have e1 : ∀ f t, (f, t) ∈ gs → Small t ∧ t.isVar = Varies t ∧ t.hdr.size = Least t := by
        refine finalizeAll_types (fun f t hm t' ht' => ?_) h1
        have a := ih f t hm (hall f t hm)
        have b := (finalize_spec (hfs f t hm) (limits_fits _ (hall f t hm))).2 t' ht'
        have c := same_finalize t t' ht'
        exact ⟨a.2 t' ht', b.2.1.trans c.varies.symm, b.2.2.trans c.least.symm⟩
      have hbits := assignBits_end gs 0 fun f t hm => (e1 f t hm).2
      unfold finTup at h2
      simp only [Option.ite_none_left_eq_some, Option.some.injEq] at h2
      obtain ⟨_, rfl⟩ := h2
      have e2 := assignOffs_types (vsz h.maxSize) _
        (w32 ((if (gs.any fun p => p.2.isVar) = true then vsz h.maxSize else 0) + bitmapBytes (assignBits 0 gs).2)) _
        (assignBits_types gs 0 _ e1)
      refine .tup _ _ (fun f t hm => (e2 f t hm).1) (fun hh => hl.1 ?_) hl.2.1 ?_
      · rw [← show Varies (.tup h fs) = VariesAny fs by simp only [Varies], ← hv]; exact hh
      · have hle := hs.least
        have hsl := slots_least (w := vsz h.maxSize) fun f t hm => (e2 f t hm).2
        have hsb := ((same_assignOffs (vsz h.maxSize) (assignBits 0 gs).1
          (w32 ((if (gs.any fun p => p.2.isVar) = true then vsz h.maxSize else 0) + bitmapBytes (assignBits 0 gs).2))).trans
          (same_assignBits gs 0)).bits
        have hv4 := vsz_le h.maxSize
        have hl3 := hl.2.2.1
        simp only [Least] at hle hl3
        rw [hsb] at hle
        have hb2 : bitmapBytes (assignBits 0 gs).2 = bitmapBytes (BitsAll gs) := by rw [hbits, Nat.zero_add]
        have : lim = 2147483648 := rfl
        change vsz h.maxSize + bitmapBytes (assignBits 0 gs).2 + List.sum _ < lim
        rw [hsl]
        omega
  | arr h c hf hc ih =>
    intro hl
    have hfit := limits_fits _ hl
    have hb : Built (.arr h c) := .arr h c hf hc
    have hl0 := hl
    simp only [Limits] at hl
    obtain ⟨i1, i2⟩ := ih hl.2.2
    refine ⟨.arr h c hf i1, fun d' h' => ?_⟩
    have hs := same_finalize _ _ h'
    have hv := ((finalize_spec hb hfit).2 d' h').2.1
    simp only [finalize, hf, Bool.false_eq_true, if_false, Option.bind_eq_bind, Option.bind_eq_some_iff] at h'
    obtain ⟨c', h1, h2⟩ := h'
    have e := (finalize_spec hc (limits_fits _ hl.2.2)).2 c' h1
    have sc := same_finalize c c' h1
    have key : ∀ h' : Hdr, d' = .arr h' c' → h'.maxSize = h.maxSize → h'.count = h.count → h'.varCount = h.varCount →
        Small d' := by
      rintro h' rfl m1 m2 m3
      refine .arr _ _ (i2 c' h1) (fun hh => ?_) fun hh => ?_
      · rw [m1]; exact hl.1 (by rw [← hv]; exact hh)
      · have hq := hl.2.1 (m3 ▸ hh)
        refine ⟨m2 ▸ hq.1, ?_⟩
        rw [fixedEnd_least (h := h') (e.2.1.trans sc.varies.symm) (e.2.2.trans sc.least.symm) (hv.trans hs.varies.symm) hh, hs.least]
        exact hq.2
    unfold finArr finArrSize at h2
    split at h2
    · cases h2
    · split at h2
      · cases h2; exact key _ rfl rfl rfl rfl
      · split at h2
        · cases h2
        · cases h2; exact key _ rfl rfl rfl rfl
  | @again d d' hb hf ih =>
    intro hl
    obtain ⟨i1, i2⟩ := ih ((limits_finalize d d' hf).mp hl)
    refine ⟨.ok (finalize_ok d d' i1 hf (i2 d' hf)), fun d2 h2 => ?_⟩
    rw [Props.C30_idempotent hf] at h2
    cases h2
    exact i2 d' hf

end Dti
end TS
