import Verif.TypeSpec
/-
Properties C28-C30: type finalisation and size definitions.
-/
namespace TS
namespace Props
open Dti

/-- `Sub s d`: `s` is `d` or occurs (at any depth) inside of `d`. -/
inductive Sub : Dti → Dti → Prop
  | refl (d) : Sub d d
  | fld {s h fs f t} : (f, t) ∈ fs → Sub s t → Sub s (.tup h fs)
  | elt {s h c} : Sub s c → Sub s (.arr h c)

theorem Sub.ok {s d : Dti} (h : Sub s d) (hd : TyOk d) : TyOk s := by
  induction h with
  | refl => exact hd
  | fld hm _ ih => cases hd with | tup _ _ a1 a2 a3 => exact ih (a3 _ _ hm)
  | elt _ ih => cases hd with | arr _ _ a1 a2 => exact ih a2

/-- A nested type used as example: a variable sized tuple of a nullable bit field, a nullable
4 byte integer, a variable sized string and a variable sized array of nullable 2 byte integers. -/
def exType : Dti := .tup { count := 4, maxSize := 900 }
  [({}, .prim .bitField { nullable := true, size := 5 }),
   ({}, .prim .int { nullable := true, size := 4 }),
   ({}, .str false { varCount := true, maxSize := 200 }),
   ({}, .arr { varCount := true, maxSize := 300 } (.prim .uint { nullable := true, size := 2 }))]

/-- `exType` once finalised. -/
def exFinal : Dti := .tup { isFinal := true, isVar := true, count := 4, maxSize := 900, size := 11, bits := 7 }
  [({ off := 1, vbit := 0 }, .prim .bitField { isFinal := true, nullable := true, size := 5 }),
   ({ off := 3, vbit := 6 }, .prim .int { isFinal := true, nullable := true, size := 4 }),
   ({ off := 7 }, .str false { isFinal := true, isVar := true, varCount := true, maxSize := 200, size := 1 }),
   ({ off := 9 }, .arr { isFinal := true, isVar := true, varCount := true, maxSize := 300, size := 2 }
      (.prim .uint { isFinal := true, nullable := true, size := 2 }))]

theorem exType_fresh : Fresh exType := by
  refine .tup _ _ rfl rfl ?_
  intro f t h
  simp at h
  rcases h with ⟨_, rfl⟩ | ⟨_, rfl⟩ | ⟨_, rfl⟩ | ⟨_, rfl⟩
  · exact .prim _ _ rfl
  · exact .prim _ _ rfl
  · exact .str _ _ rfl
  · exact .arr _ _ rfl (.prim _ _ rfl)

theorem exType_finalize : finalize exType = some exFinal := rfl

theorem exFinal_small : Small exFinal := by
  refine .tup _ _ ?_ (by decide) (by decide) (by decide)
  intro f t h
  simp at h
  rcases h with ⟨_, rfl⟩ | ⟨_, rfl⟩ | ⟨_, rfl⟩ | ⟨_, rfl⟩
  · exact .prim _ _
  · exact .prim _ _
  · exact .str _ _ (by decide) (by decide)
  · exact .arr _ _ (.prim _ _) (by decide) (by decide)

/-- C28. The size the size definition computes is the size computed from the type, on every
memory, for every well formed finalised type; and a size definition exists for every type that
is not a bit field. -/
theorem C28_sizes_agree {d d' : Dti} (hf : Fresh d) (hfin : finalize d = some d') (hs : Small d')
    (d0 : SizeDef) :
    (d'.isBit = false → ∃ sd, sizeDefOf d0 d' = some sd ∧ ∀ m, tupleSize sd m = getSize d' m) ∧
    (d'.isBit = true → sizeDefOf d0 d' = none) := by
  have hok := finalize_ok d d' hf hfin hs
  have hsome := sizeDefOf_isSome d0 hok
  constructor
  · intro hb
    rw [hb] at hsome
    obtain ⟨sd, hsd⟩ := Option.isSome_iff_exists.mp hsome
    exact ⟨sd, hsd, fun m => getSize_sizeDef hsd m⟩
  · intro hb
    simp [sizeDefOf, hb]

example : ∃ sd, sizeDefOf ⟨false, 0, 0, false, false, false, false, 0⟩ exFinal = some sd ∧
    tupleSize sd [20, 0, 0] = some 20 := ⟨_, rfl, rfl⟩

/-- C29. Every container type occurring in a finalised type has, for every element count it can
have, a sound layout: is-valid bits and bit fields are pairwise disjoint ranges of the bitmap, the
bitmap starts after the size and the element count, fixed sized elements and offsets of variable
sized ones are pairwise disjoint byte ranges between the end of the bitmap and the end of the
fixed part; the fixed part is the minimum size, which is at most the maximum size. -/
theorem C29_layout {d d' s : Dti} (hf : Fresh d) (hfin : finalize d = some d') (hs : Small d')
    (hsub : Sub s d') (hc : s.isCont = true) :
    (∀ n, (s.isVarCount = false → n = s.hdr.count) →
      Lay s.w (bitsOf s n) (s.w * s.hasSizeP.toNat + s.w * s.isVarCount.toNat + bitmapBytes (bitsOf s n))
        (fixedEnd s n) n (posOf s n)) ∧
    fixedEnd s (if s.isVarCount then 0 else s.hdr.count) = s.hdr.size ∧
    (s.isVar = true → s.hdr.size ≤ s.hdr.maxSize) := by
  have hok := hsub.ok (finalize_ok d d' hf hfin hs)
  refine ⟨fun n hn => lay_of hok hc hn, ?_, fun hv => (hok.maxSize hv).1⟩
  cases hok with
  | prim => simp [isCont] at hc
  | str b h a1 a2 a3 a4 =>
    cases hv : h.isVar with
    | true =>
      have := (a4 hv).1
      simp [fixedEnd, isVarCount, hv, hdr, this, offBitmap, offCountP, hasSizeP, hasCountP, w]
    | false =>
      have := (a3 hv).1
      simp [fixedEnd, isVarCount, hv, hdr, this, offBitmap, offCountP, hasSizeP, hasCountP, w]
  | tup => rfl
  | arr h c a1 a2 a3 a4 a5 a6 a7 a8 =>
    cases hv : h.varCount with
    | true => simp [isVarCount, a3, hv, hdr, a5 hv]
    | false => simp [isVarCount, a3, hv, hdr, (a4 hv).2.2]

example : Fresh exType ∧ finalize exType = some exFinal ∧ Small exFinal ∧ Sub exFinal exFinal ∧
    exFinal.isCont = true := ⟨exType_fresh, rfl, exFinal_small, .refl _, rfl⟩

/-- The limit on sizes in C29 is needed: without it `finalize_type_info` accepts an array type
whose size wraps around to 0 although its elements take 4GB. -/
theorem C29_needs_limit : ∃ d d', Fresh d ∧ finalize d = some d' ∧ d'.isVar = false ∧
    d'.hdr.size = 0 ∧ fixedEnd d' d'.hdr.count = 4294967296 := by
  refine ⟨.arr { count := 2147483648 } (.prim .uint { size := 2 }), _, .arr _ _ rfl (.prim _ _ rfl),
    rfl, rfl, rfl, rfl⟩

/-- C30. Finalising what `finalize_type_info` returned succeeds and changes nothing. -/
theorem C30_idempotent {d d' : Dti} (h : finalize d = some d') : finalize d' = some d' := by
  have hfinal : d'.hdr.isFinal = true := by
    cases d with
    | prim k hh =>
      simp only [finalize] at h
      split at h
      · cases h; assumption
      · unfold finPrim at h
        simp only at h
        cases k <;> simp only at h <;> split at h <;> first | (cases h; done) | (cases h; rfl)
    | str b hh =>
      simp only [finalize] at h
      split at h
      · cases h; assumption
      · unfold finStr at h
        split at h
        · cases h
        · split at h
          · split at h
            · cases h
            · cases h; rfl
          · cases h; rfl
    | tup hh fs =>
      simp only [finalize] at h
      split at h
      · cases h; assumption
      · split at h
        · cases h
        · simp only [Option.bind_eq_bind, Option.bind_eq_some_iff] at h
          obtain ⟨gs, _, h⟩ := h
          unfold finTup at h
          simp only at h
          generalize w32 _ = s at h
          split at h
          · cases h
          · injection h with h; rw [← h]; rfl
    | arr hh c =>
      simp only [finalize] at h
      split at h
      · cases h; assumption
      · simp only [Option.bind_eq_bind, Option.bind_eq_some_iff] at h
        obtain ⟨gs, _, h⟩ := h
        unfold finArr finArrSize at h
        split at h
        · cases h
        · split at h
          · injection h with h; rw [← h]; rfl
          · split at h
            · cases h
            · injection h with h; rw [← h]; rfl
  cases d' <;> simp only [hdr] at hfinal <;> simp [finalize, hfinal]

example : finalize exFinal = some exFinal := C30_idempotent exType_finalize

end Props
end TS
