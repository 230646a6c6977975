import Verif.TypeNorm
import Verif.Expand
/-
Two finalised types with the same normal form treat all data alike.
-/
namespace TS
namespace Dti

mutual
/-- A container of variable sized elements is variable sized. -/
def VarUp : Dti → Prop
  | .prim .. => True
  | .str .. => True
  | .tup h fs => VarUpAll h.isVar fs
  | .arr h c => (c.isVar = true → h.isVar = true) ∧ VarUp c
def VarUpAll (v : Bool) : List (Fld × Dti) → Prop
  | [] => True
  | (_, t) :: r => (t.isVar = true → v = true) ∧ VarUp t ∧ VarUpAll v r
end

theorem varUpAll_iff (v : Bool) (fs : List (Fld × Dti)) :
    VarUpAll v fs ↔ ∀ f t, (f, t) ∈ fs → (t.isVar = true → v = true) ∧ VarUp t := by
  induction fs with
  | nil => simp [VarUpAll]
  | cons p r ih =>
    obtain ⟨f, t⟩ := p
    simp only [VarUpAll, ih, List.mem_cons]
    constructor
    · intro h f' t' hm
      rcases hm with hm | hm
      · cases hm; exact ⟨h.1, h.2.1⟩
      · exact h.2.2 _ _ hm
    · intro h
      exact ⟨(h f t (.inl rfl)).1, (h f t (.inl rfl)).2, fun f' t' hm => h f' t' (.inr hm)⟩

theorem normAll_eq (kn : Bool) (fs : List (Fld × Dti)) :
    normAll kn fs = fs.map (fun p => (nFld kn p.2 p.1, norm kn p.2)) := by
  induction fs with
  | nil => rfl
  | cons p r ih => obtain ⟨f, t⟩ := p; simp [normAll, ih]

/-- Same normal form. -/
def SameTy (kn : Bool) (d e : Dti) : Prop := norm kn d = norm kn e

variable {kn : Bool} {d e : Dti}

namespace SameTy

theorem symm (h : SameTy kn d e) : SameTy kn e d := Eq.symm h
theorem isBit (h : SameTy kn d e) : d.isBit = e.isBit := by rw [← norm_isBit kn d, h, norm_isBit]
theorem isCont (h : SameTy kn d e) : d.isCont = e.isCont := by rw [← norm_isCont kn d, h, norm_isCont]
theorem isVar (h : SameTy kn d e) : d.isVar = e.isVar := by rw [← norm_isVar kn d, h, norm_isVar]
theorem size (h : SameTy kn d e) : d.hdr.size = e.hdr.size := by rw [← norm_size kn d, h, norm_size]
theorem needsValid (h : SameTy kn d e) : d.needsValid = e.needsValid := by
  rw [← norm_needsValid kn d, h, norm_needsValid]
theorem isNullable (h : SameTy kn d e) : d.isNullable = e.isNullable := by
  rw [← norm_isNullable kn d, h, norm_isNullable]
theorem hasSizeP (h : SameTy kn d e) : d.hasSizeP = e.hasSizeP := by rw [← norm_hasSizeP kn d, h, norm_hasSizeP]
theorem hasCountP (h : SameTy kn d e) : d.hasCountP = e.hasCountP := by rw [← norm_hasCountP kn d, h, norm_hasCountP]
theorem isVarCount (h : SameTy kn d e) : d.isVarCount = e.isVarCount := by
  rw [← norm_isVarCount kn d, h, norm_isVarCount]
theorem offCountP (h : SameTy kn d e) : d.offCountP = e.offCountP := by rw [← norm_offCountP kn d, h, norm_offCountP]
theorem offBitmap (h : SameTy kn d e) : d.offBitmap = e.offBitmap := by rw [← norm_offBitmap kn d, h, norm_offBitmap]
theorem kind (h : SameTy kn d e) : d.kind = e.kind := by rw [← norm_kind kn d, h, norm_kind]
theorem maxSize (h : SameTy kn d e) (hv : d.isVar = true) : d.hdr.maxSize = e.hdr.maxSize := by
  rw [← norm_maxSize kn d hv, h, norm_maxSize kn e (by rw [← h.isVar]; exact hv)]
theorem w (h : SameTy kn d e) (hv : d.isVar = true) : d.w = e.w := by
  unfold Dti.w; rw [h.maxSize hv]
theorem count (h : SameTy kn d e) (hc : d.isCont = true) (hv : d.isVarCount = false) : d.hdr.count = e.hdr.count := by
  have h2 := h.isVarCount
  rw [hv] at h2
  cases d with
  | prim => cases hc
  | str b g =>
    cases e with
    | str b2 g2 =>
      simp only [Dti.isVarCount] at hv h2
      have h := h
      simp only [SameTy, norm, hv, ← h2, Dti.str.injEq, Hdr.mk.injEq] at h
      simpa [hdr] using h.2.2.2.2.2.2.2.2.2.1
    | _ => simp [SameTy, norm] at h
  | tup g fs =>
    cases e with
    | tup g2 fs2 =>
      have h := h
      simp only [SameTy, norm, Dti.tup.injEq, Hdr.mk.injEq] at h
      simp only [hdr]; exact h.1.2.2.2.2.2.2.2.2.1
    | _ => simp [SameTy, norm] at h
  | arr g c =>
    cases e with
    | arr g2 c2 =>
      simp only [Dti.isVarCount] at hv h2
      have h := h
      simp only [SameTy, norm, Dti.arr.injEq, Hdr.mk.injEq, hv, ← h2] at h
      simpa [hdr] using h.1.2.2.2.2.2.2.2.2.1
    | _ => simp [SameTy, norm] at h

/-- The containee of an array, a string or a binary. -/
theorem cont (h : SameTy kn d e) : (d.cont = none ∧ e.cont = none) ∨
    ∃ c c', d.cont = some c ∧ e.cont = some c' ∧ SameTy kn c c' := by
  cases d with
  | prim => 
    cases e with
    | prim => exact .inl ⟨rfl, rfl⟩
    | _ => simp [SameTy, norm] at h
  | str b g =>
    cases e with
    | str b2 g2 => exact .inr ⟨_, _, rfl, rfl, rfl⟩
    | _ => simp [SameTy, norm] at h
  | tup g fs =>
    cases e with
    | tup => exact .inl ⟨rfl, rfl⟩
    | _ => simp [SameTy, norm] at h
  | arr g c =>
    cases e with
    | arr g2 c2 =>
      simp only [SameTy, norm, Dti.arr.injEq] at h
      exact .inr ⟨_, _, rfl, rfl, h.2⟩
    | _ => simp [SameTy, norm] at h

theorem eltBits (h : SameTy kn d e) : d.eltBits = e.eltBits := by
  unfold Dti.eltBits; rw [h.needsValid, h.size]

theorem getSize (h : SameTy kn d e) (m : Bytes) : d.getSize m = e.getSize m := by
  unfold Dti.getSize
  rw [h.isBit, h.isVar, h.hasSizeP, h.size, h.offCountP]
  cases hv : e.isVar with
  | false => rfl
  | true =>
    rw [h.maxSize (by rw [h.isVar, hv]), h.w (by rw [h.isVar, hv])]
    rcases h.cont with ⟨h1, h2⟩ | ⟨c, c', h1, h2, hc⟩
    · rw [h1, h2]
    · rw [h1, h2]
      simp only [Option.bind_eq_bind, Option.bind_some]
      rw [hc.isBit, hc.needsValid, hc.size]

theorem getCount (h : SameTy kn d e) (m : Bytes) : d.getCount m = e.getCount m := by
  unfold Dti.getCount
  rw [← h.isCont, ← h.isVarCount, ← h.offCountP]
  cases hc : d.isCont with
  | false => rfl
  | true =>
    cases hv : d.isVarCount with
    | false => simp [h.count hc hv]
    | true => rw [h.maxSize (isVarCount_isVar hv)]; rfl

theorem bitmapBits (h : SameTy kn d e) (m : Bytes) : d.bitmapBits m = e.bitmapBits m := by
  have hgc := h.getCount m
  cases d with
  | prim => 
    cases e with
    | prim => rfl
    | _ => simp [SameTy, norm] at h
  | str b g =>
    cases e with
    | str b2 g2 => rfl
    | _ => simp [SameTy, norm] at h
  | tup g fs =>
    cases e with
    | tup g2 fs2 =>
      simp only [SameTy, norm, Dti.tup.injEq, Hdr.mk.injEq] at h
      simp only [Dti.bitmapBits]; rw [h.1.2.2.2.2.2.2.2.2.2]
    | _ => simp [SameTy, norm] at h
  | arr g c =>
    cases e with
    | arr g2 c2 =>
      simp only [Dti.bitmapBits]
      rw [hgc]
      simp only [SameTy, norm, Dti.arr.injEq] at h
      have hc : SameTy kn c c2 := h.2
      rw [hc.isBit, hc.needsValid, hc.size]
    | _ => simp [SameTy, norm] at h

end SameTy

/-- Positions that read and write the same places. -/
structure PSame (kn : Bool) (p q : PosInfo) : Prop where
  off : p.off = q.off
  vbit : p.ty.needsValid = true → p.vbit = q.vbit
  ty : SameTy kn p.ty q.ty

theorem tyAt_same (h : SameTy kn d e) (i : Nat) : (d.tyAt i = none ∧ e.tyAt i = none) ∨
    ∃ t u, d.tyAt i = some t ∧ e.tyAt i = some u ∧ SameTy kn t u := by
  cases d with
  | prim => 
    cases e with
    | prim => exact .inl ⟨rfl, rfl⟩
    | _ => simp [SameTy, norm] at h
  | str b g =>
    cases e with
    | str b2 g2 => exact .inr ⟨_, _, rfl, rfl, rfl⟩
    | _ => simp [SameTy, norm] at h
  | tup g fs =>
    cases e with
    | tup g2 gs =>
      simp only [SameTy, norm, Dti.tup.injEq, normAll_eq] at h
      have hi := congrArg (fun l => l[i]?) h.2
      simp only [List.getElem?_map] at hi
      simp only [tyAt]
      cases h1 : fs[i]? with
      | none =>
        cases h2 : gs[i]? with
        | none => exact .inl ⟨rfl, rfl⟩
        | some q => simp [h1, h2] at hi
      | some p =>
        cases h2 : gs[i]? with
        | none => simp [h1, h2] at hi
        | some q =>
          simp only [h1, h2, Option.map_some, Option.some.injEq, Prod.mk.injEq] at hi
          exact .inr ⟨_, _, rfl, rfl, hi.2⟩
    | _ => simp [SameTy, norm] at h
  | arr g c =>
    cases e with
    | arr g2 c2 =>
      simp only [SameTy, norm, Dti.arr.injEq] at h
      exact .inr ⟨_, _, rfl, rfl, h.2⟩
    | _ => simp [SameTy, norm] at h

theorem posInfo_tail (h : SameTy kn d e) (t u : Dti) (i fe : Nat) (hv : t.isVar = true → d.isVar = true)
    (ht : SameTy kn t u) :
    ((if t.isBit then
      if t.needsValid then pure ⟨(1 + t.hdr.size) * i + 1, (1 + t.hdr.size) * i, t⟩
      else pure ⟨t.hdr.size * i, 0, t⟩
    else if !t.isVar then do
      let o ← u32 (fe + t.hdr.size * i)
      pure ⟨o, i * t.needsValid.toNat, t⟩
    else do
      let o ← u32 (fe + d.w * i)
      pure ⟨o, 0, t⟩) : Option PosInfo) = none ∧
    ((if u.isBit then
      if u.needsValid then pure ⟨(1 + u.hdr.size) * i + 1, (1 + u.hdr.size) * i, u⟩
      else pure ⟨u.hdr.size * i, 0, u⟩
    else if !u.isVar then do
      let o ← u32 (fe + u.hdr.size * i)
      pure ⟨o, i * u.needsValid.toNat, u⟩
    else do
      let o ← u32 (fe + e.w * i)
      pure ⟨o, 0, u⟩) : Option PosInfo) = none ∨ ∃ p q : PosInfo,
    ((if t.isBit then
      if t.needsValid then pure ⟨(1 + t.hdr.size) * i + 1, (1 + t.hdr.size) * i, t⟩
      else pure ⟨t.hdr.size * i, 0, t⟩
    else if !t.isVar then do
      let o ← u32 (fe + t.hdr.size * i)
      pure ⟨o, i * t.needsValid.toNat, t⟩
    else do
      let o ← u32 (fe + d.w * i)
      pure ⟨o, 0, t⟩) : Option PosInfo) = some p ∧
    ((if u.isBit then
      if u.needsValid then pure ⟨(1 + u.hdr.size) * i + 1, (1 + u.hdr.size) * i, u⟩
      else pure ⟨u.hdr.size * i, 0, u⟩
    else if !u.isVar then do
      let o ← u32 (fe + u.hdr.size * i)
      pure ⟨o, i * u.needsValid.toNat, u⟩
    else do
      let o ← u32 (fe + e.w * i)
      pure ⟨o, 0, u⟩) : Option PosInfo) = some q ∧ PSame kn p q ∧ p.ty = t := by
  rw [← ht.isBit, ← ht.needsValid, ← ht.size, ← ht.isVar]
  cases hb : t.isBit with
  | true =>
    cases hn : t.needsValid with
    | true => exact .inr ⟨_, _, rfl, rfl, ⟨rfl, fun _ => rfl, ht⟩, rfl⟩
    | false => exact .inr ⟨_, _, rfl, rfl, ⟨rfl, fun _ => rfl, ht⟩, rfl⟩
  | false =>
    cases hvv : t.isVar with
    | false =>
      simp only [Bool.false_eq_true, if_false, Bool.not_false, if_true]
      cases u32 (fe + t.hdr.size * i) with
      | none => exact .inl ⟨rfl, rfl⟩
      | some o => exact .inr ⟨_, _, rfl, rfl, ⟨rfl, fun _ => rfl, ht⟩, rfl⟩
    | true =>
      simp only [Bool.false_eq_true, if_false, Bool.not_true]
      rw [← h.w (hv hvv)]
      cases u32 (fe + d.w * i) with
      | none => exact .inl ⟨rfl, rfl⟩
      | some o => exact .inr ⟨_, _, rfl, rfl, ⟨rfl, fun _ => rfl, ht⟩, rfl⟩

theorem VarUp.tyAt {d t : Dti} {i : Nat} (h : VarUp d) (ht : d.tyAt i = some t) :
    (t.isVar = true → d.isVar = true) ∧ VarUp t := by
  cases d with
  | prim => cases ht
  | str => cases ht; exact ⟨by simp [u8, isVar, hdr], trivial⟩
  | tup g fs =>
    simp only [Dti.tyAt, Option.map_eq_some_iff] at ht
    obtain ⟨p, hp, rfl⟩ := ht
    obtain ⟨f, t⟩ := p
    exact (varUpAll_iff _ _).mp h f t (List.mem_of_getElem? hp)
  | arr g c => cases ht; exact ⟨h.1, h.2⟩

/-- Positions of the elements agree. -/
theorem posInfo_same (h : SameTy kn d e) (hv : VarUp d) (m : Bytes) (i : Nat) :
    (d.posInfo m i = none ∧ e.posInfo m i = none) ∨
    ∃ p q, d.posInfo m i = some p ∧ e.posInfo m i = some q ∧ PSame kn p q ∧
      (p.ty.isVar = true → d.isVar = true) ∧ VarUp p.ty := by
  have ht := tyAt_same h i
  have hb := h.bitmapBits m
  have ho := h.offBitmap
  cases d with
  | prim => 
    cases e with
    | prim => exact .inl ⟨rfl, rfl⟩
    | _ => simp [SameTy, norm] at h
  | tup g fs =>
    cases e with
    | tup g2 gs =>
      have h0 := h
      simp only [SameTy, norm, Dti.tup.injEq, normAll_eq] at h
      have hi := congrArg (fun l => l[i]?) h.2
      simp only [List.getElem?_map] at hi
      simp only [posInfo]
      cases h1 : fs[i]? with
      | none =>
        cases h2 : gs[i]? with
        | none => exact .inl ⟨rfl, rfl⟩
        | some q => simp [h1, h2] at hi
      | some p =>
        cases h2 : gs[i]? with
        | none => simp [h1, h2] at hi
        | some q =>
          simp only [h1, h2, Option.map_some, Option.some.injEq, Prod.mk.injEq] at hi
          obtain ⟨hf, hty⟩ := hi
          have hty : SameTy kn p.2 q.2 := hty
          simp only [nFld, Fld.mk.injEq] at hf
          refine .inr ⟨_, _, rfl, rfl, ⟨hf.2.1, ?_, hty⟩, ?_⟩
          · intro hn
            have := hf.2.2
            simp only at hn
            rw [← hty.needsValid, hn] at this
            simpa using this
          · exact hv.tyAt (i := i) (by simp [tyAt, h1])
    | _ => simp [SameTy, norm] at h
  | str b g =>
    cases e with
    | str b2 g2 =>
      simp only [posInfo]
      rw [ho, hb]
      cases (bitmapBits (.str b2 g2) m) with
      | none => exact .inl ⟨rfl, rfl⟩
      | some bb =>
        simp only [Option.bind_eq_bind, Option.bind_some]
        cases u32 (offBitmap (.str b2 g2) + bitmapBytes bb) with
        | none => exact .inl ⟨rfl, rfl⟩
        | some fe =>
          simp only [Option.bind_some]
          rcases ht with ⟨t1, t2⟩ | ⟨t, u, t1, t2, ht⟩
          · rw [t1, t2]; exact .inl ⟨rfl, rfl⟩
          · rw [t1, t2]
            simp only [Option.bind_some]
            obtain ⟨hup, hvt⟩ := hv.tyAt t1
            rcases posInfo_tail h t u i fe hup ht with hh | ⟨p, q, hp, hq, hs, rfl⟩
            · exact .inl hh
            · exact .inr ⟨p, q, hp, hq, hs, hup, hvt⟩
    | _ => simp [SameTy, norm] at h
  | arr g c =>
    cases e with
    | arr g2 c2 =>
      simp only [posInfo]
      rw [ho, hb]
      cases (bitmapBits (.arr g2 c2) m) with
      | none => exact .inl ⟨rfl, rfl⟩
      | some bb =>
        simp only [Option.bind_eq_bind, Option.bind_some]
        cases u32 (offBitmap (.arr g2 c2) + bitmapBytes bb) with
        | none => exact .inl ⟨rfl, rfl⟩
        | some fe =>
          simp only [Option.bind_some]
          rcases ht with ⟨t1, t2⟩ | ⟨t, u, t1, t2, ht⟩
          · rw [t1, t2]; exact .inl ⟨rfl, rfl⟩
          · rw [t1, t2]
            simp only [Option.bind_some]
            obtain ⟨hup, hvt⟩ := hv.tyAt t1
            rcases posInfo_tail h t u i fe hup ht with hh | ⟨p, q, hp, hq, hs, rfl⟩
            · exact .inl hh
            · exact .inr ⟨p, q, hp, hq, hs, hup, hvt⟩
    | _ => simp [SameTy, norm] at h

/-- Two types with the same normal form and two corresponding positions in them. -/
structure Ctx (kn : Bool) (d e : Dti) (p q : PosInfo) : Prop where
  same : SameTy kn d e
  pos : PSame kn p q
  up : p.ty.isVar = true → d.isVar = true
  vup : VarUp p.ty

namespace Ctx
variable {p q : PosInfo}

theorem isNullAt (c : Ctx kn d e p q) (m : Bytes) : d.isNullAt m p = e.isNullAt m q := by
  unfold Dti.isNullAt
  rw [← c.pos.ty.isNullable, ← c.pos.ty.isVar, ← c.same.offBitmap, ← c.pos.off]
  cases hn : p.ty.isNullable with
  | false => rfl
  | true =>
    cases hv : p.ty.isVar with
    | false =>
      have : p.ty.needsValid = true := by
        unfold Dti.isNullable at hn; unfold Dti.needsValid; simpa [hv] using hn
      rw [c.pos.vbit this]; rfl
    | true => rw [c.same.maxSize (c.up hv)]; rfl

theorem ptrAt (c : Ctx kn d e p q) (m : Bytes) : d.ptrAt m p = e.ptrAt m q := by
  unfold Dti.ptrAt
  rw [← c.pos.ty.needsValid, ← c.pos.ty.isVar, ← c.pos.ty.isBit, ← c.same.offBitmap, ← c.pos.off]
  cases hv : p.ty.isVar with
  | false =>
    cases hn : p.ty.needsValid with
    | false => rfl
    | true => rw [c.pos.vbit hn]; rfl
  | true =>
    have hn : p.ty.needsValid = false := by unfold Dti.needsValid; simp [hv]
    rw [c.same.maxSize (c.up hv), hn]; rfl

theorem sizeAt (c : Ctx kn d e p q) (m : Bytes) : d.sizeAt m p = e.sizeAt m q := by
  unfold Dti.sizeAt
  rw [← c.pos.ty.isVar, ← c.pos.ty.isBit, c.ptrAt m, ← c.pos.ty.size]
  simp only [c.pos.ty.getSize]

end Ctx

theorem getDatum_same (h : SameTy kn d e) (m : Bytes) : d.getDatum m = e.getDatum m := by
  have h1 := h.getCount m
  have h2 := h.offBitmap
  have h3 := h.size
  cases d with
  | prim k g => 
    cases e with
    | prim k2 g2 =>
      simp only [SameTy, norm, Dti.prim.injEq] at h
      obtain ⟨rfl, h⟩ := h
      simp only [hdr] at h3
      cases k <;> simp only [getDatum, h3]
    | _ => simp [SameTy, norm] at h
  | tup g fs =>
    cases e with
    | tup g2 gs => rfl
    | _ => simp [SameTy, norm] at h
  | str b g =>
    cases e with
    | str b2 g2 =>
      simp only [SameTy, norm, Dti.str.injEq] at h
      obtain ⟨rfl, h⟩ := h
      cases b <;> simp only [getDatum, h1, h2]
    | _ => simp [SameTy, norm] at h
  | arr g c =>
    cases e with
    | arr g2 c2 => rfl
    | _ => simp [SameTy, norm] at h

theorem obind {α β : Type} (x : Option α) {f g : α → Option β} (h : ∀ a, f a = g a) : (x >>= f) = (x >>= g) := by
  cases x with
  | none => rfl
  | some a => exact h a

/-- Both positions exist or none. -/
theorem posInfo_bind {β : Type} (h : SameTy kn d e) (hv : VarUp d) (m : Bytes) (i : Nat) {f g : PosInfo → Option β}
    (hfg : ∀ p q, Ctx kn d e p q → f p = g q) : (d.posInfo m i >>= f) = (e.posInfo m i >>= g) := by
  rcases posInfo_same h hv m i with ⟨h1, h2⟩ | ⟨p, q, h1, h2, hs, hu, hvt⟩
  · rw [h1, h2]; rfl
  · rw [h1, h2]; exact hfg p q ⟨h, hs, hu, hvt⟩

theorem getContUnsafe_same (h : SameTy kn d e) (hv : VarUp d) (m : Bytes) (i : Nat) :
    d.getContUnsafe m i = e.getContUnsafe m i := by
  unfold getContUnsafe getAt
  refine posInfo_bind h hv m i (fun p q c => ?_)
  rw [c.ptrAt, ← c.pos.ty.isBit, ← c.pos.ty.size, ← c.pos.off]
  simp only [getDatum_same c.pos.ty]

theorem getCont_same (h : SameTy kn d e) (hv : VarUp d) (m : Bytes) (i : Nat) :
    d.getCont m i = e.getCont m i := by
  unfold getCont
  rw [← h.isCont, h.getCount, getContUnsafe_same h hv]

theorem getElem_congr (pa : List Nat) : ∀ {d e : Dti}, SameTy kn d e → VarUp d → ∀ (m : Bytes),
    d.getElem m pa = e.getElem m pa := by
  induction pa with
  | nil => intro d e h _ m; simp only [getElem]; exact getDatum_same h m
  | cons i pa ih =>
    intro d e h hv m
    cases pa with
    | nil => simp only [getElem]; exact getCont_same h hv m i
    | cons j pa =>
      simp only [getElem]
      rw [← h.isCont, h.getCount]
      cases d.isCont with
      | false => rfl
      | true =>
        simp only [Bool.not_true, Bool.false_eq_true, if_false]
        refine obind _ (fun n => ?_)
        split
        · rfl
        · refine posInfo_bind h hv m i (fun p q c => ?_)
          rw [c.ptrAt]
          simp only [ih c.pos.ty c.vup]

theorem moveStep_same (h : SameTy kn d e) (hv : VarUp d) (idx o cs : Nat) (m : Bytes) (i : Nat) :
    d.moveStep idx o cs m i = e.moveStep idx o cs m i := by
  unfold moveStep
  refine posInfo_bind h hv m i (fun p q c => ?_)
  rw [← c.pos.ty.isVar, ← c.pos.off]
  cases hvv : p.ty.isVar with
  | false => simp
  | true => rw [h.maxSize (c.up hvv)]

theorem moveEnd_same {p q : PosInfo} (c : Ctx kn d e p q) (hv : VarUp d) (m : Bytes) (idx : Nat) :
    d.moveEnd m idx p = e.moveEnd m idx q := by
  unfold moveEnd
  rw [← c.pos.ty.isVar]
  cases hvv : p.ty.isVar with
  | false => rfl
  | true =>
    rw [c.ptrAt, c.same.getSize, ← c.pos.off, c.same.maxSize (c.up hvv)]
    simp only [c.pos.ty.getSize, c.same.getCount]
    have : ∀ o cs, d.moveStep idx o cs = e.moveStep idx o cs := by
      intro o cs; funext m i; exact moveStep_same c.same hv idx o cs m i
    simp only [this]

theorem initMin_same (h : SameTy kn d e) (m : Bytes) : d.initMin m = e.initMin m := by
  unfold initMin
  rw [← h.isBit, ← h.isVar, ← h.size, ← h.hasSizeP]
  cases hv : d.isVar with
  | false => rfl
  | true => rw [h.maxSize hv]

theorem isMin_same (h : SameTy kn d e) (m : Bytes) : d.isMin m = e.isMin m := by
  unfold isMin
  rw [← h.isBit, ← h.isVar, ← h.size, ← h.hasSizeP, h.getSize]
  cases hv : d.isVar with
  | false => rfl
  | true => rw [h.w hv]

theorem setNull_same {p q : PosInfo} (c : Ctx kn d e p q) (hv : VarUp d) (m : Bytes) (i : Nat) :
    d.setNull m i p = e.setNull m i q := by
  unfold setNull
  rw [c.isNullAt, ← c.pos.ty.isNullable, ← c.pos.ty.needsValid, ← c.same.offBitmap, c.same.getSize, c.ptrAt,
    moveEnd_same c hv, ← c.same.hasSizeP, ← c.pos.off]
  simp only [c.pos.ty.getSize]
  cases hn : p.ty.isNullable with
  | false => simp
  | true =>
    cases hnv : p.ty.needsValid with
    | true => rw [c.pos.vbit hnv]; simp
    | false =>
      have : p.ty.isVar = true := by
        unfold isNullable at hn; unfold needsValid at hnv
        cases h : p.ty.isVar <;> simp_all
      rw [c.same.maxSize (c.up this)]
      simp only [Bool.not_true, Bool.false_eq_true, if_false]

theorem newSize_same (h : SameTy kn d e) (hv : d.isVar = true) (v : Datum) : d.newSize v = e.newSize v := by
  have h1 := h.maxSize hv
  have h2 := h.size
  have h3 := h.getSize
  cases d with
  | prim k g => 
    cases e with
    | prim k2 g2 => rfl
    | _ => simp [SameTy, norm] at h
  | tup g fs =>
    cases e with
    | tup g2 gs => cases v <;> simp [newSize, h2, h3]
    | _ => simp [SameTy, norm] at h
  | str b g =>
    cases e with
    | str b2 g2 =>
      simp only [SameTy, norm, Dti.str.injEq] at h
      obtain ⟨rfl, h⟩ := h
      simp only [hdr] at h1
      cases b <;> simp only [newSize, h1]
    | _ => simp [SameTy, norm] at h
  | arr g c =>
    cases e with
    | arr g2 c2 => cases v <;> simp [newSize, h2, h3]
    | _ => simp [SameTy, norm] at h

theorem canSetDatum_same (h : SameTy kn d e) (m : Bytes) (valid : Bool) (inc : Nat) (v : Datum) :
    d.canSetDatum m valid inc v = e.canSetDatum m valid inc v := by
  unfold canSetDatum oldSize
  rw [← h.isBit, ← h.isVar, ← h.isCont, h.getSize]
  cases hv : d.isVar with
  | false => rfl
  | true => rw [h.maxSize hv, newSize_same h hv]

theorem setDatum_same (h : SameTy kn d e) (m : Bytes) (valid : Bool) (inc : Nat) (v : Datum) :
    d.setDatum m valid inc v = e.setDatum m valid inc v := by
  have hsz := h.size
  have hb := h.isBit
  have hvv := h.isVar
  have hmn := fun hv => newSize_same h hv v
  have hm := fun hv => h.maxSize hv
  have hgs := h.getSize
  have him := initMin_same h
  unfold setDatum
  rw [← hb, ← hvv]
  cases hv : d.isVar with
  | false =>
    cases d with
    | prim k g => 
      cases e with
      | prim k2 g2 =>
        simp only [SameTy, norm, Dti.prim.injEq] at h
        obtain ⟨rfl, h⟩ := h
        simp only [hdr] at hsz
        cases k <;> simp only [hsz]
      | _ => simp [SameTy, norm] at h
    | tup g fs =>
      cases e with
      | tup g2 gs => cases v <;> simp [hsz, him]
      | _ => simp [SameTy, norm] at h
    | str b g =>
      cases e with
      | str b2 g2 =>
        simp only [SameTy, norm, Dti.str.injEq] at h
        obtain ⟨rfl, h⟩ := h
        simp only [hdr] at hsz
        cases b <;> simp only [hsz, Bool.not_false, if_true]
      | _ => simp [SameTy, norm] at h
    | arr g c =>
      cases e with
      | arr g2 c2 => cases v <;> simp [hsz, him]
      | _ => simp [SameTy, norm] at h
  | true =>
    have hmn := hmn hv
    have hm := hm hv
    cases d with
    | prim k g => 
      cases e with
      | prim k2 g2 => rfl
      | _ => simp [SameTy, norm] at h
    | tup g fs =>
      cases e with
      | tup g2 gs => simp only [Bool.not_true, Bool.false_eq_true, if_false, oldSize, hgs, hmn, hm, him]
      | _ => simp [SameTy, norm] at h
    | str b g =>
      cases e with
      | str b2 g2 =>
        simp only [SameTy, norm, Dti.str.injEq] at h
        obtain ⟨rfl, h⟩ := h
        simp only [hdr] at hm
        simp only [Bool.not_true, Bool.false_eq_true, if_false, oldSize, hgs, hmn, hm]
      | _ => simp [SameTy, norm] at h
    | arr g c =>
      cases e with
      | arr g2 c2 => simp only [Bool.not_true, Bool.false_eq_true, if_false, oldSize, hgs, hmn, hm, him]
      | _ => simp [SameTy, norm] at h

theorem canSetContUnsafe_same (h : SameTy kn d e) (hv : VarUp d) (m : Bytes) (i inc : Nat) (v : Datum) :
    d.canSetContUnsafe m i inc v = e.canSetContUnsafe m i inc v := by
  unfold canSetContUnsafe canSetAt
  refine posInfo_bind h hv m i (fun p q c => ?_)
  rw [← c.pos.ty.isNullable, ← c.pos.ty.isVar, h.getSize, c.ptrAt]
  simp only [canSetDatum_same c.pos.ty]
  cases hvv : p.ty.isVar with
  | false => rfl
  | true => rw [h.maxSize (c.up hvv)]

theorem canSetCont_same (h : SameTy kn d e) (hv : VarUp d) (m : Bytes) (i inc : Nat) (v : Datum) :
    d.canSetCont m i inc v = e.canSetCont m i inc v := by
  unfold canSetCont
  rw [← h.isCont, h.getCount, canSetContUnsafe_same h hv]

theorem setContUnsafe_same (h : SameTy kn d e) (hv : VarUp d) (m : Bytes) (i inc : Nat) (v : Datum) :
    d.setContUnsafe m i inc v = e.setContUnsafe m i inc v := by
  unfold setContUnsafe setAt
  refine posInfo_bind h hv m i (fun p q c => ?_)
  rw [setNull_same c hv, moveEnd_same c hv]
  rw [← c.pos.ty.isVar, ← c.pos.ty.needsValid, ← c.pos.ty.isBit, ← c.pos.ty.size, ← h.hasSizeP, ← h.offBitmap, ← c.pos.off]
  simp only [setDatum_same c.pos.ty, c.ptrAt, c.pos.ty.getSize, h.getSize]
  cases hvv : p.ty.isVar with
  | false =>
    cases hn : p.ty.needsValid with
    | true => rw [c.pos.vbit hn]; rfl
    | false => rfl
  | true => rw [h.maxSize (c.up hvv)]; rfl

theorem setCont_same (h : SameTy kn d e) (hv : VarUp d) (m : Bytes) (i inc : Nat) (v : Datum) :
    d.setCont m i inc v = e.setCont m i inc v := by
  unfold setCont
  rw [← h.isCont, h.getCount, setContUnsafe_same h hv]

theorem overwriteSize_same (h : SameTy kn d e) (m : Bytes) (s : Nat) : d.overwriteSize m s = e.overwriteSize m s := by
  unfold overwriteSize
  rw [← h.hasSizeP]
  cases hs : d.hasSizeP with
  | false => rfl
  | true => rw [h.maxSize (hasSizeP_isVar hs)]

theorem inChild_same {p q : PosInfo} (c : Ctx kn d e p q) (m : Bytes) (o : Nat) (upd : Bool)
    (f : Bytes → Option (Bytes × Bool)) : d.inChild m p o upd f = e.inChild m q o upd f := by
  unfold inChild
  simp only [c.same.getSize, c.sizeAt, overwriteSize_same c.same]

theorem tyAtNoData_same (h : SameTy kn d e) (hv : VarUp d) (i : Nat) : (d.tyAtNoData i = none ∧ e.tyAtNoData i = none) ∨
    ∃ t u, d.tyAtNoData i = some t ∧ e.tyAtNoData i = some u ∧ SameTy kn t u ∧ VarUp t := by
  unfold tyAtNoData
  rw [← h.isCont, ← h.isVarCount]
  cases hc : d.isCont with
  | false => exact .inl ⟨rfl, rfl⟩
  | true =>
    have hcond : (!d.isVarCount && decide (i ≥ d.hdr.count)) = (!d.isVarCount && decide (i ≥ e.hdr.count)) := by
      cases hvc : d.isVarCount with
      | true => rfl
      | false => rw [h.count hc hvc]
    rw [hcond]
    cases (!d.isVarCount && decide (i ≥ e.hdr.count)) with
    | true => exact .inl ⟨rfl, rfl⟩
    | false =>
      simp only [Bool.not_true, Bool.false_eq_true, if_false]
      rcases tyAt_same h i with hh | ⟨t, u, h1, h2, h3⟩
      · exact .inl hh
      · exact .inr ⟨t, u, h1, h2, h3, (hv.tyAt h1).2⟩

theorem typeAt_same (pa : List Nat) : ∀ {d e : Dti}, SameTy kn d e → VarUp d →
    (d.typeAt pa = none ∧ e.typeAt pa = none) ∨
    ∃ t u, d.typeAt pa = some t ∧ e.typeAt pa = some u ∧ SameTy kn t u := by
  induction pa with
  | nil => intro d e h _; exact .inr ⟨d, e, rfl, rfl, h⟩
  | cons i pa ih =>
    intro d e h hv
    simp only [typeAt]
    rcases tyAtNoData_same h hv i with ⟨h1, h2⟩ | ⟨t, u, h1, h2, h3, h4⟩
    · rw [h1, h2]; exact .inl ⟨rfl, rfl⟩
    · rw [h1, h2]; exact ih h3 h4

theorem canSetElem_same (v : Datum) (pa : List Nat) : ∀ {d e : Dti}, SameTy kn d e → VarUp d → ∀ (m : Bytes) (inc : Nat),
    d.canSetElem m inc v pa = e.canSetElem m inc v pa := by
  induction pa with
  | nil => intro d e h _ m inc; simp only [canSetElem]; rw [canSetDatum_same h]
  | cons i pa ih =>
    intro d e h hv m inc
    cases pa with
    | nil => simp only [canSetElem]; exact canSetCont_same h hv m i inc v
    | cons j pa =>
      simp only [canSetElem]
      rw [← h.isCont, h.getCount]
      cases d.isCont with
      | false => rfl
      | true =>
        simp only [Bool.not_true, Bool.false_eq_true, if_false]
        refine obind _ (fun n => ?_)
        split
        · rfl
        · rw [← h.isVar, h.getSize]
          have key : ∀ inc : Nat, (d.posInfo m i >>= fun p => d.ptrAt m p >>= fun r => match r with
                | none => pure false
                | some o => p.ty.canSetElem (List.drop o m) inc v (j :: pa)) =
              (e.posInfo m i >>= fun p => e.ptrAt m p >>= fun r => match r with
                | none => pure false
                | some o => p.ty.canSetElem (List.drop o m) inc v (j :: pa)) := by
            intro inc
            refine posInfo_bind h hv m i (fun p q c => ?_)
            rw [c.ptrAt]
            simp only [ih c.pos.ty c.vup]
          cases hvv : d.isVar with
          | false => simp only [Bool.false_eq_true, if_false]; exact obind _ (fun inc => key inc)
          | true =>
            rw [h.maxSize hvv]
            simp only [if_true]
            exact obind _ (fun x => obind _ (fun y => obind _ (fun inc => key inc)))

theorem setElemI_same (v : Datum) (iv : Bool) (pa : List Nat) : ∀ {d e : Dti}, SameTy kn d e → VarUp d →
    ∀ (m : Bytes) (inc : Nat), d.setElemI m inc v iv pa = e.setElemI m inc v iv pa := by
  induction pa with
  | nil => intro d e h _ m inc; simp only [setElemI]; rw [setDatum_same h]
  | cons i pa ih =>
    intro d e h hv m inc
    cases pa with
    | nil => simp only [setElemI]; exact setCont_same h hv m i inc v
    | cons j pa =>
      simp only [setElemI]
      rw [← h.isCont, h.getCount]
      cases d.isCont with
      | false => rfl
      | true =>
        simp only [Bool.not_true, Bool.false_eq_true, if_false]
        refine obind _ (fun n => ?_)
        split
        · rfl
        · rw [← h.isVar, h.getSize]
          have key : ∀ p q inc, Ctx kn d e p q →
              (if iv = true then d.moveEnd m i p >>= fun x => d.ptrAt x.1 p >>= fun r => match r with
                | none => pure (x.1, false)
                | some o => d.inChild x.1 p o iv (fun c => p.ty.setElemI c inc v iv (j :: pa))
              else some (m, false) >>= fun x => d.ptrAt x.1 p >>= fun r => match r with
                | none => pure (x.1, false)
                | some o => d.inChild x.1 p o iv (fun c => p.ty.setElemI c inc v iv (j :: pa))) =
              (if iv = true then e.moveEnd m i q >>= fun x => e.ptrAt x.1 q >>= fun r => match r with
                | none => pure (x.1, false)
                | some o => e.inChild x.1 q o iv (fun c => q.ty.setElemI c inc v iv (j :: pa))
              else some (m, false) >>= fun x => e.ptrAt x.1 q >>= fun r => match r with
                | none => pure (x.1, false)
                | some o => e.inChild x.1 q o iv (fun c => q.ty.setElemI c inc v iv (j :: pa))) := by
            intro p q inc c
            rw [moveEnd_same c hv]
            simp only [c.ptrAt, inChild_same c, ih c.pos.ty c.vup]
          cases hvv : d.isVar with
          | false =>
            simp only [Bool.false_eq_true, if_false]
            exact obind _ (fun inc => posInfo_bind h hv m i (fun p q c => key p q inc c))
          | true =>
            rw [h.maxSize hvv]
            simp only [if_true]
            exact obind _ (fun x => obind _ (fun y => obind _ (fun inc => posInfo_bind h hv m i (fun p q c => key p q inc c))))

theorem setElem_same (h : SameTy kn d e) (hv : VarUp d) (m : Bytes) (pa : List Nat) (v : Datum) (inc : Nat) :
    d.setElem m pa v inc = e.setElem m pa v inc := by
  unfold setElem
  rcases typeAt_same pa h hv with ⟨h1, h2⟩ | ⟨t, u, h1, h2, h3⟩
  · rw [h1, h2]
  · rw [h1, h2]
    simp only [h3.isVar]
    exact setElemI_same v u.isVar pa h hv m inc

/-! ### expanding and discarding -/

theorem isVarCount_cont (h : SameTy kn d e) (hvc : d.isVarCount = true) : ∃ c c', d.cont = some c ∧ e.cont = some c' ∧ SameTy kn c c' := by
  rcases h.cont with ⟨h1, _⟩ | h1
  · cases d with
    | prim => cases hvc
    | tup => cases hvc
    | str => cases h1
    | arr => cases h1
  · exact h1

theorem grownSize_same {c c' : Dti} (h : SameTy kn d e) (hc : SameTy kn c c') (hv : d.isVar = true) (old n slots : Nat) :
    d.grownSize c old n slots = e.grownSize c' old n slots := by
  unfold grownSize
  rw [hc.isBit, hc.isVar, hc.size, hc.needsValid, hc.eltBits, h.offBitmap, h.w hv]

theorem canExpand_same (h : SameTy kn d e) (m : Bytes) (index slots inc : Nat) :
    d.canExpand m index slots inc = e.canExpand m index slots inc := by
  unfold canExpand
  rw [← h.isVarCount]
  cases hvc : d.isVarCount with
  | false => rfl
  | true =>
    obtain ⟨c, c', h1, h2, hc⟩ := isVarCount_cont h hvc
    have hv := isVarCount_isVar hvc
    rw [h.getCount, h1, h2, h.getSize, h.maxSize hv]
    simp only [Option.bind_eq_bind, Option.bind_some, grownSize_same h hc hv]

theorem fixOffs_same (h : SameTy kn d e) (hv : d.isVar = true) (g : Nat → Option Nat) (l : List Nat) (m : Bytes) :
    d.fixOffs g m l = e.fixOffs g m l := by
  induction l generalizing m with
  | nil => rfl
  | cons i r ih =>
    simp only [fixOffs, fixOff]
    rw [h.maxSize hv, h.offBitmap, h.w hv]
    simp only [ih]

theorem growBody_same {c c' : Dti} (h : SameTy kn d e) (hc : SameTy kn c c') (hv : d.isVar = true) (m : Bytes)
    (old n index slots : Nat) : d.growBody c m old n index slots = e.growBody c' m old n index slots := by
  unfold growBody growBit growFixed growVar
  rw [hc.isBit, hc.isVar, hc.size, hc.needsValid, hc.eltBits, h.offBitmap, h.w hv]
  simp only [fixOffs_same h hv]

theorem putPrefix_same (h : SameTy kn d e) (hv : d.isVar = true) (m : Bytes) (s n : Nat) :
    d.putPrefix m s n = e.putPrefix m s n := by
  unfold putPrefix
  rw [h.hasSizeP, h.hasCountP, h.maxSize hv, h.offCountP]

theorem expand_same (h : SameTy kn d e) (m : Bytes) (index slots inc : Nat) :
    d.expand m index slots inc = e.expand m index slots inc := by
  unfold expand
  rw [← h.isVarCount]
  cases hvc : d.isVarCount with
  | false => rfl
  | true =>
    obtain ⟨c, c', h1, h2, hc⟩ := isVarCount_cont h hvc
    have hv := isVarCount_isVar hvc
    rw [h.getCount, h1, h2, h.getSize, h.maxSize hv]
    simp only [Option.bind_eq_bind, Option.bind_some, grownSize_same h hc hv, growBody_same h hc hv, putPrefix_same h hv]

theorem canDiscard_same (h : SameTy kn d e) (m : Bytes) (index slots : Nat) :
    d.canDiscard m index slots = e.canDiscard m index slots := by
  unfold canDiscard
  rw [← h.isVarCount, h.getCount]

theorem nullAll_same (h : SameTy kn d e) (hup : VarUp d) (l : List Nat) (m : Bytes) : d.nullAll m l = e.nullAll m l := by
  induction l generalizing m with
  | nil => rfl
  | cons i r ih =>
    simp only [nullAll]
    refine posInfo_bind h hup m i (fun p q c => ?_)
    rw [setNull_same c hup]
    simp only [ih]

theorem shrinkBody_same {c c' : Dti} (h : SameTy kn d e) (hup : VarUp d) (hc : SameTy kn c c') (hv : d.isVar = true) (m : Bytes)
    (old n index slots : Nat) : d.shrinkBody c m old n index slots = e.shrinkBody c' m old n index slots := by
  unfold shrinkBody shrinkBit shrinkFixed shrinkVar shrinkValid
  rw [hc.isBit, hc.isVar, hc.size, hc.needsValid, hc.eltBits, h.offBitmap, h.w hv]
  simp only [fixOffs_same h hv, nullAll_same h hup, h.getSize]

theorem discard_same (h : SameTy kn d e) (hup : VarUp d) (m : Bytes) (index slots : Nat) :
    d.discard m index slots = e.discard m index slots := by
  unfold discard
  rw [← h.isVarCount]
  cases hvc : d.isVarCount with
  | false => rfl
  | true =>
    obtain ⟨c, c', h1, h2, hc⟩ := isVarCount_cont h hvc
    have hv := isVarCount_isVar hvc
    rw [h.getCount, h1, h2, h.getSize]
    simp only [Option.bind_eq_bind, Option.bind_some, shrinkBody_same h hup hc hv, putPrefix_same h hv]

theorem elemCount_same (pa : List Nat) : ∀ {d e : Dti}, SameTy kn d e → VarUp d → ∀ (m : Bytes),
    d.elemCount m pa = e.elemCount m pa := by
  induction pa with
  | nil => intro d e h _ m; simp only [elemCount]; exact h.getCount m
  | cons i pa ih =>
    intro d e h hv m
    simp only [elemCount]
    rw [← h.isCont, h.getCount]
    cases d.isCont with
    | false => rfl
    | true =>
      simp only [Bool.not_true, Bool.false_eq_true, if_false]
      refine obind _ (fun n => ?_)
      split
      · rfl
      · refine posInfo_bind h hv m i (fun p q c => ?_)
        rw [c.ptrAt]
        simp only [ih c.pos.ty c.vup]

theorem maxInc_same (pa : List Nat) : ∀ {d e : Dti}, SameTy kn d e → VarUp d → ∀ (m : Bytes) (inc : Nat),
    d.maxInc m inc pa = e.maxInc m inc pa := by
  induction pa with
  | nil =>
    intro d e h _ m inc
    simp only [maxInc]
    rw [← h.isVar, h.getSize]
    cases hv : d.isVar with
    | false => rfl
    | true => rw [h.maxSize hv]
  | cons i pa ih =>
    intro d e h hup m inc
    simp only [maxInc]
    rw [← h.isCont, h.getCount, ← h.isVar, h.getSize]
    cases hv : d.isVar with
    | false => rfl
    | true =>
      rw [h.maxSize hv]
      simp only [Bool.not_true, Bool.false_eq_true, if_false]
      refine obind _ (fun n => ?_)
      refine obind _ (fun n => ?_)
      cases d.isCont with
      | false => rfl
      | true =>
        simp only [Bool.not_true, Bool.false_eq_true, if_false]
        refine obind _ (fun n => ?_)
        split
        · rfl
        · refine posInfo_bind h hup m i (fun p q c => ?_)
          rw [c.ptrAt]
          simp only [ih c.pos.ty c.vup]

theorem posInfo_ty {d : Dti} {m : Bytes} {i : Nat} {p : PosInfo} (h : d.posInfo m i = some p) : d.tyAt i = some p.ty := by
  cases d with
  | prim => cases h
  | tup g fs =>
    simp only [posInfo, Option.map_eq_some_iff] at h
    obtain ⟨x, h1, rfl⟩ := h
    simp [tyAt, h1]
  | str b g =>
    simp only [posInfo, Option.bind_eq_bind, Option.bind_eq_some_iff] at h
    obtain ⟨_, _, fe, _, t, ht, h⟩ := h
    rw [ht]
    (repeat' split at h) <;> first
      | (simp only [Option.pure_def, Option.some.injEq] at h; subst h; rfl)
      | (simp only [Option.bind_eq_some_iff, Option.pure_def, Option.some.injEq] at h; obtain ⟨_, _, rfl⟩ := h; rfl)
  | arr g c =>
    simp only [posInfo, Option.bind_eq_bind, Option.bind_eq_some_iff] at h
    obtain ⟨_, _, fe, _, t, ht, h⟩ := h
    rw [ht]
    (repeat' split at h) <;> first
      | (simp only [Option.pure_def, Option.some.injEq] at h; subst h; rfl)
      | (simp only [Option.bind_eq_some_iff, Option.pure_def, Option.some.injEq] at h; obtain ⟨_, _, rfl⟩ := h; rfl)

/-- The same, keeping the type at the end of the position. -/
theorem posInfo_bindT {β : Type} {pa : List Nat} {t : Dti} (h : SameTy kn d e) (hv : VarUp d) (m : Bytes) (i : Nat)
    {f g : PosInfo → Option β} (ht : d.typeAt (i :: pa) = some t)
    (hfg : ∀ p q, Ctx kn d e p q → p.ty.typeAt pa = some t → f p = g q) : (d.posInfo m i >>= f) = (e.posInfo m i >>= g) := by
  rcases posInfo_same h hv m i with ⟨h1, h2⟩ | ⟨p, q, h1, h2, hs, hu, hvt⟩
  · rw [h1, h2]; rfl
  · rw [h1, h2]
    refine hfg p q ⟨h, hs, hu, hvt⟩ ?_
    simp only [typeAt, Option.bind_eq_bind, Option.bind_eq_some_iff] at ht
    obtain ⟨u, hu, ht⟩ := ht
    unfold tyAtNoData at hu
    have := posInfo_ty h1
    repeat' split at hu
    · cases hu
    · cases hu
    · rw [this] at hu; cases hu; exact ht

theorem typeAt_isVar (pa : List Nat) : ∀ {d t : Dti}, VarUp d → d.typeAt pa = some t → t.isVar = true → d.isVar = true := by
  induction pa with
  | nil => intro d t _ h1 h2; cases h1; exact h2
  | cons i pa ih =>
    intro d t h h1 h2
    simp only [typeAt, Option.bind_eq_bind, Option.bind_eq_some_iff] at h1
    obtain ⟨u, hu, ht⟩ := h1
    unfold tyAtNoData at hu
    repeat' split at hu
    · cases hu
    · cases hu
    · exact (h.tyAt hu).1 (ih (h.tyAt hu).2 ht h2)

theorem canExpandElemI_same {t : Dti} (htv : t.isVar = true) (index slots : Nat) (pa : List Nat) : ∀ {d e : Dti}, SameTy kn d e → VarUp d →
    d.typeAt pa = some t → ∀ (m : Bytes) (inc : Nat), d.canExpandElemI m index slots inc pa = e.canExpandElemI m index slots inc pa := by
  induction pa with
  | nil => intro d e h _ _ m inc; simp only [canExpandElemI]; exact canExpand_same h m index slots inc
  | cons i pa ih =>
    intro d e h hup ht m inc
    have hv := typeAt_isVar _ hup ht htv
    simp only [canExpandElemI]
    rw [← h.isCont, h.getCount, h.getSize, h.maxSize hv]
    cases d.isCont with
    | false => rfl
    | true =>
      simp only [Bool.not_true, Bool.false_eq_true, if_false]
      refine obind _ (fun n => ?_)
      split
      · rfl
      · refine obind _ (fun x => obind _ (fun y => ?_))
        refine posInfo_bindT h hup m i ht (fun p q c ht' => ?_)
        rw [c.ptrAt]
        simp only [ih c.pos.ty c.vup ht']

theorem typeAt_pair (h : SameTy kn d e) (hv : VarUp d) (pa : List Nat) {β : Type} {x y : Option β} {f g : Dti → Option β}
    (hx : x = y) (hf : ∀ t u, d.typeAt pa = some t → e.typeAt pa = some u → SameTy kn t u → f t = g u) :
    (match d.typeAt pa with | none => x | some t => f t) = (match e.typeAt pa with | none => y | some t => g t) := by
  rcases typeAt_same pa h hv with ⟨h1, h2⟩ | ⟨t, u, h1, h2, h3⟩
  · rw [h1, h2]; exact hx
  · rw [h1, h2]; exact hf t u h1 h2 h3

theorem canExpandElem_same (h : SameTy kn d e) (hv : VarUp d) (m : Bytes) (pa : List Nat) (index slots inc : Nat) :
    d.canExpandElem m pa index slots inc = e.canExpandElem m pa index slots inc := by
  unfold canExpandElem
  refine typeAt_pair h hv pa rfl (fun t u h1 _ h3 => ?_)
  rw [← h3.isVarCount]
  cases hvc : t.isVarCount with
  | false => rfl
  | true => exact canExpandElemI_same (isVarCount_isVar hvc) index slots pa h hv h1 m inc

theorem expandElemI_same {t : Dti} (htv : t.isVar = true) (index slots : Nat) (pa : List Nat) : ∀ {d e : Dti}, SameTy kn d e → VarUp d →
    d.typeAt pa = some t → ∀ (m : Bytes) (inc : Nat), d.expandElemI m index slots inc pa = e.expandElemI m index slots inc pa := by
  induction pa with
  | nil => intro d e h _ _ m inc; simp only [expandElemI]; exact expand_same h m index slots inc
  | cons i pa ih =>
    intro d e h hup ht m inc
    have hv := typeAt_isVar _ hup ht htv
    simp only [expandElemI]
    rw [← h.isCont, h.getCount, h.getSize, h.maxSize hv]
    cases d.isCont with
    | false => rfl
    | true =>
      simp only [Bool.not_true, Bool.false_eq_true, if_false]
      refine obind _ (fun n => ?_)
      split
      · rfl
      · refine obind _ (fun x => obind _ (fun y => ?_))
        refine posInfo_bindT h hup m i ht (fun p q c ht' => ?_)
        rw [moveEnd_same c hup]
        simp only [c.ptrAt, inChild_same c, ih c.pos.ty c.vup ht']

theorem expandElem_same (h : SameTy kn d e) (hv : VarUp d) (m : Bytes) (pa : List Nat) (index slots inc : Nat) :
    d.expandElem m pa index slots inc = e.expandElem m pa index slots inc := by
  unfold expandElem
  refine typeAt_pair h hv pa rfl (fun t u h1 _ h3 => ?_)
  rw [← h3.isVarCount]
  cases hvc : t.isVarCount with
  | false => rfl
  | true => exact expandElemI_same (isVarCount_isVar hvc) index slots pa h hv h1 m inc

theorem canDiscardElemI_same (index slots : Nat) (pa : List Nat) : ∀ {d e : Dti}, SameTy kn d e → VarUp d →
    ∀ (m : Bytes), d.canDiscardElemI m index slots pa = e.canDiscardElemI m index slots pa := by
  induction pa with
  | nil => intro d e h _ m; simp only [canDiscardElemI]; exact canDiscard_same h m index slots
  | cons i pa ih =>
    intro d e h hup m
    simp only [canDiscardElemI]
    rw [← h.isCont, h.getCount]
    cases d.isCont with
    | false => rfl
    | true =>
      simp only [Bool.not_true, Bool.false_eq_true, if_false]
      refine obind _ (fun n => ?_)
      split
      · rfl
      · refine posInfo_bind h hup m i (fun p q c => ?_)
        rw [c.ptrAt]
        simp only [ih c.pos.ty c.vup]

theorem canDiscardElem_same (h : SameTy kn d e) (hv : VarUp d) (m : Bytes) (pa : List Nat) (index slots : Nat) :
    d.canDiscardElem m pa index slots = e.canDiscardElem m pa index slots := by
  unfold canDiscardElem
  refine typeAt_pair h hv pa rfl (fun t u h1 _ h3 => ?_)
  rw [← h3.isVarCount, canDiscardElemI_same index slots pa h hv]

theorem discardElemI_same (index slots : Nat) (pa : List Nat) : ∀ {d e : Dti}, SameTy kn d e → VarUp d →
    ∀ (m : Bytes), d.discardElemI m index slots pa = e.discardElemI m index slots pa := by
  induction pa with
  | nil => intro d e h hup m; simp only [discardElemI]; exact discard_same h hup m index slots
  | cons i pa ih =>
    intro d e h hup m
    simp only [discardElemI]
    rw [← h.isCont, h.getCount]
    cases d.isCont with
    | false => rfl
    | true =>
      simp only [Bool.not_true, Bool.false_eq_true, if_false]
      refine obind _ (fun n => ?_)
      split
      · rfl
      · refine posInfo_bind h hup m i (fun p q c => ?_)
        rw [moveEnd_same c hup]
        simp only [c.ptrAt, inChild_same c, ih c.pos.ty c.vup]

theorem discardElem_same (h : SameTy kn d e) (hv : VarUp d) (m : Bytes) (pa : List Nat) (index slots : Nat) :
    d.discardElem m pa index slots = e.discardElem m pa index slots := by
  unfold discardElem
  refine typeAt_pair h hv pa rfl (fun t u h1 _ h3 => ?_)
  rw [← h3.isVarCount, discardElemI_same index slots pa h hv]

end Dti
end TS
