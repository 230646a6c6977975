import Verif.PropsSer
/-
`finalize_type_info` with everything it writes, also when it refuses the type, and what a user can do
after a refusal.
-/
namespace TS
namespace Dti

/-! ### The function -/

mutual
/-- `finalize_type_info`, /repo/src/data_type_info.c:43-246: the type afterwards and the return value. What
is written before a `return 0` stays. -/
def finSt : Dti → Dti × Bool
  | .prim k h =>
    if h.isFinal then (.prim k h, true)
    else
      match finPrim k h with
      | some d => (d, true)
      | none => (.prim k h, false)
  | .str b h =>
    if h.isFinal then (.str b h, true)
    else
      let h := { h with isVar := h.varCount }
      if !h.varCount && h.count = 0 then (.str b h, false)
      else
        let h := { h with bits := 0 }
        if h.isVar then
          let h := { h with size := vsz h.maxSize }
          if h.size > h.maxSize then (.str b h, false) else (.str b { h with isFinal := true }, true)
        else (.str b { h with size := h.count, isFinal := true }, true)
  | .tup h fs =>
    if h.isFinal then (.tup h fs, true)
    else if h.count = 0 then (.tup h fs, false)
    else
      let (fs, v, b, ok) := finStAll fs false 0
      let h := { h with isVar := v, bits := b, varCount := false }
      if !ok then (.tup h fs, false)
      else
        let (fs, e) := assignOffs (vsz h.maxSize) (w32 ((if h.isVar then vsz h.maxSize else 0) + bitmapBytes h.bits)) fs
        let h := { h with size := e }
        if h.isVar && h.size > h.maxSize then (.tup h fs, false) else (.tup { h with isFinal := true } fs, true)
  | .arr h c =>
    if h.isFinal then (.arr h c, true)
    else
      let (c, ok) := finSt c
      if !ok then (.arr h c, false)
      else
        let h := { h with isVar := h.varCount || c.isVar }
        if !h.varCount && h.count = 0 then (.arr h c, false)
        else
          let h := { h with bits := arrBits h c }
          if !h.isVar then (.arr { h with size := arrSize h c, isFinal := true } c, true)
          else
            let h := { h with size := arrMin h c }
            if h.size > h.maxSize then (.arr h c, false) else (.arr { h with isFinal := true } c, true)
/-- The first loop over the fields of a tuple, /repo/src/data_type_info.c:129-156, with
`is_variable_sized` and `prefix_bitmap_size_in_bits` so far: the fields, these two members and whether
the end of the loop was reached. -/
def finStAll : List (Fld × Dti) → Bool → Nat → List (Fld × Dti) × Bool × Nat × Bool
  | [], v, b => ([], v, b, true)
  | (f, t) :: r, v, b =>
    let (t, ok) := finSt t
    if !ok then ((f, t) :: r, v, b, false)
    else
      let f1 := if t.needsValid then { f with vbit := b } else f
      let b1 := if t.needsValid then b + 1 else b
      let f2 := if t.isBit then { f1 with off := b1 } else f1
      let b2 := if t.isBit then b1 + t.hdr.size else b1
      let (r, v, b, ok) := finStAll r (v || t.isVar) b2
      ((f2, t) :: r, v, b, ok)
end

/-! ### It agrees with `finalize` -/

theorem finSt_str (b : Bool) (h : Hdr) :
    (∀ d', finalize (.str b h) = some d' → finSt (.str b h) = (d', true)) ∧
    (finalize (.str b h) = none → (finSt (.str b h)).2 = false) := by
  simp only [finalize, finSt, finStr]
  cases h.isFinal with
  | true => simp
  | false =>
    cases h.varCount with
    | true => by_cases hm : vsz h.maxSize > h.maxSize <;> simp [hm]
    | false => by_cases hm : h.count = 0 <;> simp [hm]

theorem finStAll_spec {fs : List (Fld × Dti)}
    (ih : ∀ f t, (f, t) ∈ fs → (∀ d', finalize t = some d' → finSt t = (d', true)) ∧ (finalize t = none → (finSt t).2 = false)) :
    ∀ v b, (∀ gs, finalizeAll fs = some gs →
      finStAll fs v b = ((assignBits b gs).1, v || gs.any (fun p => p.2.isVar), (assignBits b gs).2, true)) ∧
    (finalizeAll fs = none → (finStAll fs v b).2.2.2 = false) := by
  induction fs with
  | nil => intro v b; simp [finalizeAll, finStAll, assignBits]
  | cons x r ihr =>
    obtain ⟨f, t⟩ := x
    intro v b
    obtain ⟨h1, h2⟩ := ih f t (by simp)
    have ihr := ihr (fun f t hm => ih f t (by simp [hm]))
    simp only [finalizeAll, Option.bind_eq_bind, Option.pure_def]
    cases ht : finalize t with
    | none => simp [finStAll, h2 ht]
    | some t' =>
      simp only [finStAll, h1 t' ht, Bool.not_true, Bool.false_eq_true, if_false, Option.bind_some]
      obtain ⟨k1, k2⟩ := ihr (v || t'.isVar) (if t'.isBit = true then (if t'.needsValid = true then b + 1 else b) + t'.hdr.size
        else if t'.needsValid = true then b + 1 else b)
      cases hr : finalizeAll r with
      | none => simp [k2 hr]
      | some r' =>
        simp only [Option.bind_some, Option.some.injEq, reduceCtorEq, false_implies, and_true]
        rintro gs rfl
        rw [k1 r' hr]
        simp only [assignBits, List.any_cons, Bool.or_assoc]

theorem finSt_spec : ∀ d : Dti, (∀ d', finalize d = some d' → finSt d = (d', true)) ∧ (finalize d = none → (finSt d).2 = false) := by
  intro d
  induction d using Dti.ind with
  | hp k h =>
    simp only [finalize, finSt]
    cases h.isFinal with
    | true => simp
    | false =>
      simp only [Bool.false_eq_true, if_false]
      cases finPrim k h <;> simp
  | hs b h => exact finSt_str b h
  | ht h fs ih =>
    simp only [finalize, finSt]
    cases h.isFinal with
    | true => simp
    | false =>
      by_cases h0 : h.count = 0
      · simp [h0]
      · simp only [Bool.false_eq_true, if_false, if_neg h0]
        obtain ⟨k1, k2⟩ := finStAll_spec ih false 0
        cases hf : finalizeAll fs with
        | none => simp [k2 hf]
        | some gs =>
          simp only [k1 gs hf, Bool.false_or, Bool.not_true, Bool.false_eq_true, if_false, Option.bind_eq_bind, Option.bind_some, finTup]
          by_cases hv : (gs.any (fun p => p.2.isVar) &&
            decide ((assignOffs (vsz h.maxSize) (w32 ((if gs.any (fun p => p.2.isVar) then vsz h.maxSize else 0) +
              bitmapBytes (assignBits 0 gs).2)) (assignBits 0 gs).1).2 > h.maxSize)) = true
          · simp only [hv, if_true]; simp
          · simp only [hv, Bool.false_eq_true, if_false]; simp
  | ha h c ih =>
    unfold finalize finSt
    by_cases hh : h.isFinal = true
    · rw [if_pos hh, if_pos hh]; simp
    · rw [if_neg hh, if_neg hh]
      cases hc : finalize c with
      | none => simp [ih.2 hc]
      | some c' =>
        rw [ih.1 c' hc]
        simp only [Bool.not_true, Bool.false_eq_true, if_false, Option.bind_eq_bind, Option.bind_some, finArr, finArrSize]
        split
        · simp
        · split
          · simp only [Option.some.injEq, reduceCtorEq, false_implies, and_true]
            rintro d' rfl; rfl
          · split
            · simp only [reduceCtorEq, false_implies, implies_true, true_and, true_implies]
              rw [if_pos (by assumption)]
            · simp only [Option.some.injEq, reduceCtorEq, false_implies, and_true]
              rintro d' rfl
              rw [if_neg (by assumption)]
              rfl

theorem finSt_refused {d : Dti} (h : (finSt d).2 = false) : (finSt d).1.hdr.isFinal = false := by
  cases d with
  | prim k h0 =>
    simp only [finSt] at h ⊢
    split at h
    · cases h
    · rw [if_neg (by assumption)]
      split at h
      · cases h
      · rename_i hh _ _; simpa [hdr] using hh
  | str b h0 =>
    simp only [finSt] at h ⊢
    split at h
    · cases h
    · rename_i hh
      rw [if_neg hh]
      split at h
      · rename_i h1; rw [if_pos h1]; simpa [hdr] using hh
      · rename_i h1
        rw [if_neg h1]
        split at h
        · rename_i h2
          rw [if_pos h2]
          split at h
          · rename_i h3; rw [if_pos h3]; simpa [hdr] using hh
          · cases h
        · cases h
  | tup h0 fs =>
    simp only [finSt] at h ⊢
    split at h
    · cases h
    · rename_i hh
      rw [if_neg hh]
      split at h
      · rename_i h1; rw [if_pos h1]; simpa [hdr] using hh
      · rename_i h1
        rw [if_neg h1]
        split at h
        · rename_i h2
          rw [if_pos h2]; simpa [hdr] using hh
        · rename_i h2
          rw [if_neg h2]
          generalize assignOffs (vsz h0.maxSize) _ (finStAll fs false 0).1 = o at h ⊢
          split at h
          · rename_i h3; rw [if_pos h3]; simpa [hdr] using hh
          · cases h
  | arr h0 c =>
    simp only [finSt] at h ⊢
    split at h
    · cases h
    · rename_i hh
      rw [if_neg hh]
      split at h
      · rename_i h1; rw [if_pos h1]; simpa [hdr] using hh
      · rename_i h1
        rw [if_neg h1]
        split at h
        · rename_i h2
          rw [if_pos h2]; simpa [hdr] using hh
        · rename_i h2
          rw [if_neg h2]
          split at h
          · cases h
          · rename_i h3
            rw [if_neg h3]
            split at h
            · rename_i h4; rw [if_pos h4]; simpa [hdr] using hh
            · cases h

/-! ### The state after a refusal -/

/-- The members of a node that are declared and not computed agree, and neither node is finalised. -/
structure Kept (h h' : Hdr) : Prop where
  fin : h.isFinal = false
  fin' : h'.isFinal = false
  name : h'.name = h.name
  nullable : h'.nullable = h.nullable
  maxSize : h'.maxSize = h.maxSize
  count : h'.count = h.count

/-- `e` is, up to members that are never read, what `finalize_type_info` makes of `d`. -/
def Fini (d e : Dti) : Prop := ∃ d', finalize d = some d' ∧ Made e ∧ norm true e = norm true d'

mutual
/-- `e` is `d` after some calls of `finalize_type_info`: nodes are finalised, or not and declared as they were. -/
def Half : Dti → Dti → Prop
  | .prim k h, e => Fini (.prim k h) e ∨ e = .prim k h ∧ h.isFinal = false
  | .str b h, e => Fini (.str b h) e ∨ ∃ h', e = .str b h' ∧ Kept h h' ∧ h'.varCount = h.varCount
  | .tup h fs, e => Fini (.tup h fs) e ∨ ∃ h' gs, e = .tup h' gs ∧ Kept h h' ∧ Halfs fs gs
  | .arr h c, e => Fini (.arr h c) e ∨ ∃ h' c', e = .arr h' c' ∧ Kept h h' ∧ h'.varCount = h.varCount ∧ Half c c'
def Halfs : List (Fld × Dti) → List (Fld × Dti) → Prop
  | [], gs => gs = []
  | (f, t) :: r, gs => ∃ f' t' s, gs = (f', t') :: s ∧ f'.name = f.name ∧ Half t t' ∧ Halfs r s
end

theorem half_of_done {d e : Dti} (h : Fini d e) : Half d e := by
  cases d <;> (simp only [Half]; exact .inl h)

theorem Made.fix {d : Dti} (h : Made d) : finalize d = some d := final_finalize h.final

theorem Kept.refl {h : Hdr} (hf : h.isFinal = false) : Kept h h := ⟨hf, hf, rfl, rfl, rfl, rfl⟩

theorem half_refl {d : Dti} (h : Raw d) : Half d d := by
  induction h with
  | made h => exact half_of_done ⟨_, h.fix, h, rfl⟩
  | prim k h hf => exact .inr ⟨rfl, hf⟩
  | str b h hf => exact .inr ⟨h, rfl, .refl hf, rfl⟩
  | tup h fs hf hl hr ih =>
    refine .inr ⟨h, fs, rfl, .refl hf, ?_⟩
    clear hl hr
    induction fs with
    | nil => rfl
    | cons x r ihr =>
      obtain ⟨f, t⟩ := x
      exact ⟨f, t, r, rfl, rfl, ih f t (by simp), ihr (fun f t hm => ih f t (by simp [hm]))⟩
  | arr h c hf _ ih => exact .inr ⟨h, c, rfl, .refl hf, rfl, ih⟩

theorem halfs_length : ∀ {fs gs : List (Fld × Dti)}, Halfs fs gs → gs.length = fs.length
  | [], _, h => by simp only [Halfs] at h; subst h; rfl
  | (_, _) :: r, _, h => by
    simp only [Halfs] at h
    obtain ⟨f', t', s, rfl, _, _, h⟩ := h
    simp [halfs_length h]

theorem halfs_get : ∀ {fs gs : List (Fld × Dti)}, Halfs fs gs → ∀ (i : Nat) (f' : Fld) (t' : Dti), gs[i]? = some (f', t') →
    ∃ (f : Fld) (t : Dti), fs[i]? = some (f, t) ∧ f'.name = f.name ∧ Half t t'
  | [], _, h, i, f', t', hg => by simp only [Halfs] at h; subst h; simp at hg
  | (f, t) :: r, _, h, i, f', t', hg => by
    simp only [Halfs] at h
    obtain ⟨f1, t1, s, rfl, h1, h2, h3⟩ := h
    cases i with
    | zero => simp at hg; obtain ⟨rfl, rfl⟩ := hg; exact ⟨f, t, rfl, h1, h2⟩
    | succ i => simpa using halfs_get h3 i f' t' (by simpa using hg)

theorem raw_fields {h : Hdr} {fs : List (Fld × Dti)} (hr : Raw (.tup h fs)) (hf : h.isFinal = false) :
    fs.length = h.count ∧ ∀ f t, (f, t) ∈ fs → Raw t := by
  generalize he : Dti.tup h fs = e at hr
  cases hr with
  | made hm => subst he; exact absurd hm.final (by simp [hdr, hf])
  | tup => cases he; exact ⟨by assumption, by assumption⟩
  | _ => cases he

theorem raw_elem {h : Hdr} {c : Dti} (hr : Raw (.arr h c)) (hf : h.isFinal = false) : Raw c := by
  generalize he : Dti.arr h c = e at hr
  cases hr with
  | made hm => subst he; exact absurd hm.final (by simp [hdr, hf])
  | arr => cases he; assumption
  | _ => cases he

theorem half_raw : ∀ {d e : Dti}, Raw d → Half d e → Raw e := by
  intro d
  induction d using Dti.ind with
  | hp k h =>
    intro e hr hh
    rcases hh with ⟨_, _, hm, _⟩ | ⟨rfl, hf⟩
    · exact .made hm
    · exact hr
  | hs b h =>
    intro e hr hh
    rcases hh with ⟨_, _, hm, _⟩ | ⟨h', rfl, hk, _⟩
    · exact .made hm
    · exact .str _ _ hk.fin'
  | ht h fs ih =>
    intro e hr hh
    simp only [Half] at hh
    rcases hh with ⟨_, _, hm, _⟩ | ⟨h', gs, rfl, hk, hs⟩
    · exact .made hm
    · obtain ⟨hl, hr⟩ := raw_fields hr hk.fin
      refine .tup _ _ hk.fin' (by rw [halfs_length hs, hl, hk.count]) ?_
      intro f' t' hm
      obtain ⟨i, hi⟩ := List.mem_iff_getElem?.mp hm
      obtain ⟨f, t, k1, k2, k3⟩ := halfs_get hs i f' t' hi
      have hm := List.mem_iff_getElem?.mpr ⟨i, k1⟩
      exact ih f t hm (hr f t hm) k3
  | ha h c ih =>
    intro e hr hh
    simp only [Half] at hh
    rcases hh with ⟨_, _, hm, _⟩ | ⟨h', c', rfl, hk, _, hs⟩
    · exact .made hm
    · exact .arr _ _ hk.fin' (ih (raw_elem hr hk.fin) hs)

/-- Finalising both comes to the same. -/
def Agree (d e : Dti) : Prop :=
  (∀ d', finalize d = some d' → ∃ e', finalize e = some e' ∧ norm true e' = norm true d') ∧
  (∀ e', finalize e = some e' → ∃ d', finalize d = some d' ∧ norm true e' = norm true d')

theorem Fini.agree {d e : Dti} (h : Fini d e) : Agree d e := by
  obtain ⟨d', h1, h2, h3⟩ := h
  constructor
  · intro x hx; rw [h1] at hx; cases hx; exact ⟨e, h2.fix, h3⟩
  · intro x hx; rw [h2.fix] at hx; cases hx; exact ⟨d', h1, h3⟩

theorem halfs_finalizeAll {fs gs : List (Fld × Dti)} (ih : ∀ f t, (f, t) ∈ fs → ∀ {e}, Half t e → Agree t e) (h : Halfs fs gs) :
    (∀ fs', finalizeAll fs = some fs' → ∃ gs', finalizeAll gs = some gs' ∧ All2 (Alike true) fs' gs') ∧
    (∀ gs', finalizeAll gs = some gs' → ∃ fs', finalizeAll fs = some fs' ∧ All2 (Alike true) gs' fs') := by
  induction fs generalizing gs with
  | nil => simp only [Halfs] at h; subst h; simp [finalizeAll]; exact .nil
  | cons x r ihr =>
    obtain ⟨f, t⟩ := x
    simp only [Halfs] at h
    obtain ⟨f1, t1, s, rfl, h1, h2, h3⟩ := h
    obtain ⟨a1, a2⟩ := ih f t (by simp) h2
    obtain ⟨b1, b2⟩ := ihr (fun f t hm => ih f t (by simp [hm])) h3
    simp only [finalizeAll, Option.bind_eq_bind, Option.bind_eq_some_iff, Option.pure_def, Option.some.injEq]
    constructor
    · rintro fs' ⟨t', k1, r', k2, rfl⟩
      obtain ⟨t2, c1, c2⟩ := a1 t' k1
      obtain ⟨r2, c3, c4⟩ := b1 r' k2
      exact ⟨_, ⟨t2, c1, r2, c3, rfl⟩, .cons ⟨by simp [h1], c2.symm⟩ c4⟩
    · rintro fs' ⟨t', k1, r', k2, rfl⟩
      obtain ⟨t2, c1, c2⟩ := a2 t' k1
      obtain ⟨r2, c3, c4⟩ := b2 r' k2
      exact ⟨_, ⟨t2, c1, r2, c3, rfl⟩, .cons ⟨by simp [h1], c2⟩ c4⟩

theorem finStr_alike {b : Bool} {h h' : Hdr} {x : Dti} (hk : Kept h h') (hv : h'.varCount = h.varCount) (hf : finStr b h = some x) :
    ∃ y, finStr b h' = some y ∧ norm true y = norm true x := by
  unfold finStr at hf ⊢
  rw [hv, hk.count, hk.maxSize]
  split at hf
  · cases hf
  · rename_i h1
    rw [if_neg h1]
    split at hf
    · rename_i h2
      rw [if_pos h2]
      split at hf
      · cases hf
      · rename_i h3
        rw [if_neg h3]
        cases hf
        exact ⟨_, rfl, by simp [norm, nHdr, hk.name]⟩
    · rename_i h2
      rw [if_neg h2]
      cases hf
      exact ⟨_, rfl, by simp [norm, nHdr, hk.name, hk.nullable]⟩

theorem Kept.symm {h h' : Hdr} (hk : Kept h h') : Kept h' h :=
  ⟨hk.fin', hk.fin, hk.name.symm, hk.nullable.symm, hk.maxSize.symm, hk.count.symm⟩

theorem half_agree : ∀ {d e : Dti}, Half d e → Agree d e := by
  intro d
  induction d using Dti.ind with
  | hp k h =>
    intro e hh
    rcases hh with hh | ⟨rfl, hf⟩
    · exact hh.agree
    · exact ⟨fun x hx => ⟨x, hx, rfl⟩, fun x hx => ⟨x, hx, rfl⟩⟩
  | hs b h =>
    intro e hh
    rcases hh with hh | ⟨h', rfl, hk, hv⟩
    · exact hh.agree
    · simp only [Agree, finalize, hk.fin, hk.fin', Bool.false_eq_true, if_false]
      constructor
      · intro x hx; exact finStr_alike hk hv hx
      · intro x hx
        obtain ⟨y, k1, k2⟩ := finStr_alike hk.symm hv.symm hx
        exact ⟨y, k1, k2.symm⟩
  | ht h fs ih =>
    intro e hh
    simp only [Half] at hh
    rcases hh with hh | ⟨h', gs, rfl, hk, hs⟩
    · exact hh.agree
    · obtain ⟨a1, a2⟩ := halfs_finalizeAll ih hs
      simp only [Agree, finalize, hk.fin, hk.fin', hk.count, Bool.false_eq_true, if_false]
      by_cases h0 : h.count = 0
      · simp [h0]
      · simp only [if_neg h0, Option.bind_eq_bind, Option.bind_eq_some_iff]
        constructor
        · rintro d' ⟨fs', k1, k2⟩
          obtain ⟨gs', k3, k4⟩ := a1 fs' k1
          obtain ⟨e', k5, k6⟩ := finTup_alike (h2 := h') k4 (by rw [hk.name]) hk.count.symm (fun _ => hk.nullable.symm)
            (fun _ => hk.maxSize.symm) k2
          exact ⟨e', ⟨gs', k3, k5⟩, k6⟩
        · rintro d' ⟨fs', k1, k2⟩
          obtain ⟨gs', k3, k4⟩ := a2 fs' k1
          obtain ⟨e', k5, k6⟩ := finTup_alike (h2 := h) k4 (by rw [hk.name]) hk.count (fun _ => hk.nullable)
            (fun _ => hk.maxSize) k2
          exact ⟨e', ⟨gs', k3, k5⟩, k6.symm⟩
  | ha h c ih =>
    intro e hh
    simp only [Half] at hh
    rcases hh with hh | ⟨h', c', rfl, hk, hv, hs⟩
    · exact hh.agree
    · obtain ⟨a1, a2⟩ := ih hs
      simp only [Agree, finalize, hk.fin, hk.fin', Bool.false_eq_true, if_false, Option.bind_eq_bind, Option.bind_eq_some_iff]
      constructor
      · rintro d' ⟨x, k1, k2⟩
        obtain ⟨y, k3, k4⟩ := a1 x k1
        obtain ⟨e', k5, k6⟩ := finArr_alike (h2 := h') k4.symm (by rw [hk.name]) hv.symm (fun _ => hk.count.symm)
          (fun _ => hk.nullable.symm) (fun _ => hk.maxSize.symm) k2
        exact ⟨e', ⟨y, k3, k5⟩, k6⟩
      · rintro d' ⟨x, k1, k2⟩
        obtain ⟨y, k3, k4⟩ := a2 x k1
        obtain ⟨e', k5, k6⟩ := finArr_alike (h2 := h) k4 (by rw [hk.name]) hv (fun _ => hk.count)
          (fun _ => hk.nullable) (fun _ => hk.maxSize) k2
        exact ⟨e', ⟨y, k3, k5⟩, k6.symm⟩

/-- Fields that differ in the computed members only. -/
theorem halfs_offs {fs gs : List (Fld × Dti)} (w : Nat) (h : Halfs fs gs) : ∀ s, Halfs fs (assignOffs w s gs).1 := by
  induction fs generalizing gs with
  | nil => intro s; simp only [Halfs] at h; subst h; rfl
  | cons x r ihr =>
    intro s
    obtain ⟨f, t⟩ := x
    simp only [Halfs] at h
    obtain ⟨f1, t1, g, rfl, h1, h2, h3⟩ := h
    unfold assignOffs
    split
    · exact ⟨f1, t1, _, rfl, h1, h2, ihr h3 _⟩
    · exact ⟨_, t1, _, rfl, h1, h2, ihr h3 _⟩

theorem halfs_try {fs gs : List (Fld × Dti)} (ih : ∀ f t, (f, t) ∈ fs → ∀ {e}, Raw e → Half t e → Half t (finSt e).1)
    (hr : ∀ f t, (f, t) ∈ gs → Raw t) (h : Halfs fs gs) : ∀ v b, Halfs fs (finStAll gs v b).1 := by
  induction fs generalizing gs with
  | nil => intro v b; simp only [Halfs] at h; subst h; rfl
  | cons x r ihr =>
    intro v b
    obtain ⟨f, t⟩ := x
    simp only [Halfs] at h
    obtain ⟨f1, t1, g, rfl, h1, h2, h3⟩ := h
    have h2 := ih f t (by simp) (hr f1 t1 (by simp)) h2
    unfold finStAll
    simp only []
    split
    · exact ⟨f1, _, g, rfl, h1, h2, h3⟩
    · refine ⟨_, _, _, rfl, ?_, h2, ihr (fun f t hm => ih f t (by simp [hm])) (fun f t hm => hr f t (by simp [hm])) h3 _ _⟩
      rw [← h1]
      repeat' split
      all_goals rfl

/-- A call of `finalize_type_info`, successful or not, leaves a type that finalises to the same as before. -/
theorem half_try : ∀ {d e : Dti}, Raw e → Half d e → Half d (finSt e).1 := by
  intro d
  induction d using Dti.ind with
  | hp k h =>
    intro e hr hh
    cases hf : finalize e with
    | some e' =>
      rw [(finSt_spec e).1 e' hf]
      obtain ⟨d', k1, k2⟩ := (half_agree hh).2 e' hf
      exact half_of_done ⟨d', k1, raw_finalize _ _ hr hf, k2⟩
    | none =>
      rcases hh with ⟨_, _, hm, _⟩ | ⟨rfl, hff⟩
      · rw [hm.fix] at hf; cases hf
      · simp only [finalize, hff, Bool.false_eq_true, if_false] at hf
        simp only [finSt, hff, Bool.false_eq_true, if_false, hf]
        exact .inr ⟨rfl, hff⟩
  | hs b h =>
    intro e hr hh
    cases hf : finalize e with
    | some e' =>
      rw [(finSt_spec e).1 e' hf]
      obtain ⟨d', k1, k2⟩ := (half_agree hh).2 e' hf
      exact half_of_done ⟨d', k1, raw_finalize _ _ hr hf, k2⟩
    | none =>
      rcases hh with ⟨_, _, hm, _⟩ | ⟨h', rfl, hk, hv⟩
      · rw [hm.fix] at hf; cases hf
      · have h2 := (finSt_spec _).2 hf
        obtain ⟨q1, q2, q3, q4, q5, q6⟩ := hk
        unfold finSt at h2 ⊢
        rw [if_neg (by simp [q2])] at h2 ⊢
        dsimp only at h2 ⊢
        split
        · exact .inr ⟨_, rfl, ⟨q1, q2, q3, q4, q5, q6⟩, hv⟩
        · rename_i c1
          rw [if_neg c1] at h2
          split
          · rename_i c2
            rw [if_pos c2] at h2
            split
            · exact .inr ⟨_, rfl, ⟨q1, q2, q3, q4, q5, q6⟩, hv⟩
            · rename_i c3; rw [if_neg c3] at h2; cases h2
          · rename_i c2; rw [if_neg c2] at h2; cases h2
  | ht h fs ih =>
    intro e hr hh
    cases hf : finalize e with
    | some e' =>
      rw [(finSt_spec e).1 e' hf]
      obtain ⟨d', k1, k2⟩ := (half_agree hh).2 e' hf
      exact half_of_done ⟨d', k1, raw_finalize _ _ hr hf, k2⟩
    | none =>
      simp only [Half] at hh ⊢
      rcases hh with ⟨_, _, hm, _⟩ | ⟨h', gs, rfl, hk, hs⟩
      · rw [hm.fix] at hf; cases hf
      · have h2 := (finSt_spec _).2 hf
        have hr := (raw_fields hr hk.fin').2
        obtain ⟨q1, q2, q3, q4, q5, q6⟩ := hk
        unfold finSt at h2 ⊢
        rw [if_neg (by simp [q2])] at h2 ⊢
        dsimp only at h2 ⊢
        have key := halfs_try ih hr hs false 0
        split
        · exact .inr ⟨_, _, rfl, ⟨q1, q2, q3, q4, q5, q6⟩, hs⟩
        · rename_i c1
          rw [if_neg c1] at h2
          split
          · exact .inr ⟨_, _, rfl, ⟨q1, q2, q3, q4, q5, q6⟩, key⟩
          · rename_i c2
            rw [if_neg c2] at h2
            have key := halfs_offs (vsz h'.maxSize) key (w32 ((if (finStAll gs false 0).2.1 then vsz h'.maxSize else 0) +
              bitmapBytes (finStAll gs false 0).2.2.1))
            generalize assignOffs (vsz h'.maxSize) _ (finStAll gs false 0).1 = o at h2 key ⊢
            split
            · exact .inr ⟨_, _, rfl, ⟨q1, q2, q3, q4, q5, q6⟩, key⟩
            · rename_i c3; rw [if_neg c3] at h2; cases h2
  | ha h c ih =>
    intro e hr hh
    cases hf : finalize e with
    | some e' =>
      rw [(finSt_spec e).1 e' hf]
      obtain ⟨d', k1, k2⟩ := (half_agree hh).2 e' hf
      exact half_of_done ⟨d', k1, raw_finalize _ _ hr hf, k2⟩
    | none =>
      simp only [Half] at hh ⊢
      rcases hh with ⟨_, _, hm, _⟩ | ⟨h', c', rfl, hk, hv, hs⟩
      · rw [hm.fix] at hf; cases hf
      · have h2 := (finSt_spec _).2 hf
        have key := ih (raw_elem hr hk.fin') hs
        obtain ⟨q1, q2, q3, q4, q5, q6⟩ := hk
        unfold finSt at h2 ⊢
        rw [if_neg (by simp [q2])] at h2 ⊢
        dsimp only at h2 ⊢
        split
        · exact .inr ⟨_, _, rfl, ⟨q1, q2, q3, q4, q5, q6⟩, hv, key⟩
        · rename_i c1
          rw [if_neg c1] at h2
          split
          · exact .inr ⟨_, _, rfl, ⟨q1, q2, q3, q4, q5, q6⟩, hv, key⟩
          · rename_i c2
            rw [if_neg c2] at h2
            split
            · rename_i c3; rw [if_pos c3] at h2; cases h2
            · rename_i c3
              rw [if_neg c3] at h2
              split
              · exact .inr ⟨_, _, rfl, ⟨q1, q2, q3, q4, q5, q6⟩, hv, key⟩
              · rename_i c4; rw [if_neg c4] at h2; cases h2

/-! ### Corrections -/

/-- What a user can write into a type: the members that are declared. -/
structure Change where
  name : Bytes
  nullable : Bool
  size : Nat
  maxSize : Nat
  varCount : Bool
  count : Nat

/-- The declared members of a node are written; those that the kind of the type does not have stay. -/
def setDecl (c : Change) : Dti → Dti
  | .prim k h => .prim k { h with name := c.name, nullable := c.nullable, size := c.size }
  | .str b h => .str b { h with name := c.name, nullable := c.nullable, maxSize := c.maxSize, varCount := c.varCount, count := c.count }
  | .tup h fs => .tup { h with name := c.name, nullable := c.nullable, maxSize := c.maxSize } fs
  | .arr h x => .arr { h with name := c.name, nullable := c.nullable, maxSize := c.maxSize, varCount := c.varCount, count := c.count } x

/-- Applies `g` to the node at a position: the index of a field, or any number for the containee of an array. -/
def atNode (g : Dti → Dti) : List Nat → Dti → Dti
  | [], d => g d
  | i :: p, .tup h fs => .tup h (fs.modify i fun x => (x.1, atNode g p x.2))
  | _ :: p, .arr h c => .arr h (atNode g p c)
  | _ :: _, d => d

/-- There is a node at the position, it satisfies `P`, and no node above it is finalised. -/
def Free (P : Dti → Prop) : List Nat → Dti → Prop
  | [], d => P d
  | i :: p, .tup h fs => h.isFinal = false ∧ ∃ x, fs[i]? = some x ∧ Free P p x.2
  | _ :: p, .arr h c => h.isFinal = false ∧ Free P p c
  | _ :: _, _ => False

/-- Something done to a type before it is used: an attempt to finalise it, a change of the declared members of a node, or another
type in place of a node. -/
inductive Act where
  | attempt
  | change (p : List Nat) (c : Change)
  | replace (p : List Nat) (t : Dti)

def Act.run : Act → Dti → Dti
  | .attempt, d => (finSt d).1
  | .change p c, d => atNode (setDecl c) p d
  | .replace p t, d => atNode (fun _ => t) p d

/-- The same without the attempts. -/
def Act.skip : Act → Dti → Dti
  | .attempt, d => d
  | .change p c, d => atNode (setDecl c) p d
  | .replace p t, d => atNode (fun _ => t) p d

/-- Nothing in a finalised node is changed. -/
def Act.Allowed : Act → Dti → Prop
  | .attempt, _ => True
  | .change p _, d => Free (fun x => x.hdr.isFinal = false) p d
  | .replace p t, d => Free (fun _ => True) p d ∧ Raw t

def runActs : List Act → Dti → Dti
  | [], d => d
  | a :: r, d => runActs r (a.run d)

def skipActs : List Act → Dti → Dti
  | [], d => d
  | a :: r, d => skipActs r (a.skip d)

def AllowedActs : List Act → Dti → Prop
  | [], _ => True
  | a :: r, d => a.Allowed d ∧ AllowedActs r (a.run d)

theorem halfs_modify {g1 g2 : Fld × Dti → Fld × Dti} : ∀ {fs gs : List (Fld × Dti)} (i : Nat), Halfs fs gs →
    (∀ x y, fs[i]? = some x → gs[i]? = some y → (g2 y).1.name = (g1 x).1.name ∧ Half (g1 x).2 (g2 y).2) →
    Halfs (fs.modify i g1) (gs.modify i g2)
  | [], _, i, h, _ => by simp only [Halfs] at h; subst h; simp [Halfs]
  | (f, t) :: r, _, i, h, hg => by
    simp only [Halfs] at h
    obtain ⟨f1, t1, s, rfl, h1, h2, h3⟩ := h
    cases i with
    | zero =>
      obtain ⟨k1, k2⟩ := hg (f, t) (f1, t1) rfl rfl
      simp only [List.modify_zero_cons]
      exact ⟨_, _, s, rfl, k1, k2, h3⟩
    | succ i =>
      simp only [List.modify_succ_cons]
      exact ⟨f1, t1, _, rfl, h1, h2, halfs_modify i h3 (fun x y hx hy => hg x y (by simpa using hx) (by simpa using hy))⟩

theorem half_at {P : Dti → Prop} {g : Dti → Dti} (hg : ∀ {a b}, Half a b → Raw a → Raw b → P b → Half (g a) (g b) ∧ Raw (g a) ∧ Raw (g b)) :
    ∀ (p : List Nat) {d e : Dti}, Half d e → Raw d → Raw e → Free P p e → Half (atNode g p d) (atNode g p e) ∧ Raw (atNode g p d) ∧ Raw (atNode g p e)
  | [], d, e, h, hd, he, hp => hg h hd he hp
  | i :: p, d, e, h, hd, he, hp => by
    have notDone : ∀ {d e : Dti}, Fini d e → e.hdr.isFinal = false → False := by
      rintro d e ⟨_, _, hm, _⟩ hf
      rw [hm.final] at hf; cases hf
    cases e with
    | prim => exact hp.elim
    | str => exact hp.elim
    | tup h' gs =>
      obtain ⟨hf, ⟨f', t'⟩, hx, hp⟩ := hp
      cases d with
      | prim k h0 =>
        rcases h with h | ⟨h, _⟩
        · exact (notDone h hf).elim
        · cases h
      | str b h0 =>
        rcases h with h | ⟨_, h, _⟩
        · exact (notDone h hf).elim
        · cases h
      | arr h0 c =>
        simp only [Half] at h
        rcases h with h | ⟨_, _, h, _⟩
        · exact (notDone h hf).elim
        · cases h
      | tup h0 fs =>
        simp only [Half] at h
        rcases h with h | ⟨_, _, h, hk, hs⟩
        · exact (notDone h hf).elim
        · cases h
          obtain ⟨f, t, k1, k2, k3⟩ := halfs_get hs i f' t' hx
          obtain ⟨l1, r1⟩ := raw_fields hd hk.fin
          obtain ⟨l2, r2⟩ := raw_fields he hk.fin'
          have m1 := r1 f t (List.mem_iff_getElem?.mpr ⟨i, k1⟩)
          have m2 := r2 f' t' (List.mem_iff_getElem?.mpr ⟨i, hx⟩)
          obtain ⟨a1, a2, a3⟩ := half_at hg p k3 m1 m2 hp
          have raw : ∀ (l : List (Fld × Dti)) f t, l[i]? = some (f, t) → (∀ f t, (f, t) ∈ l → Raw t) → Raw (atNode g p t) →
              ∀ f2 t2, (f2, t2) ∈ (l.modify i fun x => (x.1, atNode g p x.2)) → Raw t2 := by
            intro l f t hl hr hn f2 t2 hm
            obtain ⟨j, hj⟩ := List.mem_iff_getElem?.mp hm
            rw [List.getElem?_modify] at hj
            by_cases hij : i = j
            · subst hij
              simp only [hl, if_true] at hj
              cases hj
              exact hn
            · simp only [hij, if_false] at hj
              exact hr f2 t2 (List.mem_iff_getElem?.mpr ⟨j, by simpa using hj⟩)
          simp only [atNode]
          refine ⟨?_, .tup _ _ hk.fin (by simpa using l1) (raw fs f t k1 r1 a2), .tup _ _ hk.fin' (by simpa using l2) (raw gs f' t' hx r2 a3)⟩
          simp only [Half]
          refine .inr ⟨_, _, rfl, hk, halfs_modify i hs ?_⟩
          intro x y hx' hy
          rw [k1] at hx'; rw [hx] at hy; cases hx'; cases hy
          exact ⟨k2, a1⟩
    | arr h' c' =>
      obtain ⟨hf, hp⟩ := hp
      cases d with
      | prim k h0 =>
        rcases h with h | ⟨h, _⟩
        · exact (notDone h hf).elim
        · cases h
      | str b h0 =>
        rcases h with h | ⟨_, h, _⟩
        · exact (notDone h hf).elim
        · cases h
      | tup h0 c =>
        simp only [Half] at h
        rcases h with h | ⟨_, _, h, _⟩
        · exact (notDone h hf).elim
        · cases h
      | arr h0 c =>
        simp only [Half] at h
        rcases h with h | ⟨_, _, h, hk, hv, hs⟩
        · exact (notDone h hf).elim
        · cases h
          obtain ⟨a1, a2, a3⟩ := half_at hg p hs (raw_elem hd hk.fin) (raw_elem he hk.fin') hp
          simp only [atNode]
          refine ⟨?_, .arr _ _ hk.fin a2, .arr _ _ hk.fin' a3⟩
          simp only [Half]
          exact .inr ⟨_, _, rfl, hk, hv, a1⟩

theorem half_set (c : Change) {a b : Dti} (h : Half a b) (ha : Raw a) (hb : Raw b) (hf : b.hdr.isFinal = false) :
    Half (setDecl c a) (setDecl c b) ∧ Raw (setDecl c a) ∧ Raw (setDecl c b) := by
  have notDone : ¬ Fini a b := by
    rintro ⟨_, _, hm, _⟩
    rw [hm.final] at hf; cases hf
  cases a with
  | prim k h0 =>
    rcases h with h | ⟨rfl, h1⟩
    · exact (notDone h).elim
    · exact ⟨.inr ⟨rfl, h1⟩, .prim _ _ h1, .prim _ _ h1⟩
  | str k h0 =>
    rcases h with h | ⟨h', rfl, hk, hv⟩
    · exact (notDone h).elim
    · exact ⟨.inr ⟨_, rfl, ⟨hk.fin, hk.fin', rfl, rfl, rfl, rfl⟩, rfl⟩, .str _ _ hk.fin, .str _ _ hk.fin'⟩
  | tup h0 fs =>
    simp only [Half] at h
    rcases h with h | ⟨h', gs, rfl, hk, hs⟩
    · exact (notDone h).elim
    · obtain ⟨l1, r1⟩ := raw_fields ha hk.fin
      obtain ⟨l2, r2⟩ := raw_fields hb hk.fin'
      refine ⟨?_, .tup _ _ hk.fin l1 r1, .tup _ _ hk.fin' l2 r2⟩
      simp only [setDecl, Half]
      exact .inr ⟨_, _, rfl, ⟨hk.fin, hk.fin', rfl, rfl, rfl, hk.count⟩, hs⟩
  | arr h0 x =>
    simp only [Half] at h
    rcases h with h | ⟨h', y, rfl, hk, hv, hs⟩
    · exact (notDone h).elim
    · refine ⟨?_, .arr _ _ hk.fin (raw_elem ha hk.fin), .arr _ _ hk.fin' (raw_elem hb hk.fin')⟩
      simp only [setDecl, Half]
      exact .inr ⟨_, _, rfl, ⟨hk.fin, hk.fin', rfl, rfl, rfl, rfl⟩, rfl, hs⟩

theorem half_acts : ∀ (as : List Act) {d e : Dti}, Half d e → Raw d → Raw e → AllowedActs as e →
    Half (skipActs as d) (runActs as e) ∧ Raw (skipActs as d) ∧ Raw (runActs as e)
  | [], _, _, h, hd, he, _ => ⟨h, hd, he⟩
  | a :: as, d, e, h, hd, he, ⟨ha, hr⟩ => by
    have : Half (a.skip d) (a.run e) ∧ Raw (a.skip d) ∧ Raw (a.run e) := by
      cases a with
      | attempt =>
        have := half_try he h
        exact ⟨this, hd, half_raw hd this⟩
      | change p c => exact half_at (fun h a b c' => half_set c h a b c') p h hd he ha
      | replace p t => exact half_at (fun _ _ _ _ => ⟨half_refl ha.2, ha.2, ha.2⟩) p h hd he ha.1
    exact half_acts as this.1 this.2.1 this.2.2 hr

end Dti
end TS
