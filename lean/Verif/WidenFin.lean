import Verif.Widen
/-
Finalising a type with raised maximum sizes.
-/
namespace TS
namespace Dti

/-- Fields of widened types. -/
inductive FW : List (Fld × Dti) → List (Fld × Dti) → Prop
  | nil : FW [] []
  | cons {f f' t t' r r'} : f'.off = f.off → f'.vbit = f.vbit → Widens t t' → FW r r' → FW ((f, t) :: r) ((f', t') :: r')

namespace FW

variable {fs fs' : List (Fld × Dti)}

theorem length (h : FW fs fs') : fs.length = fs'.length := by
  induction h with
  | nil => rfl
  | cons _ _ _ _ ih => simp [ih]

theorem get (h : FW fs fs') : ∀ (i : Nat) f t f' t', fs[i]? = some (f, t) → fs'[i]? = some (f', t') →
    f'.off = f.off ∧ f'.vbit = f.vbit ∧ Widens t t' := by
  induction h with
  | nil => intro i f t f' t' h; simp at h
  | cons h1 h2 h3 _ ih =>
    intro i f t f' t' e1 e2
    cases i with
    | zero => simp at e1 e2; obtain ⟨rfl, rfl⟩ := e1; obtain ⟨rfl, rfl⟩ := e2; exact ⟨h1, h2, h3⟩
    | succ i => exact ih i f t f' t' (by simpa using e1) (by simpa using e2)

theorem tup {g g' : Hdr} (hg : HW g g') (h : FW fs fs') : Widens (.tup g fs) (.tup g' fs') :=
  .tup hg h.length (fun i _ _ _ _ e1 e2 => (h.get i _ _ _ _ e1 e2).1) (fun i _ _ _ _ e1 e2 => (h.get i _ _ _ _ e1 e2).2.1)
    (fun i _ _ _ _ e1 e2 => (h.get i _ _ _ _ e1 e2).2.2)

theorem of : ∀ {fs fs' : List (Fld × Dti)}, fs.length = fs'.length →
    (∀ (i : Nat) f t f' t', fs[i]? = some (f, t) → fs'[i]? = some (f', t') → f'.off = f.off) →
    (∀ (i : Nat) f t f' t', fs[i]? = some (f, t) → fs'[i]? = some (f', t') → f'.vbit = f.vbit) →
    (∀ (i : Nat) f t f' t', fs[i]? = some (f, t) → fs'[i]? = some (f', t') → Widens t t') → FW fs fs' := by
  intro fs
  induction fs with
  | nil => intro fs' hl _ _ _; cases fs' with
    | nil => exact .nil
    | cons => simp at hl
  | cons p r ih =>
    intro fs' hl h1 h2 h3
    cases fs' with
    | nil => simp at hl
    | cons q r' =>
      obtain ⟨f, t⟩ := p
      obtain ⟨f', t'⟩ := q
      refine .cons (h1 0 f t f' t' rfl rfl) (h2 0 f t f' t' rfl rfl) (h3 0 f t f' t' rfl rfl) (ih (by simpa using hl) ?_ ?_ ?_)
      · intro i _ _ _ _ e1 e2; exact h1 (i + 1) _ _ _ _ (by simpa using e1) (by simpa using e2)
      · intro i _ _ _ _ e1 e2; exact h2 (i + 1) _ _ _ _ (by simpa using e1) (by simpa using e2)
      · intro i _ _ _ _ e1 e2; exact h3 (i + 1) _ _ _ _ (by simpa using e1) (by simpa using e2)

theorem any (h : FW fs fs') : fs'.any (fun p => p.2.isVar) = fs.any (fun p => p.2.isVar) := by
  induction h with
  | nil => rfl
  | cons _ _ ht _ ih => simp only [List.any_cons, ih, ht.isVar]

theorem assignBits (h : FW fs fs') : ∀ b, FW (Dti.assignBits b fs).1 (Dti.assignBits b fs').1 ∧
    (Dti.assignBits b fs').2 = (Dti.assignBits b fs).2 := by
  induction h with
  | nil => intro b; exact ⟨.nil, rfl⟩
  | cons h1 h2 ht _ ih =>
    intro b
    simp only [Dti.assignBits, ht.needsValid, ht.isBit, ht.size]
    refine ⟨.cons ?_ ?_ ht (ih _).1, (ih _).2⟩ <;> grind

theorem assignOffs (w : Nat) (h : FW fs fs') : ∀ s, FW (Dti.assignOffs w s fs).1 (Dti.assignOffs w s fs').1 ∧
    (Dti.assignOffs w s fs').2 = (Dti.assignOffs w s fs).2 := by
  induction h with
  | nil => intro b; exact ⟨.nil, rfl⟩
  | cons h1 h2 ht _ ih =>
    intro s
    simp only [Dti.assignOffs, ht.isVar, ht.isBit, ht.size]
    split
    · exact ⟨.cons h1 h2 ht (ih _).1, (ih _).2⟩
    · exact ⟨.cons rfl h2 ht (ih _).1, (ih _).2⟩

end FW

theorem finPrim_widen {k : PKind} {g g' : Hdr} (h : HW g g') {d : Dti} (hf : finPrim k g = some d) :
    ∃ e, finPrim k g' = some e ∧ Widens d e := by
  cases k <;> simp only [finPrim, h.size, Option.ite_none_right_eq_some] at hf ⊢ <;>
    exact ⟨_, ⟨hf.1, rfl⟩, by
      rw [← Option.some.inj hf.2]
      exact .prim ⟨rfl, h.nullable, rfl, rfl, h.varCount, h.count, h.bits, h.le, h.w⟩⟩

theorem finStr_widen {b : Bool} {g g' : Hdr} (h : HW g g') {d : Dti} (hf : finStr b g = some d) :
    ∃ e, finStr b g' = some e ∧ Widens d e := by
  unfold finStr at hf ⊢
  rw [h.varCount, h.count, h.w]
  split at hf
  · cases hf
  · rename_i h1
    rw [if_neg h1]
    split at hf
    · rename_i h2
      split at hf
      · cases hf
      · rename_i h3
        rw [if_pos h2, if_neg (by have := h.le; omega)]
        cases hf
        exact ⟨_, rfl, .str ⟨rfl, h.nullable, rfl, rfl, rfl, rfl, rfl, h.le, h.w⟩⟩
    · rename_i h2
      rw [if_neg h2]
      cases hf
      exact ⟨_, rfl, .str ⟨rfl, h.nullable, rfl, rfl, rfl, rfl, rfl, h.le, h.w⟩⟩

theorem finTup_widen {g g' : Hdr} {fs fs' : List (Fld × Dti)} (h : HW g g') (hfs : FW fs fs') {d : Dti}
    (hf : finTup g fs = some d) : ∃ e, finTup g' fs' = some e ∧ Widens d e := by
  simp only [finTup] at hf ⊢
  have hb := hfs.assignBits 0
  rw [hfs.any, h.w, hb.2]
  generalize (fs.any fun p => p.2.isVar) = v at hf ⊢
  generalize w32 ((if v = true then vsz g.maxSize else 0) + bitmapBytes (assignBits 0 fs).2) = s0 at hf ⊢
  have ho := hb.1.assignOffs (vsz g.maxSize) s0
  rw [ho.2]
  split at hf
  · cases hf
  · rename_i hc
    rw [if_neg (by
      intro hh; apply hc
      simp only [Bool.and_eq_true, decide_eq_true_eq] at hh ⊢
      exact ⟨hh.1, by have := h.le; omega⟩)]
    rw [← Option.some.inj hf]
    exact ⟨_, rfl, ho.1.tup ⟨rfl, h.nullable, rfl, rfl, rfl, h.count, rfl, h.le, h.w⟩⟩

theorem finArrSize_widen {k k' : Hdr} {c c' : Dti} (hh : HW k k') (hc : Widens c c') {d : Dti}
    (hf : finArrSize k c = some d) : ∃ e, finArrSize k' c' = some e ∧ Widens d e := by
  have hm : arrMin k' c' = arrMin k c := by
    simp only [arrMin, (Widens.arr hh hc).offBitmap, hh.varCount, hh.count, hc.isBit, hc.needsValid, hc.size, hc.isVar, hh.w]
  have hz : arrSize k' c' = arrSize k c := by
    simp only [arrSize, hh.bits, hh.count, hc.isBit, hc.size]
  simp only [finArrSize, hm, hz, hh.isVar] at hf ⊢
  have hle := hh.le
  split at hf
  · rename_i h2
    rw [if_pos h2]
    cases hf
    exact ⟨_, rfl, .arr ⟨rfl, hh.nullable, rfl, rfl, hh.varCount, hh.count, hh.bits, hh.le, hh.w⟩ hc⟩
  · rename_i h2
    rw [if_neg h2]
    split at hf
    · cases hf
    · rename_i h3
      rw [if_neg (by omega)]
      cases hf
      exact ⟨_, rfl, .arr ⟨rfl, hh.nullable, rfl, rfl, hh.varCount, hh.count, hh.bits, hh.le, hh.w⟩ hc⟩

theorem finArr_widen {g g' : Hdr} {c c' : Dti} (h : HW g g') (hc : Widens c c') {d : Dti}
    (hf : finArr g c = some d) : ∃ e, finArr g' c' = some e ∧ Widens d e := by
  have hb : arrBits g' c' = arrBits g c := by
    simp only [arrBits, h.varCount, h.bits, h.count, hc.isBit, hc.needsValid, hc.size, hc.isVar]
  unfold finArr at hf ⊢
  split at hf
  · cases hf
  · rename_i h1
    rw [if_neg (by rw [h.varCount, h.count]; exact h1)]
    refine finArrSize_widen ?_ hc hf
    refine ⟨h.isFinal, h.nullable, ?_, h.size, h.varCount, h.count, hb, h.le, h.w⟩
    show (g'.varCount || c'.isVar) = (g.varCount || c.isVar)
    rw [h.varCount, hc.isVar]

theorem finalize_widen : ∀ (d : Dti) {e d' : Dti}, Widens d e → finalize d = some d' →
    ∃ e', finalize e = some e' ∧ Widens d' e' := by
  refine ind ?_ ?_ ?_ ?_
  · intro k g e d' he hf
    cases he with
    | prim h =>
      rw [finalize] at hf ⊢
      rw [h.isFinal]
      split at hf
      · rename_i hc; cases hf; exact ⟨_, if_pos hc, .prim h⟩
      · rename_i hc; rw [if_neg hc]; exact finPrim_widen h hf
  · intro k g e d' he hf
    cases he with
    | str h =>
      rw [finalize] at hf ⊢
      rw [h.isFinal]
      split at hf
      · rename_i hc; cases hf; exact ⟨_, if_pos hc, .str h⟩
      · rename_i hc; rw [if_neg hc]; exact finStr_widen h hf
  · intro g fs ih e d' he hf
    cases he with
    | @tup _ g' _ fs' h hl h1 h2 h3 =>
      rw [finalize] at hf ⊢
      rw [h.isFinal, h.count]
      split at hf
      · rename_i hc; cases hf; exact ⟨_, if_pos hc, .tup h hl h1 h2 h3⟩
      · rename_i hc
        rw [if_neg hc]
        split at hf
        · cases hf
        · rename_i hd
          rw [if_neg hd]
          have hall : ∀ {fs fs' : List (Fld × Dti)}, FW fs fs' →
              (∀ f t, (f, t) ∈ fs → ∀ {e d' : Dti}, Widens t e → finalize t = some d' →
                ∃ e', finalize e = some e' ∧ Widens d' e') →
              ∀ x, finalizeAll fs = some x → ∃ y, finalizeAll fs' = some y ∧ FW x y := by
            intro fs fs' hw
            induction hw with
            | nil => intro _ x hx; simp only [finalizeAll] at hx ⊢; cases hx; exact ⟨_, rfl, .nil⟩
            | @cons f f' t t' r r' k1 k2 k3 _ ihr =>
              intro ih x hx
              simp only [finalizeAll, Option.bind_eq_bind, Option.pure_def] at hx ⊢
              cases ht : finalize t with
              | none => simp [ht] at hx
              | some u =>
                cases hr : finalizeAll r with
                | none => simp [ht, hr] at hx
                | some v =>
                  simp only [ht, hr, Option.bind_some, Option.some.injEq] at hx
                  subst hx
                  obtain ⟨u', e1, e2⟩ := ih f t (List.mem_cons_self ..) k3 ht
                  obtain ⟨v', e3, e4⟩ := ihr (fun f t hm => ih f t (List.mem_cons_of_mem _ hm)) v hr
                  rw [e1, e3]
                  exact ⟨_, rfl, .cons k1 k2 e2 e4⟩
          simp only [Option.bind_eq_bind] at hf ⊢
          cases hx : finalizeAll fs with
          | none => simp [hx] at hf
          | some x =>
            rw [hx, Option.bind_some] at hf
            obtain ⟨y, e1, e2⟩ := hall (.of hl h1 h2 h3) ih x hx
            rw [e1, Option.bind_some]
            exact finTup_widen h e2 hf
  · intro g c ih e d' he hf
    cases he with
    | arr h hc =>
      rw [finalize] at hf ⊢
      rw [h.isFinal]
      split at hf
      · rename_i hc2; cases hf; exact ⟨_, if_pos hc2, .arr h hc⟩
      · rename_i hc2
        rw [if_neg hc2]
        simp only [Option.bind_eq_bind] at hf ⊢
        cases hx : finalize c with
        | none => simp [hx] at hf
        | some x =>
          rw [hx, Option.bind_some] at hf
          obtain ⟨y, e1, e2⟩ := ih hc hx
          rw [e1, Option.bind_some]
          exact finArr_widen h e2 hf

end Dti
end TS
