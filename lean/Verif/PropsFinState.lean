import Verif.FinState
/-
Property C66: what a refused call of `finalize_type_info` leaves behind, and trying again.
-/
namespace TS
namespace Dti

mutual
/-- What is declared of a type: everything that finalising computes is reset. -/
def declOf : Dti → Dti
  | .prim k h => .prim k { isStatic := h.isStatic, name := h.name, nullable := h.nullable, size := h.size }
  | .str b h => .str b { isStatic := h.isStatic, name := h.name, nullable := h.nullable, maxSize := h.maxSize, varCount := h.varCount
                         count := h.count }
  | .tup h fs => .tup { isStatic := h.isStatic, name := h.name, nullable := h.nullable, maxSize := h.maxSize, count := h.count }
      (declsOf fs)
  | .arr h c => .arr { isStatic := h.isStatic, name := h.name, nullable := h.nullable, maxSize := h.maxSize, varCount := h.varCount
                       count := h.count } (declOf c)
def declsOf : List (Fld × Dti) → List (Fld × Dti)
  | [] => []
  | (f, t) :: r => ({ name := f.name }, declOf t) :: declsOf r
end

theorem declsOf_offs (w : Nat) (fs : List (Fld × Dti)) : ∀ s, declsOf (assignOffs w s fs).1 = declsOf fs := by
  induction fs with
  | nil => intro s; rfl
  | cons x r ih =>
    intro s
    obtain ⟨f, t⟩ := x
    unfold assignOffs
    split <;> simp only [declsOf, ih]

theorem declsOf_all {fs : List (Fld × Dti)} (ih : ∀ f t, (f, t) ∈ fs → declOf (finSt t).1 = declOf t) :
    ∀ v b, declsOf (finStAll fs v b).1 = declsOf fs := by
  induction fs with
  | nil => intro v b; rfl
  | cons x r ihr =>
    intro v b
    obtain ⟨f, t⟩ := x
    have h1 := ih f t (by simp)
    unfold finStAll
    dsimp only
    split
    · simp only [declsOf, h1]
    · simp only [declsOf, h1, ihr (fun f t hm => ih f t (by simp [hm]))]
      repeat' split
      all_goals rfl

end Dti

namespace Props
open Dti

/-- C66. `finalize_type_info` returns 0 exactly if the type cannot be finalised, and then it does not mark it as finalised; otherwise
it leaves the finalised type. -/
theorem C66_result (d : Dti) :
    (∀ d', finalize d = some d' → finSt d = (d', true)) ∧
    (finalize d = none → (finSt d).2 = false ∧ (finSt d).1.hdr.isFinal = false) :=
  ⟨(finSt_spec d).1, fun h => ⟨(finSt_spec d).2 h, finSt_refused ((finSt_spec d).2 h)⟩⟩

/-- C66. Whether it accepts the type or not, it changes nothing that was declared. -/
theorem C66_declared (d : Dti) : declOf (finSt d).1 = declOf d := by
  induction d using Dti.ind with
  | hp k h =>
    unfold finSt
    split
    · rfl
    · split
      · rename_i hf; rw [(finPrim_eq hf).1]; rfl
      · rfl
  | hs b h =>
    unfold finSt
    dsimp only
    repeat' split
    all_goals rfl
  | ht h fs ih =>
    unfold finSt
    dsimp only
    split
    · rfl
    · split
      · rfl
      · split
        · simp only [declOf, declsOf_all ih]
        · have h2 := declsOf_offs (vsz h.maxSize) (finStAll fs false 0).1
            (w32 ((if (finStAll fs false 0).2.1 then vsz h.maxSize else 0) + bitmapBytes (finStAll fs false 0).2.2.1))
          rw [declsOf_all ih] at h2
          generalize assignOffs (vsz h.maxSize) _ (finStAll fs false 0).1 = o at h2 ⊢
          split <;> simp only [declOf, h2]
  | ha h c ih =>
    unfold finSt
    dsimp only
    repeat' split
    all_goals simp only [declOf, ih]

/-- C66. In what it leaves behind every node is as it was declared or properly finalised. -/
theorem C66_partly {d : Dti} (hr : Raw d) : Raw (finSt d).1 :=
  half_raw hr (half_try hr (half_refl hr))

/-- C66. A type may be corrected and finalised again after any number of refusals: as long as nodes that are finalised are not
changed, the attempts make no difference. -/
theorem C66_attempts_do_not_matter {d : Dti} (hr : Raw d) (as : List Act) (ha : AllowedActs as d) :
    ((∃ e', finalize (runActs as d) = some e') ↔ ∃ d', finalize (skipActs as d) = some d') ∧
    ∀ d' e', finalize (skipActs as d) = some d' → finalize (runActs as d) = some e' →
      Interchangeable d' e' ∧ names e' = names d' ∧ ser e' = ser d' ∧ (ShortNames d' → ident d' e' = some true) := by
  obtain ⟨h, r1, r2⟩ := half_acts as (half_refl hr) hr hr ha
  obtain ⟨a1, a2⟩ := half_agree h
  refine ⟨⟨fun ⟨e', he⟩ => ?_, fun ⟨d', hd⟩ => ?_⟩, ?_⟩
  · obtain ⟨d', k, _⟩ := a2 e' he; exact ⟨d', k⟩
  · obtain ⟨e', k, _⟩ := a1 d' hd; exact ⟨e', k⟩
  · intro d' e' hd he
    obtain ⟨e2, k1, hn⟩ := a1 d' hd
    rw [he] at k1
    cases k1
    refine ⟨interchangeable_of_same (kn := true) hn.symm (raw_finalize _ _ r1 hd).varUp, ?_, ?_, ?_⟩
    · rw [← names_norm, hn, names_norm]
    · rw [← ser_norm, hn, ser_norm]
    · intro hs; exact ident_of_norm d' e' (norm_drop_names _ _ hn.symm) hs

/-- A tuple of a string of fixed length and a variable length string, whose maximum size makes it impossible to finalise. -/
def exRefused : Dti :=
  .tup { name := [116], maxSize := 100, count := 2 }
    [({ name := [97] }, .str false { count := 1 }), ({ name := [98] }, .str false { varCount := true, maxSize := 0 })]

/-- A correction of the second string. -/
def exRepair : Change := { name := [], nullable := false, size := 0, maxSize := 9, varCount := true, count := 0 }

/-- The first string is to have 5 characters. -/
def exLonger : Change := { name := [], nullable := false, size := 5, maxSize := 0, varCount := false, count := 5 }

theorem exRefused_raw : Raw exRefused := by
  refine .tup _ _ rfl rfl ?_
  intro f t h
  simp at h
  rcases h with ⟨_, rfl⟩ | ⟨_, rfl⟩
  · exact .str _ _ rfl
  · exact .str _ _ rfl

/-- The hypotheses hold: the type is refused, what was wrong with it can be corrected, also by another type in its place, and it can
be finalised then. -/
example : (finSt exRefused).2 = false ∧ finalize exRefused = none ∧
    AllowedActs [.attempt, .attempt, .change [1] exRepair, .attempt] exRefused ∧
    (∃ e, finalize (runActs [.attempt, .attempt, .change [1] exRepair] exRefused) = some e) ∧
    AllowedActs [.attempt, .replace [1] (.str true { count := 3 }), .attempt] exRefused ∧
    ∃ e, finalize (runActs [.attempt, .replace [1] (.str true { count := 3 })] exRefused) = some e :=
  ⟨rfl, rfl, ⟨trivial, trivial, ⟨rfl, _, rfl, rfl⟩, trivial, trivial⟩, ⟨_, rfl⟩,
    ⟨trivial, ⟨⟨rfl, _, rfl, trivial⟩, .str _ _ rfl⟩, trivial, trivial⟩, ⟨_, rfl⟩⟩

/-- C66. That finalised nodes are not changed is needed. A refused call finalises the fields in front of the one that is refused; if
such a field is given another length afterwards, the second call succeeds but keeps its size, and the last character of the
string is not inside of the tuple. -/
theorem C66_stale_size : ∃ (d : Dti) (as : List Act) (d' e' : Dti) (m : Bytes), Raw d ∧
    finalize d = none ∧ finalize (skipActs as d) = some d' ∧ finalize (runActs as d) = some e' ∧
    d'.hdr.size = 7 ∧ e'.hdr.size = 3 ∧ e'.initMin (List.replicate 3 0) = some (m, 3) ∧
    e'.elemCount m [0] = some 5 ∧ e'.getElem m [0, 4] = none := by
  refine ⟨exRefused, [.attempt, .change [0] exLonger, .change [1] exRepair], _, _, [3, 0, 0], exRefused_raw, rfl, rfl, rfl, ?_⟩
  decide +kernel

end Props
end TS
