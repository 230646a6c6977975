import Verif.PropsFinState
import Verif.PropsUntrusted
/-
The two descriptions of what a refused call of `finalize_type_info` leaves behind: `finSt` with all members, and `finLeft` with those
that are looked at while a type is read.
-/
namespace TS
namespace Dti

mutual
/-- A type without the members that `finalize_type_info` computes, except for `is_variable_sized`. -/
def seen : Dti → Dti
  | .prim k h => .prim k h
  | .str b h => .str b { h with size := 0, bits := 0 }
  | .tup h fs => .tup { h with size := 0, bits := 0, varCount := false } (seenAll fs)
  | .arr h c => .arr { h with size := 0, bits := 0 } (seen c)
def seenAll : List (Fld × Dti) → List (Fld × Dti)
  | [] => []
  | (f, t) :: r => ({ name := f.name }, seen t) :: seenAll r
end

mutual
theorem bytesOf_seen : ∀ d, bytesOf (seen d) = bytesOf d
  | .prim .. => rfl
  | .str .. => rfl
  | .tup h fs => by simp only [seen, bytesOf, bytesOfAll_seen fs]
  | .arr h c => by simp only [seen, bytesOf, bytesOf_seen c]
theorem bytesOfAll_seen : ∀ fs, bytesOfAll (seenAll fs) = bytesOfAll fs
  | [] => rfl
  | (f, t) :: r => by simp only [seenAll, bytesOfAll, bytesOf_seen t, bytesOfAll_seen r]
end

theorem seenAll_offs (w : Nat) : ∀ (fs : List (Fld × Dti)) (s : Nat), seenAll (assignOffs w s fs).1 = seenAll fs
  | [], _ => rfl
  | (f, t) :: r, s => by
    unfold assignOffs
    cases t.isBit with
    | true => simp only [if_true, seenAll, seenAll_offs w r]
    | false => simp only [Bool.false_eq_true, if_false, seenAll, seenAll_offs w r]

theorem finPre_seen {fs : List (Fld × Dti)} (ih : ∀ f t, (f, t) ∈ fs → finalize t = none → seen (finSt t).1 = seen (finLeft t)) :
    ∀ v b, seenAll (finStAll fs v b).1 = seenAll (finPre fs).1 ∧ (finStAll fs v b).2.1 = (v || (finPre fs).2) := by
  induction fs with
  | nil => intro v b; simp [finStAll, finPre]
  | cons x r ihr =>
    obtain ⟨f, t⟩ := x
    intro v b
    have ihr := ihr (fun f t hm => ih f t (by simp [hm]))
    cases ht : finalize t with
    | none =>
      have h2 := (finSt_spec t).2 ht
      have h3 := ih f t (by simp) ht
      simp [finStAll, finPre, h2, ht, seenAll, h3]
    | some t' =>
      have h1 := (finSt_spec t).1 t' ht
      simp only [finStAll, finPre, h1, ht, Bool.not_true, Bool.false_eq_true, if_false, seenAll]
      obtain ⟨k1, k2⟩ := ihr (v || t'.isVar) (if t'.isBit = true then (if t'.needsValid = true then b + 1 else b) + t'.hdr.size
        else if t'.needsValid = true then b + 1 else b)
      rw [k1, k2]
      refine ⟨?_, by rw [Bool.or_assoc]⟩
      congr 2
      repeat' split
      all_goals rfl

theorem left_seen : ∀ d : Dti, finalize d = none → seen (finSt d).1 = seen (finLeft d) := by
  intro d
  induction d using Dti.ind with
  | hp k h =>
    intro hn
    have hf := finalize_none_final hn
    simp only [hdr] at hf
    simp only [finalize, hf, Bool.false_eq_true, if_false] at hn
    simp [finSt, hf, hn, finLeft]
  | hs b h =>
    intro hn
    have hf := finalize_none_final hn
    simp only [hdr] at hf
    simp only [finalize, hf, Bool.false_eq_true, if_false, finStr] at hn
    simp only [finSt, hf, Bool.false_eq_true, if_false, finLeft]
    cases hv : h.varCount with
    | true =>
      by_cases hm : vsz h.maxSize > h.maxSize
      · simp [hm, seen]
      · simp [hv, hm] at hn
    | false =>
      by_cases hm : h.count = 0
      · simp [hm, seen]
      · simp [hv, hm] at hn
  | ht h fs ih =>
    intro hn
    have hf := finalize_none_final hn
    simp only [hdr] at hf
    have hk := finPre_seen (fun f t hm => ih f t hm) false 0
    simp only [finSt, hf, Bool.false_eq_true, if_false, finLeft]
    by_cases h0 : h.count = 0
    · simp [h0]
    · rw [if_neg h0, if_neg h0]
      simp only [Bool.false_or] at hk
      cases hok : (finStAll fs false 0).2.2.2 with
      | false => simp [seen, hk.1, hk.2]
      | true =>
        have hno := (finSt_spec (.tup h fs)).2 hn
        simp only [finSt, hf, Bool.false_eq_true, if_false, h0, hok, Bool.not_true] at hno
        simp only [Bool.not_true, Bool.false_eq_true, if_false]
        generalize w32 ((if (finStAll fs false 0).2.1 = true then vsz h.maxSize else 0) + bitmapBytes (finStAll fs false 0).2.2.1) = s0 at hno ⊢
        split
        · simp [seen, seenAll_offs, hk.1, hk.2]
        · rename_i hc
          rw [if_neg hc] at hno
          cases hno
  | ha h c ih =>
    intro hn
    have hf := finalize_none_final hn
    simp only [hdr] at hf
    simp only [finSt, hf, Bool.false_eq_true, if_false, finLeft]
    cases hc : finalize c with
    | none => simp [(finSt_spec c).2 hc, seen, ih hc]
    | some c' =>
      have h1 := (finSt_spec c).1 c' hc
      simp only [h1, Bool.not_true, Bool.false_eq_true, if_false]
      have := (finSt_spec (.arr h c)).2 hn
      simp only [finSt, hf, Bool.false_eq_true, if_false, h1, Bool.not_true] at this
      split
      · simp [seen]
      · rename_i q1
        rw [if_neg q1] at this
        split
        · rename_i q2; rw [if_pos q2] at this; cases this
        · rename_i q2
          rw [if_neg q2] at this
          split
          · simp [seen]
          · rename_i q3; rw [if_neg q3] at this; cases this

end Dti

namespace Props
open Dti

/-- **C78, containees that are refused.** What `deserialize_type_info` is said to hold after `finalize_type_info` refused a containee
(`finLeft`) is what that function leaves there (`finSt`, member by member), up to members that are not looked at before the next call
of `finalize_type_info`; the number of bytes by which the reader moves on is the same. -/
theorem C78_left (t : Dti) (h : finalize t = none) :
    seen (finSt t).1 = seen (finLeft t) ∧ byteCount (finSt t).1 = byteCount (finLeft t) ∧ (finSt t).2 = false ∧ finalize (finLeft t) = none := by
  refine ⟨left_seen t h, ?_, (finSt_spec t).2 h, (finLeft_spec t h).2.2⟩
  unfold byteCount
  rw [← bytesOf_seen, left_seen t h, bytesOf_seen]

/-- A tuple of a string and an array of an array of count 0, which is refused after the string was looked at. -/
def exLeft : Dti := .tup { count := 3, maxSize := 100 }
  [({ name := [97] }, .str false { varCount := true, maxSize := 10 }), ({}, .arr { count := 2 } (.arr { count := 0 } (.prim .uint { size := 2 }))),
   ({}, .prim .uint { size := 2 })]

example : finalize exLeft = none ∧ byteCount (finSt exLeft).1 = some 38 ∧ byteCount (finLeft exLeft) = some 38 ∧ byteCount exLeft = some 34 :=
  ⟨rfl, by decide +kernel, by decide +kernel, by decide +kernel⟩

end Props
end TS
