import Verif.ValSize
import Verif.PropsHist
/-
Property C70: the size of a tuple is determined by what can be read from it.
-/
namespace TS
namespace Props
open Dti

/-- C70. A tuple takes exactly the bytes that its value needs: there is nothing in it that is left over
from former values. -/
theorem C70_size {d d' : Dti} (hb : Built d) (hl : Limits d) (hf : finalize d = some d') {m : Bytes} {S : Nat} {val : Val}
    (hS : S ≤ m.length) (he : Enc d' (m.take S) val) : S = Need d val ∧ d'.getSize m = some (Need d val) := by
  have hd := ((C62_usable hb hl).2 d' hf).ok
  have h1 := enc_need he hd (tight_finalize hb (limits_fits d hl) d' hf)
  rw [need_finalize d d' hf, List.length_take, Nat.min_eq_left hS] at h1
  exact ⟨h1, by rw [← h1]; exact (IsTuple.size hd (⟨hS, val, he⟩ : IsTuple d' m S)).1⟩

/-- C70. Two tuples of a type of which every read gives the same hold the same value and have the same
size, whatever was done to them before. -/
theorem C70_read_alike {d d' : Dti} (hb : Built d) (hl : Limits d) (hf : finalize d = some d') {m m' : Bytes} {S S' : Nat}
    (h : IsTuple d' m S) (h' : IsTuple d' m' S') (hr : ∀ pa, Same (d'.getElem m pa) (d'.getElem m' pa)) :
    S = S' ∧ d'.getSize m = d'.getSize m' ∧ (∀ pa, d'.typeAt pa ≠ none → (∀ t, d'.typeAt pa = some t → t.isCont = true) →
      d'.elemCount m pa = d'.elemCount m' pa) ∧ ∃ val, Enc d' (m.take S) val ∧ Enc d' (m'.take S') val := by
  have hd := ((C62_usable hb hl).2 d' hf).ok
  obtain ⟨hS, v, he⟩ := h
  obtain ⟨hS', v', he'⟩ := h'
  have := val_ext hd hS hS' he he' hr
  subst this
  have k := C70_size hb hl hf hS he
  have k' := C70_size hb hl hf hS' he'
  refine ⟨k.1.trans k'.1.symm, k.2.trans k'.2.symm, fun pa ht hc => ?_, v, he, he'⟩
  cases hx : d'.typeAt pa with
  | none => exact absurd hx ht
  | some t => rw [elemCount_ok pa hd hS he hx (hc t hx), elemCount_ok pa hd hS' he' hx (hc t hx)]

/-- C70. Two tuples of a type, edited by any two sequences of calls. If they end up with the same
contents they have the same size. -/
theorem C70_histories {cv : Conv} (hcv : cv.Ok) {d d' : Dti} (hb : Built d) (hl : Limits d) (hf : finalize d = some d')
    {m1 m2 : Bytes} {S1 S2 : Nat} {v1 v2 : Val} (h1 : S1 ≤ m1.length) (h2 : S2 ≤ m2.length)
    (e1 : Enc d' (m1.take S1) v1) (e2 : Enc d' (m2.take S2) v2)
    (r1 : d'.isVar = true → d'.hdr.maxSize ≤ m1.length) (r2 : d'.isVar = true → d'.hdr.maxSize ≤ m2.length)
    (cs1 cs2 : List Call) (c1 : Careful cv d' v1 cs1) (c2 : Careful cv d' v2 cs2) :
    ∃ n1 n2 q1 q2, runAll cv d' m1 cs1 = some (n1, q1) ∧ runAll cv d' m2 cs2 = some (n2, q2) ∧
      ((∀ pa, Same (d'.getElem n1 pa) (d'.getElem n2 pa)) → ∃ s, d'.getSize n1 = some s ∧ d'.getSize n2 = some s) := by
  have hu := (C62_usable hb hl).2 d' hf
  obtain ⟨n1, q1, S1', w1, a1, _, _, a2, a3, _⟩ := C63_history hcv hu cs1 h1 e1 r1 c1
  obtain ⟨n2, q2, S2', w2, b1, _, _, b2, b3, _⟩ := C63_history hcv hu cs2 h2 e2 r2 c2
  refine ⟨n1, n2, q1, q2, a1, b1, fun hr => ⟨S1', a3, ?_⟩⟩
  rw [← (C70_read_alike hb hl hf a2 b2 hr).2.1]
  exact a3

theorem exType_limits : Limits exType := by
  have h4 : vsz 900 = 2 := by decide
  have h6 : vsz 300 = 2 := by decide
  have hl : lim = 2147483648 := rfl
  simp [Limits, LimitsAll, exType, Least, LeastAll, BitsAll, BitsOf, Varies, VariesAny, isBit, hdr, bitmapBytes, h4, h6, hl]

/-- The hypotheses hold of the tuple of the other examples. -/
example : Built exType ∧ Limits exType ∧ finalize exType = some exFinal ∧ IsTuple exFinal exMem 11 :=
  ⟨exType_built, exType_limits, exType_finalize, exMem_tuple⟩

/-- A string and an array set in either order: the bytes differ, the size does not. -/
example : (runAll ieee exFinal exMem [.set [3] .empty 20, .set [2] (.bytes [97, 98]) 20]).map
      (fun r => (r.1.take 17, exFinal.getSize r.1)) = some ([16, 0, 0, 0, 0, 0, 0, 13, 0, 11, 0, 0, 0, 2, 97, 98, 255], some 16) ∧
    (runAll ieee exFinal exMem [.set [2] (.bytes [97, 98]) 20, .set [3] .empty 20]).map
      (fun r => (r.1.take 17, exFinal.getSize r.1)) = some ([16, 0, 0, 0, 0, 0, 0, 11, 0, 14, 0, 2, 97, 98, 0, 0, 255], some 16) := by
  constructor <;> decide +kernel

end Props
end TS
