import Verif.PropsResize
import Verif.PropsPage3
/-
C101: how many tuples fit on a page as its size grows.
-/
namespace TS
namespace Props

variable {ps h ps' : Nat} {d : SizeDef}

theorem Needed.same {n b : Nat} (hn : Needed ps h d n b) (hw : vsz ps' = vsz ps) (hp : ps ≤ ps') : Needed ps' h d n b := by
  unfold Needed at hn ⊢
  rw [hw]
  split at hn
  · rename_i hv; rw [if_pos hv]; omega
  · rename_i hv; rw [if_neg hv]; omega

theorem Needed.double {n b : Nat} (hn : Needed ps h d n b) (hp : 2 * ps ≤ ps') : Needed ps' h d n b := by
  unfold Needed at hn ⊢
  split at hn
  · rename_i hv; rw [if_pos hv]
    unfold vsz at *
    simp only [Nat.reducePow] at *
    split at hn <;> split at hn <;> split at hn <;> split <;> split <;> split <;> omega
  · rename_i hv; rw [if_neg hv]
    generalize n * (d.size * 8 + 1) = x at *
    unfold vsz at *
    simp only [Nat.reducePow] at *
    split at hn <;> split at hn <;> split at hn <;> split <;> split <;> split <;> omega

/-- C101. `get_maximum_tuple_count_on_page` is the largest number of tuples of minimum size for which there is room. -/
theorem C101_count (l : Legal ps h d) : ∃ M, Api.maxTupleCount h ps d = some M ∧
    ∀ n, n ≤ M ↔ Needed ps h d n (n * minTupleSize d) := by
  have h1 := l.h_le
  have h2 : vsz ps ≤ 4 := by unfold vsz; omega
  have h3 := vsz_pos ps
  have h4 := l.size_ge
  cases hv : d.isVar with
  | true =>
    refine ⟨_, maxTupleCount_var l hv, fun n => ?_⟩
    unfold Needed
    rw [if_pos hv, Nat.le_div_iff_mul_le (by omega)]
    simp only [wAddr, Nat.mul_add, Nat.add_mul, minTupleSize]
    omega
  | false =>
    refine ⟨_, maxTupleCount_fix l hv, fun n => ?_⟩
    unfold Needed
    rw [if_neg (by simp [hv]), Fixed.cap, Nat.le_div_iff_mul_le (by omega)]
    simp only [wAddr]
    generalize n * (d.size * 8 + 1) = x
    omega

/-- C101. A larger page on which values have as many bytes, and a page of twice the size and more, holds at least as many tuples. -/
theorem C101_grow (l : Legal ps h d) (l' : Legal ps' h d) (hp : (vsz ps' = vsz ps ∧ ps ≤ ps') ∨ 2 * ps ≤ ps') :
    ∃ M M', Api.maxTupleCount h ps d = some M ∧ Api.maxTupleCount h ps' d = some M' ∧ M ≤ M' := by
  obtain ⟨M, a1, a2⟩ := C101_count l
  obtain ⟨M', b1, b2⟩ := C101_count l'
  refine ⟨M, M', a1, b1, (b2 M).mpr ?_⟩
  have := (a2 M).mp (Nat.le_refl _)
  rcases hp with hp | hp
  · exact this.same hp.1 hp.2
  · exact this.double hp

/-- C101. The minimum page size for `n` tuples: `n` tuples also fit on every larger page on which values have as many bytes, and on every page of
twice the size and more. -/
theorem C101_minimum (l : Legal ps h d) {n m : Nat} (hm : Api.minPageSize h d n = some m)
    (hp : (vsz ps = vsz m ∧ m ≤ ps) ∨ 2 * m ≤ ps) : ∃ M, Api.maxTupleCount h ps d = some M ∧ n ≤ M := by
  obtain ⟨M, a1, a2⟩ := C101_count l
  refine ⟨M, a1, (a2 n).mpr ?_⟩
  obtain ⟨-, h2, -⟩ := minPageSize_need hm
  have hn : Needed m h d n (n * minTupleSize d) := by
    unfold Needed need at *
    split at h2
    · rename_i hv
      rw [if_pos hv]
      simp only [Nat.add_mul, minTupleSize] at *
      omega
    · rename_i hv
      rw [if_neg hv, Nat.mul_add, ← Nat.mul_assoc, Nat.mul_one]
      generalize n * d.size = x at *
      unfold bitmapBytes at h2
      omega
  rcases hp with hp | hp
  · exact hn.same hp.1 hp.2
  · exact hn.double hp

/-- C101. A larger page can hold fewer tuples. With a header of 8 bytes and tuples of at least two bytes, 256 bytes are the minimum page
size for 81 tuples and hold 81 of them; no page of 257 to 341 bytes does, and one of 257 bytes holds 59. -/
theorem C101_gap : Api.minPageSize 8 exVar 81 = some 256 ∧ Api.maxTupleCount 8 256 exVar = some 81 ∧
    Api.maxTupleCount 8 257 exVar = some 59 ∧
    ∀ ps, 257 ≤ ps → ps ≤ 341 → Legal ps 8 exVar ∧ ∃ M, Api.maxTupleCount 8 ps exVar = some M ∧ M < 81 := by
  refine ⟨by decide, by decide, by decide, fun ps h1 h2 => ?_⟩
  have l : Legal ps 8 exVar := by constructor <;> first | omega | decide
  obtain ⟨M, a1, a2⟩ := C101_count l
  refine ⟨l, M, a1, ?_⟩
  have hvs : vsz ps = 2 := by
    unfold vsz
    rw [if_pos (by omega), if_pos (by omega), if_neg (by omega)]
  have : ¬ 81 ≤ M := by
    rw [a2]
    unfold Needed
    rw [if_pos (show exVar.isVar = true from rfl), hvs, show minTupleSize exVar = 2 from rfl]
    omega
  omega

/-- C101. What `get_maximum_tuple_size_accomodatable_on_page` is: a slotted page keeps six values and the header besides the largest tuple, a
fixed array page three values, the header and one byte. -/
theorem C101_largest (l : Legal ps h d) :
    Api.maxTupleSizeOnPage h ps d = some (if d.isVar then ps - h - 6 * vsz ps else ps - h - 3 * vsz ps - 1) := by
  have h0 := l.h_le
  have h2 := l.ps_le
  have h3 := vsz_le ps
  have hp := vsz_pos ps
  cases hv : d.isVar with
  | true =>
    have h1 := l.fit.var hv
    have he : vsz ps + h + 4 * vsz ps = wAddr ps h 4 := rfl
    simp only [Api.maxTupleSizeOnPage, Api.slotted, hv, if_true, Slotted.maxTupleSizeOnPage, Slotted.spaceToBeAllotted,
      Option.bind_eq_bind]
    rw [u32_eq (by omega), Option.bind_some, sub32_eq (by omega)]
    have hov : Slotted.overhead ps = vsz ps := rfl
    simp only [Option.bind_some]
    rw [if_pos (by omega), sub32_eq (by omega), hov]
    congr 1; omega
  | false =>
    simp only [Api.maxTupleSizeOnPage, Api.slotted, hv, Bool.false_eq_true, if_false, Fixed.maxTupleSizeOnPage, Fixed.spacePlusBits,
      Option.bind_eq_bind]
    rw [u32_eq (by omega), Option.bind_some, sub32_eq (by omega), Option.bind_some, sub32_eq (by omega)]
    congr 1; omega

/-- C101. On a larger page the largest tuple is at most 5 bytes (slotted pages) or 2 bytes (fixed array pages) shorter, and not shorter at all
if values have as many bytes there or the page is larger by 6 bytes for every byte that they have more. -/
theorem C101_shorter (l : Legal ps h d) (l' : Legal ps' h d) (hp : ps ≤ ps') :
    ∃ M M', Api.maxTupleSizeOnPage h ps d = some M ∧ Api.maxTupleSizeOnPage h ps' d = some M' ∧
      M ≤ M' + (if d.isVar then 5 else 2) ∧ (ps + 6 * (vsz ps' - vsz ps) ≤ ps' → M ≤ M') := by
  refine ⟨_, _, C101_largest l, C101_largest l', ?_⟩
  have h1 := l.h_le
  have h2 := l'.h_le
  unfold vsz
  simp only [Nat.reducePow]
  split <;> (split <;> split <;> split <;> split <;> split <;> split <;> omega)

/-! ### Examples -/

/-- The 5 bytes are reached. -/
example : Legal 256 8 exVar ∧ Legal 257 8 exVar ∧ Api.maxTupleSizeOnPage 8 256 exVar = some 242 ∧
    Api.maxTupleSizeOnPage 8 257 exVar = some 237 ∧ Api.maxTupleSizeOnPage 8 262 exVar = some 242 := by
  refine ⟨?_, ?_, by decide, by decide, by decide⟩ <;> constructor <;> decide

/-- The 2 bytes are reached. -/
example : Legal 65536 8 exFix ∧ Legal 65537 8 exFix ∧ Api.maxTupleSizeOnPage 8 65536 exFix = some 65521 ∧
    Api.maxTupleSizeOnPage 8 65537 exFix = some 65519 := by
  refine ⟨?_, ?_, by decide, by decide⟩ <;> constructor <;> decide

example : Legal 128 8 exVar ∧ Legal 200 8 exVar ∧ vsz 200 = vsz 128 ∧ Legal 300 8 exVar ∧ 2 * 128 ≤ 300 ∧
    Api.maxTupleCount 8 128 exVar = some 38 ∧ Api.maxTupleCount 8 300 exVar = some 70 ∧ Api.minPageSize 8 exVar 38 = some 127 := by
  refine ⟨exVar_legal, ?_, by decide, ?_, by decide, by decide, by decide, by decide⟩ <;> constructor <;> decide

example : Legal 300 8 exFix ∧ Api.minPageSize 8 exFix 20 = some 94 ∧ 2 * 94 ≤ 300 ∧ Api.maxTupleCount 8 300 exFix = some 69 := by
  refine ⟨?_, by decide, by decide, by decide⟩; constructor <;> decide

end Props
end TS
