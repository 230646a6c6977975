import Verif.PropsMove
/-
C100: moving the tuples of a page to a page of another size, with another header.
-/
namespace TS
namespace Props

variable {ps h ps' h' : Nat} {d : SizeDef} {pg : Bytes} {s es : Slots}

/-- What `n` slots with tuples of `b` bytes in total need on a page of `ps` bytes with a header of `h` bytes: on a slotted page the tuples,
a value for every slot and five values besides; on a fixed array page a bit and a tuple for every slot, and three values besides. -/
def Needed (ps h : Nat) (d : SizeDef) (n b : Nat) : Prop :=
  if d.isVar then b + (n + 5) * vsz ps + h ≤ ps else n * (d.size * 8 + 1) + 8 * (3 * vsz ps + h) ≤ 8 * ps

theorem fitsOn_iff (l : Legal ps h d) (s : Slots) : FitsOn ps h d s ↔ Needed ps h d s.length (liveSum s) := by
  have h1 := l.h_le
  have h2 : vsz ps ≤ 4 := by unfold vsz; omega
  unfold FitsOn Needed
  cases hv : d.isVar with
  | true =>
    simp only [if_true, usedSpace_var hv, areaStart, hv, wAddr, Nat.add_mul]
    omega
  | false =>
    simp only [Bool.false_eq_true, if_false, Fixed.cap, wAddr]
    rw [Nat.le_div_iff_mul_le (by omega)]
    generalize s.length * (d.size * 8 + 1) = x
    omega

/-- C100. The slots of a page can all be appended to a freshly initialised page of any other size and header size exactly if there is
room for them by `Needed`, and then they read there as they did. -/
theorem C100_exact (l : Legal ps h d) (l' : Legal ps' h' d) (hr : Reach ps h d pg s) {pg0 pg1 : Bytes} (hl : pg0.length = ps')
    (hi : Api.initPage pg0 ps' h' d = some (pg1, true)) :
    ∃ pg' rs, run ps' d pg1 (s.map Op.append) = some (pg', rs) ∧
      (rs = List.replicate s.length 1 ↔ Needed ps' h' d s.length (liveSum s)) ∧
      (rs = List.replicate s.length 1 → Reach ps' h' d pg' s ∧ Observe ps' d pg' s) := by
  obtain ⟨p, ok, m, h1, -, -, -, h2⟩ := l'.fit.init hl
  rw [hi] at h1; cases h1
  have R1 := (h2 rfl).1
  have r1 : Reach ps' h' d pg1 [] := ⟨pg0, pg1, [], [], hl, hi, by simp, rfl, .nil _⟩
  have hw := (hr.rep l.fit).wf
  obtain ⟨pg', rs, k1, -, k2, k3⟩ := append_all l' r1 hw
  rw [List.nil_append] at k3
  refine ⟨pg', rs, k1, ?_, fun hx => ⟨k3 hx, C03_C04_observe l' (k3 hx)⟩⟩
  rw [← fitsOn_iff l']
  constructor
  · intro hx
    have c := ((k3 hx).rep l'.fit).conserve.1
    have R := (k3 hx).rep l'.fit
    unfold FitsOn
    rcases R with r | ⟨r, -⟩
    · simp [r.var]; omega
    · simpa [r.fixed] using r.le
  · intro hf
    obtain ⟨pg'', m1, -⟩ := fill R1 R1.packed_nil hw (by simpa using hf)
    rw [k1] at m1; cases m1; rfl

theorem needed_of_reach (l : Legal ps h d) (hr : Reach ps h d pg s) : Needed ps h d s.length (liveSum s) := by
  rw [← fitsOn_iff l]
  have R := hr.rep l.fit
  have c := R.conserve.1
  unfold FitsOn
  rcases R with r | ⟨r, -⟩
  · simp [r.var]; omega
  · simpa [r.fixed] using r.le

/-- C100. A page that is larger by at least as much as its header, and on which values have as many bytes, takes all of the slots. -/
theorem C100_same_width (l : Legal ps h d) (l' : Legal ps' h' d) (hr : Reach ps h d pg s) {pg0 pg1 : Bytes} (hl : pg0.length = ps')
    (hi : Api.initPage pg0 ps' h' d = some (pg1, true)) (hw : vsz ps' = vsz ps) (hp : ps + h' ≤ ps' + h) :
    ∃ pg', run ps' d pg1 (s.map Op.append) = some (pg', List.replicate s.length 1) ∧ Reach ps' h' d pg' s ∧ Observe ps' d pg' s := by
  obtain ⟨pg', rs, h1, h2, h3⟩ := C100_exact l l' hr hl hi
  have hn := needed_of_reach l hr
  have : rs = List.replicate s.length 1 := by
    refine h2.mpr ?_
    unfold Needed at hn ⊢
    rw [hw]
    split at hn
    · rename_i hv; rw [if_pos hv]; omega
    · rename_i hv; rw [if_neg hv]; omega
  exact ⟨pg', this ▸ h1, h3 this⟩

/-- C100. A page of twice the size and more with a header of the same size takes all of the slots, even though values may have more bytes
there. -/
theorem C100_double (l : Legal ps h d) (l' : Legal ps' h d) (hr : Reach ps h d pg s) {pg0 pg1 : Bytes} (hl : pg0.length = ps')
    (hi : Api.initPage pg0 ps' h d = some (pg1, true)) (hp : 2 * ps ≤ ps') :
    ∃ pg', run ps' d pg1 (s.map Op.append) = some (pg', List.replicate s.length 1) ∧ Reach ps' h d pg' s ∧ Observe ps' d pg' s := by
  obtain ⟨pg', rs, h1, h2, h3⟩ := C100_exact l l' hr hl hi
  have hn := needed_of_reach l hr
  have : rs = List.replicate s.length 1 := by
    refine h2.mpr ?_
    have hg := l.ps_ge
    unfold Needed at hn ⊢
    split at hn
    · rename_i hv; rw [if_pos hv]
      generalize s.length = n at *
      unfold vsz at *
      simp only [Nat.reducePow] at *
      split at hn <;> split at hn <;> split at hn <;> split <;> split <;> split <;> omega
    · rename_i hv; rw [if_neg hv]
      generalize s.length * (d.size * 8 + 1) = x at *
      unfold vsz at *
      simp only [Nat.reducePow] at *
      omega
  exact ⟨pg', this ▸ h1, h3 this⟩

/-- C100. Where values have as many bytes on both of the pages, the figures of the pages decide: all slots of a slotted page go onto the fresh
page exactly if `get_space_occupied_by_all_tuples_on_page` of the one is at most `get_space_allotted_to_all_tuples_on_page` of the other. -/
theorem C100_figures (l : Legal ps h d) (l' : Legal ps' h' d) (hv : d.isVar = true) (hr : Reach ps h d pg s) {pg0 pg1 : Bytes}
    (hl : pg0.length = ps') (hi : Api.initPage pg0 ps' h' d = some (pg1, true)) (hw : vsz ps' = vsz ps) :
    ∃ pg' rs o t, run ps' d pg1 (s.map Op.append) = some (pg', rs) ∧ Api.spaceOcc pg ps d = some o ∧
      Api.spaceAllotted pg1 ps' d = some t ∧ (rs = List.replicate s.length 1 ↔ o ≤ t) := by
  obtain ⟨pg', rs, h1, h2, -⟩ := C100_exact l l' hr hl hi
  have r1 : Reach ps' h' d pg1 [] := ⟨pg0, pg1, [], [], hl, hi, by simp, rfl, .nil _⟩
  refine ⟨pg', rs, _, _, h1, (hr.rep l.fit).spaceOcc, (r1.rep l'.fit).spaceAllotted, ?_⟩
  rw [h2, ← fitsOn_iff l']
  unfold FitsOn
  rw [if_pos hv, usedSpace_var hv, usedSpace_var hv, hw]

/-- C100. Twice the size is necessary in general, and the figures of the pages do not tell: there is a page of 256 bytes, with an occupied
space of 251 bytes, whose slots do not all go onto a page of any size between 257 and 511 bytes, although the space allotted there is up to
501 bytes. They go onto a page of 512 bytes. -/
theorem C100_tight : ∃ pg s, Legal 256 0 exVar ∧ Reach 256 0 exVar pg s ∧ Api.spaceOcc pg 256 exVar = some 251 ∧
    (∀ ps' pg0 pg1, 256 < ps' → ps' < 512 → pg0.length = ps' → Api.initPage pg0 ps' 0 exVar = some (pg1, true) →
      Api.spaceAllotted pg1 ps' exVar = some (ps' - 10) ∧
      ∃ pg' rs, run ps' exVar pg1 (s.map Op.append) = some (pg', rs) ∧ rs ≠ List.replicate s.length 1) ∧
    (∀ pg0 pg1, pg0.length = 512 → Api.initPage pg0 512 0 exVar = some (pg1, true) →
      ∃ pg', run 512 exVar pg1 (s.map Op.append) = some (pg', List.replicate s.length 1)) := by
  have l : Legal 256 0 exVar := by constructor <;> decide
  have hv : exVar.isVar = true := rfl
  obtain ⟨p, ok, m, h1, -, -, -, h2⟩ := l.fit.init (pg0 := List.replicate 256 7) List.length_replicate
  have hok : (Api.initPage (List.replicate 256 7) 256 0 exVar).map (·.2) = some true := by decide +kernel
  rw [h1] at hok
  cases ok with
  | false => cases hok
  | true =>
    have hr : Reach 256 0 exVar p [] := ⟨List.replicate 256 7, p, [], [], List.length_replicate, h1, by simp, rfl, .nil _⟩
    have R1 := (h2 rfl).1
    have hw : AllWF exVar (List.replicate 251 none) := by
      intro x hx
      obtain ⟨-, rfl⟩ := List.mem_replicate.mp hx
      intro t ht; cases ht
    have hz : liveSum (List.replicate 251 none) = 0 := by decide +kernel
    obtain ⟨pg, rs, k1, -, k2, k3⟩ := append_all l hr hw
    obtain ⟨pg'', m1, -⟩ := fill R1 R1.packed_nil hw (by
      rw [List.nil_append, fitsOn_iff l, hz, List.length_replicate]
      unfold Needed; rw [if_pos hv]; decide)
    rw [k1] at m1; cases m1
    have hR := k3 rfl
    rw [List.nil_append] at hR
    refine ⟨pg, _, l, hR, ?_, ?_, ?_⟩
    · rw [(hR.rep l.fit).spaceOcc, usedSpace_var hv, hz, List.length_replicate]; rfl
    · intro ps' pg0 pg1 ha hb hl hi
      have l' : Legal ps' 0 exVar := by constructor <;> first | omega | decide
      have hvs : vsz ps' = 2 := by
        unfold vsz
        rw [if_pos (by omega), if_pos (by omega), if_neg (by omega)]
      have r1 : Reach ps' 0 exVar pg1 [] := ⟨pg0, pg1, [], [], hl, hi, by simp, rfl, .nil _⟩
      obtain ⟨pg', rs, e1, e2, -⟩ := C100_exact l l' hR hl hi
      refine ⟨?_, pg', rs, e1, fun hx => ?_⟩
      · rw [(r1.rep l'.fit).spaceAllotted]
        unfold areaStart wAddr
        rw [if_pos hv, hvs]
      · have := e2.mp hx
        rw [hz, List.length_replicate] at this
        unfold Needed at this
        rw [if_pos hv, hvs] at this
        omega
    · intro pg0 pg1 hl hi
      have l' : Legal 512 0 exVar := by constructor <;> decide
      obtain ⟨pg', e, -⟩ := C100_double l l' hR hl hi (by omega)
      exact ⟨pg', e⟩

/-! ### Examples -/

example : ∃ pg, Legal 128 8 exVar ∧ Legal 200 40 exVar ∧ Legal 300 8 exVar ∧ Reach 128 8 exVar pg exVarSlots ∧ 1 < exVarSlots.length ∧
    (Api.initPage (List.replicate 200 1) 200 40 exVar).map (·.2) = some true ∧ vsz 200 = vsz 128 ∧ 128 + 40 ≤ 200 + 8 ∧
    (Api.initPage (List.replicate 300 1) 300 8 exVar).map (·.2) = some true ∧ 2 * 128 ≤ 300 ∧ vsz 300 ≠ vsz 128 := by
  obtain ⟨pg, hp⟩ := exVar_reach
  exact ⟨pg, exVar_legal, by constructor <;> decide, by constructor <;> decide, hp, by decide, by decide +kernel, by decide, by decide,
    by decide +kernel, by decide, by decide⟩

example : ∃ pg, Legal 128 8 exFix ∧ Legal 300 8 exFix ∧ Reach 128 8 exFix pg exFixSlots ∧ 1 < exFixSlots.length ∧
    (Api.initPage (List.replicate 300 1) 300 8 exFix).map (·.2) = some true := by
  obtain ⟨pg, hp⟩ := exFix_reach
  exact ⟨pg, exFix_legal, by constructor <;> decide, hp, by decide, by decide +kernel⟩

end Props
end TS
