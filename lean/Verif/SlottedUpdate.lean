import Verif.SlottedOps
/-
`update_tuple_slotted_page` and the helpers that reclaim free space.
-/
namespace TS
namespace Slotted

variable {ps h : Nat} {d : SizeDef} {pg : Bytes} {s : Slots} {z : Nat}

theorem minOffLoop_spec {K : Nat} (b : Base ps h K pg) (hK : 4 ≤ K) : ∀ (n i acc : Nat),
    4 + i + n ≤ K →
    ∃ m, minOffLoop pg ps n i acc = some m ∧ m ≤ acc ∧
      (∀ j, i ≤ j → j < i + n → word ps h pg (4 + j) ≠ 0 → m ≤ word ps h pg (4 + j)) ∧
      (m = acc ∨ ∃ j, i ≤ j ∧ j < i + n ∧ word ps h pg (4 + j) ≠ 0 ∧ m = word ps h pg (4 + j)) := by
  intro n
  induction n with
  | zero => intro i acc _; exact ⟨acc, rfl, Nat.le_refl _, by intro j h1 h2; omega, .inl rfl⟩
  | succ n ih =>
    intro i acc hi
    obtain ⟨m, h1, h2, h3, h4⟩ := ih (i + 1)
      (if word ps h pg (4 + i) ≠ 0 then min acc (word ps h pg (4 + i)) else acc) (by omega)
    refine ⟨m, ?_, ?_, ?_, ?_⟩
    · simp only [minOffLoop, tupOff_eq b hK (show 4 + i < K by omega), Option.bind_eq_bind,
        Option.bind_some]
      exact h1
    · split at h2 <;> omega
    · intro j hj1 hj2 hj3
      by_cases hji : j = i
      · subst hji; rw [if_pos hj3] at h2; omega
      · exact h3 j (by omega) (by omega) hj3
    · rcases h4 with h4 | ⟨j, h5, h6, h7, h8⟩
      · split at h4
        · rename_i hne
          rcases Nat.le_total acc (word ps h pg (4 + i)) with hle | hle
          · left; rw [h4]; omega
          · right; exact ⟨i, by omega, by omega, hne, by omega⟩
        · left; exact h4
      · right; exact ⟨j, by omega, by omega, h7, h8⟩

/-- Reclaiming free space. -/
theorem Rep0.recomputeEnd (r : Rep0 ps h d pg s z) :
    ∃ e, Slotted.recomputeEnd pg ps = some (setWord ps h pg 3 e) ∧
      Rep0 ps h d (setWord ps h pg 3 e) s z ∧ Tight ps h (setWord ps h pg 3 e) s ∧
      eofs ps h pg ≤ e ∧ eofs ps h (setWord ps h pg 3 e) = e := by
  have b := r.base
  obtain ⟨e, h1, h2, h3, h4⟩ := minOffLoop_spec b (by omega) s.length 0 ps (by omega)
  have hsp := r.space
  have hel := r.eofs_le
  have hlt := r.base.lt
  have h4lt := lt_wAddr ps h (4 + s.length)
  have hlow : eofs ps h pg ≤ e := by
    rcases h4 with h4 | ⟨j, _, hj, hne, h4⟩
    · omega
    · have hs : s[j]? = some s[j] := List.getElem?_eq_getElem (by omega)
      cases hx : s[j] with
      | none => exact absurd ((r.word_eq_zero (by omega)).mpr (by rw [hs, hx])) hne
      | some t => rw [h4]; exact (r.live (by rw [hs, hx])).1
  have he : eofs ps h (setWord ps h pg 3 e) = e := eofs_setWord b (by omega) (by omega) h2
  refine ⟨e, ?_, ?_, ?_, hlow, he⟩
  · simp only [Slotted.recomputeEnd, r.tupleCount, Option.bind_eq_bind, Option.bind_some, h1,
      offEofs_eq b (by omega), storeVal_word b (show 3 < 4 + s.length by omega)]
  · refine ⟨r.var, b.setWord 3 e, ?_, ?_, ?_, by omega, by omega, ?_⟩
    · pgsimp 0; exact r.occ
    · pgsimp 0; exact r.cnt
    · pgsimp 0; exact r.tomb
    · rw [he]
      refine r.lay.congr ?_ ?_ ?_
      · intro i hi; pgsimp 0
      · intro i t hi
        have := r.live hi
        pgsimp (4 + s.length)
      · intro i t hi
        have h5 := r.live hi
        have h6 := r.off_pos hi
        exact h3 i (by omega) (by omega) (by omega)
  · unfold Tight
    rw [he]
    rcases h4 with h4 | ⟨j, _, hj, hne, h4⟩
    · left; exact h4
    · right
      have hs : s[j]? = some s[j] := List.getElem?_eq_getElem (by omega)
      cases hx : s[j] with
      | none => exact absurd ((r.word_eq_zero (by omega)).mpr (by rw [hs, hx])) hne
      | some t =>
        refine ⟨j, t, by rw [hs, hx], ?_⟩
        pgsimp 0; exact h4.symm

/-- Lowering the end of free space. -/
theorem Rep0.allocate (r : Rep0 ps h d pg s z) {sz : Nat}
    (hfit : wAddr ps h (4 + s.length) + sz ≤ eofs ps h pg) :
    Slotted.allocate pg ps sz =
      some (setWord ps h pg 3 (eofs ps h pg - sz), eofs ps h pg - sz) ∧
    Rep0 ps h d (setWord ps h pg 3 (eofs ps h pg - sz)) s z ∧
    eofs ps h (setWord ps h pg 3 (eofs ps h pg - sz)) = eofs ps h pg - sz := by
  have b := r.base
  have hel := r.eofs_le
  have h4lt := lt_wAddr ps h (4 + s.length)
  have he : eofs ps h (setWord ps h pg 3 (eofs ps h pg - sz)) = eofs ps h pg - sz :=
    eofs_setWord b (by omega) (by omega) (by omega)
  refine ⟨allocate_eq b (by omega) (by rw [r.cnt]; omega) (by rw [r.cnt]; exact hfit), ?_, he⟩
  refine ⟨r.var, b.setWord 3 _, ?_, ?_, ?_, by omega, by omega, ?_⟩
  · pgsimp 0; exact r.occ
  · pgsimp 0; exact r.cnt
  · pgsimp 0; exact r.tomb
  · rw [he]
    refine r.lay.congr ?_ ?_ ?_
    · intro i hi; pgsimp 0
    · intro i t hi
      have := r.live hi
      pgsimp (4 + s.length)
    · intro i t hi
      have h5 := r.live hi
      omega

/-- Storing a tuple in free memory and making slot `i` point to it. -/
theorem Rep0.place (r : Rep0 ps h d pg s z) {i : Nat} (hi : s[i]? = some none) {t : Bytes}
    (hwf : WellFormed d t) {o : Nat} (hlo : eofs ps h pg ≤ o) (hhi : o + t.length ≤ ps)
    (hfree : ∀ j u, s[j]? = some (some u) →
      o + t.length ≤ word ps h pg (4 + j) ∨ word ps h pg (4 + j) + u.length ≤ o) :
    ∃ pg', (do
        let pg ← storeVal pg ps (wAddr ps h (4 + i)) o
        let b ← load t 0 t.length
        let pg ← store pg o b
        let occ ← loadVal pg ps (← offOcc pg ps)
        let occ ← u32 (occ + t.length)
        storeVal pg ps (← offOcc pg ps) occ : Option Bytes) = some pg' ∧
      Rep0 ps h d pg' (s.set i (some t)) z ∧
      hdrBytes ps h pg' = hdrBytes ps h pg ∧ eofs ps h pg' = eofs ps h pg ∧
      word ps h pg' (4 + i) = o ∧
      (∀ j, j ≠ i → j < s.length → word ps h pg' (4 + j) = word ps h pg (4 + j)) := by
  have hil : i < s.length := (List.getElem?_eq_some_iff.mp hi).1
  have b := r.base
  have htp := hwf.pos r.var
  have hsp := r.space
  have hlt := r.base.lt
  have hel := r.eofs_le
  have hpow := le_pow_vsz r.base.lt
  have h4lt := lt_wAddr ps h 4
  have hls := liveSum_set s i none (some t) hi
  simp only [dataLen_none, dataLen_some] at hls
  have b1 := b.setWord (4 + i) o
  have hw04 := wAddr_mono ps h (show 0 ≤ 4 + s.length by omega)
  have b2 := b1.wr (o := o) (s := t) (by omega)
  have hst : o + t.length ≤ (setWord ps h pg (4 + i) o).length := by
    rw [setWord_length, b.len]; exact hhi
  have b3 := b2.setWord 0 (liveSum s + s.length * vsz ps + t.length)
  have hs4 : wAddr ps h (4 + s.length) = wAddr ps h 4 + s.length * vsz ps := wAddr_add ..
  simp only [storeVal_word b (show 4 + i < 4 + s.length by omega), load_all, store_eq hst,
    Option.bind_eq_bind, Option.bind_some, offOcc_eq b2,
    loadVal_word b2 (show 0 < 4 + s.length by omega),
    storeVal_word b2 (show 0 < 4 + s.length by omega)]
  pgsimp (4 + s.length)
  rw [r.occ]
  have hL : Lay ps d (setWord ps h (wr (setWord ps h pg (4 + i) o) o t) 0
      (liveSum s + s.length * vsz ps + t.length)) (eofs ps h pg)
      (fun j => word ps h (setWord ps h (wr (setWord ps h pg (4 + i) o) o t) 0
      (liveSum s + s.length * vsz ps + t.length)) (4 + j)) (s.set i (some t)) := by
    refine r.lay.fill hi (Nat.le_refl _) hlo hwf hhi ?_ hfree ?_ ?_ ?_
    · pgsimp (4 + s.length)
      exact rd_wr_same _ _ _ hst
    · intro j u hj
      have h1 := r.live hj
      pgsimp (4 + s.length)
      rw [rd_wr_disj _ _ _ _ _ (by have := hfree j u hj; omega)]
      pgsimp (4 + s.length)
    · pgsimp (4 + s.length)
      exact word_setWord_eq b (by omega) (by omega)
    · intro j hj hjl
      pgsimp (4 + s.length)
  have hsum := hL.sum_le hel
  have hocc : liveSum s + s.length * vsz ps + t.length < ps := by omega
  rw [u32_eq (show liveSum s + s.length * vsz ps + t.length < 4294967296 by omega)]
  simp only [Option.bind_some]
  refine ⟨_, rfl, ⟨r.var, by simpa using b3, ?_, ?_, ?_, ?_, ?_, ?_⟩, ?_, ?_, ?_, ?_⟩
  · rw [word_setWord_eq b2 (by omega) (by omega)]
    simp; omega
  · pgsimp (4 + s.length); rw [r.cnt]; simp
  · pgsimp (4 + s.length); exact r.tomb
  · pgsimp (4 + s.length); simpa using hsp
  · pgsimp (4 + s.length); exact hel
  · rw [show eofs ps h (setWord ps h (wr (setWord ps h pg (4 + i) o) o t) 0
      (liveSum s + s.length * vsz ps + t.length)) = eofs ps h pg by pgsimp (4 + s.length)]
    exact hL
  · rw [hdrBytes_setWord, hdrBytes_wr _ (by omega), hdrBytes_setWord]
  · pgsimp (4 + s.length)
  · pgsimp (4 + s.length)
    exact word_setWord_eq b (by omega) (by omega)
  · intro j hj hjl
    pgsimp (4 + s.length)

/-- Turning a live slot into a tomb stone. -/
theorem Rep0.updateDiscard (r : Rep0 ps h d pg s z) (ht : Tight ps h pg s) {i : Nat} {t : Bytes}
    (hi : s[i]? = some (some t)) :
    ∃ pg', Slotted.updateDiscard pg ps d (wAddr ps h (4 + i)) (word ps h pg (4 + i)) = some pg' ∧
      Rep0 ps h d pg' (s.set i none) z ∧ Tight ps h pg' (s.set i none) ∧
      hdrBytes ps h pg' = hdrBytes ps h pg ∧ eofs ps h pg ≤ eofs ps h pg' ∧
      (word ps h pg (4 + i) ≠ eofs ps h pg → eofs ps h pg' = eofs ps h pg) ∧
      (∀ j, j ≠ i → j < s.length → word ps h pg' (4 + j) = word ps h pg (4 + j)) := by
  have hil : i < s.length := (List.getElem?_eq_some_iff.mp hi).1
  have b := r.base
  have hlv := r.live hi
  have hsp := r.space
  have hlt := r.base.lt
  have hel := r.eofs_le
  have hpow := le_pow_vsz r.base.lt
  have h4lt := lt_wAddr ps h 4
  have hls := liveSum_set s i (some t) none hi
  have hlg := liveSum_get s i (some t) hi
  simp only [dataLen_none, dataLen_some] at hls hlg
  have b1 := b.setWord (4 + i) 0
  have b2 := b1.setWord 0 (liveSum s + s.length * vsz ps - t.length)
  have hocc := r.occ_lt
  have hts : tupleSize d ((setWord ps h pg (4 + i) 0).drop (word ps h pg (4 + i))) =
      some t.length := by
    refine tupleSize_at hlv.2.2.2.1 ?_
    pgsimp (4 + s.length)
    exact hlv.2.2.1
  simp only [Slotted.updateDiscard, storeVal_word b (show 4 + i < 4 + s.length by omega),
    Option.bind_eq_bind, Option.bind_some, hts, offOcc_eq b1,
    loadVal_word b1 (show 0 < 4 + s.length by omega),
    storeVal_word b1 (show 0 < 4 + s.length by omega)]
  pgsimp (4 + s.length)
  rw [r.occ]
  simp only [sub32_eq (show t.length ≤ liveSum s + s.length * vsz ps by omega), Option.bind_some,
    endFree_eq b2 (by omega)]
  have hR : Rep0 ps h d (setWord ps h (setWord ps h pg (4 + i) 0) 0
      (liveSum s + s.length * vsz ps - t.length)) (s.set i none) z := by
    refine ⟨r.var, by simpa using b2, ?_, ?_, ?_, ?_, ?_, ?_⟩
    · rw [word_setWord_eq b1 (by omega) (by omega)]
      simp; omega
    · pgsimp (4 + s.length); rw [r.cnt]; simp
    · pgsimp (4 + s.length); exact r.tomb
    · pgsimp (4 + s.length); simpa using hsp
    · pgsimp (4 + s.length); exact hel
    · rw [show eofs ps h (setWord ps h (setWord ps h pg (4 + i) 0) 0
        (liveSum s + s.length * vsz ps - t.length)) = eofs ps h pg by pgsimp (4 + s.length)]
      refine Lay.set_none (offs := fun j => word ps h pg (4 + j)) (r.lay.congr (fun _ _ => rfl) ?_
        (fun i t ht => (r.lay.live i t ht).1)) i ?_ ?_
      · intro j u hj
        have h1 := r.live hj
        pgsimp (4 + s.length)
      · intro _
        pgsimp (4 + s.length)
        exact word_setWord_eq b (by omega) (by omega)
      · intro j hj hjl
        pgsimp (4 + s.length)
  pgsimp (4 + s.length)
  split
  · rename_i heq
    obtain ⟨e, h1, h2, h3, h4, h5⟩ := hR.recomputeEnd
    refine ⟨_, h1, h2, h3, by simp only [hdrBytes_setWord], ?_, ?_, ?_⟩
    · rw [h5]
      refine Nat.le_trans ?_ h4
      pgsimp (4 + s.length)
      exact Nat.le_refl _
    · intro hne; exact absurd heq hne
    · intro j hj hjl
      pgsimp (4 + s.length)
  · rename_i hne
    refine ⟨_, rfl, hR, ?_, by simp only [hdrBytes_setWord], ?_, ?_, ?_⟩
    · unfold Tight
      pgsimp (4 + s.length)
      rcases ht with ht | ⟨j, u, h1, h2⟩
      · left; exact ht
      · right
        have hji : j ≠ i := by rintro rfl; exact hne h2
        refine ⟨j, u, ?_, ?_⟩
        · rw [List.getElem?_set_ne (by omega)]; exact h1
        · pgsimp (4 + s.length); exact h2
    · pgsimp (4 + s.length); exact Nat.le_refl _
    · intro _; pgsimp (4 + s.length)
    · intro j hj hjl
      pgsimp (4 + s.length)

/-- Changing the stored number of tomb stones. -/
theorem Rep0.setTomb (r : Rep0 ps h d pg s z) {z' : Nat} (hz : z' ≤ s.length) :
    Rep0 ps h d (setWord ps h pg 2 z') s z' := by
  have b := r.base
  have hsp := r.space
  have hel := r.eofs_le
  have hlt := r.base.lt
  have hpow := le_pow_vsz r.base.lt
  have h4lt := lt_wAddr ps h (4 + s.length)
  refine ⟨r.var, b.setWord 2 _, ?_, ?_, ?_, ?_, ?_, ?_⟩
  · pgsimp 0; exact r.occ
  · pgsimp 0; exact r.cnt
  · exact word_setWord_eq b (by omega) (by omega)
  · pgsimp 0; exact hsp
  · pgsimp 0; exact hel
  · refine r.lay.congr ?_ ?_ ?_
    · intro i hi; pgsimp 0
    · intro i t hi
      have := r.live hi
      pgsimp (4 + s.length)
    · intro i t hi
      pgsimp 0
      exact (r.live hi).1

theorem Tight.setTomb {z' : Nat} (ht : Tight ps h pg s) : Tight ps h (setWord ps h pg 2 z') s := by
  unfold Tight at *
  pgsimp 0
  rcases ht with h1 | ⟨i, t, h1, h2⟩
  · exact .inl h1
  · exact .inr ⟨i, t, h1, h2⟩

/-- There is room for slot `i` to become `ext`, without moving any other tuple. -/
def UpdRoom (ps h : Nat) (pg : Bytes) (s : Slots) (i : Nat) (ext : Option Bytes) : Prop :=
  match s[i]?, ext with
  | none, _ => False
  | some _, none => True
  | some none, some t => t.length ≤ free ps h pg s
  | some (some u), some t =>
    if word ps h pg (4 + i) = eofs ps h pg then t.length ≤ free ps h pg s + u.length
    else t.length ≤ u.length ∨ t.length ≤ free ps h pg s

theorem Rep0.canUpdate (r : Rep0 ps h d pg s z) (i : Nat) {ext : Option Bytes} (hw : ExtOk d ext) :
    ∃ b, Slotted.canUpdate pg ps d i ext = some b ∧ (b = true ↔ UpdRoom ps h pg s i ext) := by
  simp only [Slotted.canUpdate, r.tupleCount, Option.bind_eq_bind, Option.bind_some]
  by_cases hi : i < s.length
  · rw [if_neg (by omega)]
    have hs : s[i]? = some s[i] := List.getElem?_eq_getElem hi
    cases ext with
    | none => exact ⟨true, rfl, by simp [UpdRoom, hs]⟩
    | some t =>
      have hwf := hw t rfl
      simp only [hwf.size, Option.bind_some, r.tupOff hi, r.freeSpace]
      cases hx : s[i] with
      | none =>
        have h0 := (r.word_eq_zero hi).mpr (by rw [hs, hx])
        rw [if_neg (by simp [h0])]
        exact ⟨_, rfl, by simp [UpdRoom, hs, hx]⟩
      | some u =>
        rw [hx] at hs
        have h0 := r.off_pos hs
        have hlv := r.live hs
        rw [if_pos (by omega)]
        have hsum := r.sum_le
        have hlg := liveSum_get s i (some u) hs
        simp only [dataLen_some] at hlg
        have hsp := r.space
        have hel := r.eofs_le
        have hlt := r.base.lt
        have hfr : free ps h pg s ≤ eofs ps h pg := by unfold free; omega
        simp only [tupleSize_at hlv.2.2.2.1 hlv.2.2.1, Option.bind_some,
          endFree_eq r.base (by omega), u32_eq (show free ps h pg s + u.length < 4294967296 by omega)]
        split
        · rename_i heq
          exact ⟨_, rfl, by simp [UpdRoom, hs, heq]⟩
        · rename_i hne
          split
          · exact ⟨_, rfl, by simp [UpdRoom, hs, hne]; omega⟩
          · exact ⟨_, rfl, by simp [UpdRoom, hs, hne]; omega⟩
  · rw [if_pos (by omega)]
    exact ⟨false, rfl, by simp [UpdRoom, List.getElem?_eq_none (show s.length ≤ i by omega)]⟩

theorem updatePlace_eq {t : Bytes} (hwf : WellFormed d t) {slot old o : Nat} {inFree : Bool}
    {pg1 : Bytes} (ha : (if inFree then Slotted.allocate pg ps t.length else pure (pg, old)) =
      some (pg1, o)) :
    updatePlace pg ps d slot old inFree t = (do
        let pg ← storeVal pg1 ps slot o
        let b ← load t 0 t.length
        let pg ← store pg o b
        let occ ← loadVal pg ps (← offOcc pg ps)
        let occ ← u32 (occ + t.length)
        storeVal pg ps (← offOcc pg ps) occ : Option Bytes) := by
  cases inFree with
  | true =>
    simp only [if_true] at ha
    simp only [updatePlace, hwf.size, Option.bind_eq_bind, Option.bind_some, ha, if_true]
  | false =>
    simp only [Bool.false_eq_true, if_false, Option.pure_def, Option.some.injEq,
      Prod.mk.injEq] at ha
    simp only [updatePlace, hwf.size, Option.bind_eq_bind, Option.bind_some, Bool.false_eq_true,
      if_false, Option.pure_def, ha.1, ha.2]

/-- Writing a tuple below all the others into the tomb stone `i`. -/
theorem Rep0.placeFree (r : Rep0 ps h d pg s z) {i : Nat} (hi : s[i]? = some none) {t : Bytes}
    (hwf : WellFormed d t) (hfit : wAddr ps h (4 + s.length) + t.length ≤ eofs ps h pg)
    (old : Nat) :
    ∃ pg', updatePlace pg ps d (wAddr ps h (4 + i)) old true t = some pg' ∧
      Rep0 ps h d pg' (s.set i (some t)) z ∧ Tight ps h pg' (s.set i (some t)) ∧
      hdrBytes ps h pg' = hdrBytes ps h pg ∧ word ps h pg' (4 + i) = eofs ps h pg - t.length ∧
      (∀ j, j ≠ i → j < s.length → word ps h pg' (4 + j) = word ps h pg (4 + j)) := by
  have hil : i < s.length := (List.getElem?_eq_some_iff.mp hi).1
  obtain ⟨h1, h2, h3⟩ := r.allocate hfit
  have hel := r.eofs_le
  obtain ⟨pg', h4, h5, h6, h7, h8, h9⟩ := h2.place hi hwf (o := eofs ps h pg - t.length)
    (by omega) (by omega) (by
      intro j u hj
      have := r.live hj
      left
      pgsimp 0
      omega)
  refine ⟨pg', ?_, h5, ?_, ?_, h8, ?_⟩
  · rw [updatePlace_eq hwf (by simpa using h1)]
    exact h4
  · right
    exact ⟨i, t, by simp [hil], by rw [h8, h7, h3]⟩
  · rw [h6, hdrBytes_setWord]
  · intro j hj hjl
    rw [h9 j hj hjl]
    pgsimp 0

/-- `update_tuple_slotted_page`. -/
theorem Rep.update_at (r : Rep ps h d pg s) {i : Nat} {ext : Option Bytes} (hw : ExtOk d ext) :
    (UpdRoom ps h pg s i ext →
      ∃ pg', Slotted.update pg ps d i ext = some (pg', true) ∧ Rep ps h d pg' (s.set i ext) ∧
        hdrBytes ps h pg' = hdrBytes ps h pg ∧
        (∀ j, j ≠ i → j < s.length → word ps h pg' (4 + j) = word ps h pg (4 + j)) ∧
        (∀ u t, s[i]? = some (some u) → ext = some t → word ps h pg (4 + i) ≠ eofs ps h pg →
          t.length ≤ u.length → word ps h pg' (4 + i) = word ps h pg (4 + i))) ∧
    (¬ UpdRoom ps h pg s i ext → Slotted.update pg ps d i ext = some (pg, false)) := by
  obtain ⟨b, hb, hbr⟩ := r.canUpdate i hw
  refine ⟨fun hroom => ?_, fun hn => by
    have : b = false := by
      cases b with
      | true => exact absurd (hbr.mp rfl) hn
      | false => rfl
    simp [Slotted.update, hb, this]⟩
  have hbt := hbr.mpr hroom
  subst hbt
  have hi : i < s.length := by
    rcases Nat.lt_or_ge i s.length with h1 | h1
    · exact h1
    · simp [UpdRoom, List.getElem?_eq_none h1] at hroom
  have hs : s[i]? = some s[i] := List.getElem?_eq_getElem hi
  have hN := vsz_pos ps
  have hsp := r.space
  have hel := r.eofs_le
  have hlt := r.base.lt
  have hpow := le_pow_vsz r.base.lt
  have htl := tombs_le s
  have h4lt := lt_wAddr ps h (4 + s.length)
  simp only [Slotted.update, hb, Option.bind_eq_bind, Option.bind_some, Bool.not_true,
    Bool.false_eq_true, if_false, offIth_eq r.base (show 4 ≤ 4 + s.length by omega)
      (show 4 + i ≤ 4 + s.length by omega), loadVal_word r.base (show 4 + i < 4 + s.length by omega)]
  cases hx : s[i] with
  | none =>
    rw [hx] at hs
    have h0 := (r.word_eq_zero hi).mpr hs
    rw [if_pos h0]
    cases ext with
    | none =>
      have : s.set i none = s := by
        apply List.ext_getElem?
        intro j
        rw [List.getElem?_set]
        split
        · subst_vars; simp [hi, hx]
        · rfl
      exact ⟨pg, rfl, by rw [this]; exact r, rfl, fun _ _ _ => rfl, by simp⟩
    | some t =>
      have hwf := hw t rfl
      have hfit : wAddr ps h (4 + s.length) + t.length ≤ eofs ps h pg := by
        simp [UpdRoom, hs, free] at hroom; omega
      obtain ⟨pg1, h1, h2, h3, h4, -, h6⟩ := r.placeFree hs hwf hfit (word ps h pg (4 + i))
      have htp := tombs_pos s i hs
      have hts := tombs_set_some s i t hs
      simp only [h1, Option.bind_some, offTomb_eq h2.base (show 4 ≤ _ by omega),
        loadVal_word h2.base (show 2 < 4 + (s.set i (some t)).length by omega), h2.tomb,
        sub32_eq htp, storeVal_word h2.base (show 2 < 4 + (s.set i (some t)).length by omega)]
      have h5 := h2.setTomb (z' := tombs s - 1) (by simp; omega)
      refine ⟨_, rfl, ⟨?_, h3.setTomb⟩, by simp only [hdrBytes_setWord, h4], ?_, by simp [hs]⟩
      rotate_left
      · intro j hj hjl
        pgsimp 0
        exact h6 j hj hjl
      rw [show tombs (s.set i (some t)) = tombs s - 1 by omega]
      exact h5
  | some u =>
    rw [hx] at hs
    have h0 := r.off_pos hs
    have hlv := r.live hs
    rw [if_neg (by omega)]
    obtain ⟨pg1, h1, h2, h3, h4, h5, h6, h7⟩ := r.updateDiscard r.tight hs
    have hsi : (s.set i none)[i]? = some none := by simp [hi]
    cases ext with
    | none =>
      have hts := tombs_set_none s i u hs
      have htle := tombs_le (s.set i none)
      simp only [List.length_set] at htle
      simp only [h1, Option.bind_some, offTomb_eq h2.base (show 4 ≤ _ by omega),
        loadVal_word h2.base (show 2 < 4 + (s.set i none).length by omega), h2.tomb,
        u32_eq (show tombs s + 1 < 4294967296 by omega),
        storeVal_word h2.base (show 2 < 4 + (s.set i none).length by omega)]
      have h5 := h2.setTomb (z' := tombs s + 1) (by simp; omega)
      refine ⟨_, rfl, ⟨?_, h3.setTomb⟩, by simp only [hdrBytes_setWord, h4], ?_, by simp⟩
      rotate_left
      · intro j hj hjl
        pgsimp 0
        exact h7 j hj hjl
      rw [hts]
      exact h5
    | some t =>
      have hwf := hw t rfl
      simp only [tupleSize_at hlv.2.2.2.1 hlv.2.2.1, Option.bind_some, hwf.size, h1,
        endFree_eq r.base (show 4 ≤ 4 + s.length by omega)]
      have hset : (s.set i none).set i (some t) = s.set i (some t) := by simp
      have hts := tombs_set_same s i u t hs
      have hup := WellFormed.pos r.var hlv.2.2.2.1
      by_cases hF : word ps h pg (4 + i) = eofs ps h pg ∨ u.length < t.length
      · rw [decide_eq_true hF]
        have hfit : wAddr ps h (4 + (s.set i none).length) + t.length ≤ eofs ps h pg1 := by
          simp only [List.length_set]
          by_cases heq : word ps h pg (4 + i) = eofs ps h pg
          · have hge : eofs ps h pg + u.length ≤ eofs ps h pg1 := by
              rcases h3 with h3 | ⟨j, v, hj, hje⟩
              · rw [h3]; omega
              · have hjl : j < s.length := by
                  have := (List.getElem?_eq_some_iff.mp hj).1
                  simpa using this
                have hji : j ≠ i := by
                  rintro rfl
                  rw [hsi] at hj; simp at hj
                rw [List.getElem?_set_ne (by omega)] at hj
                rw [← hje, h7 j hji hjl]
                have hd := r.lay.disj i j u v (by omega) hs hj
                have hv := (r.live hj)
                have hvp := WellFormed.pos r.var hv.2.2.2.1
                omega
            simp [UpdRoom, hs, heq, free] at hroom
            omega
          · rw [h6 heq]
            simp [UpdRoom, hs, heq, free] at hroom
            omega
        obtain ⟨pg2, g1, g2, g3, g4, -, g6⟩ := h2.placeFree hsi hwf hfit (word ps h pg (4 + i))
        rw [hset] at g2 g3
        simp only [g1, Option.bind_some]
        refine ⟨pg2, rfl, ⟨by rw [hts]; exact g2, g3⟩, by rw [g4, h4], ?_, ?_⟩
        · intro j hj hjl
          rw [g6 j hj (by simpa using hjl), h7 j hj hjl]
        · intro u' t' hu' ht' hne hle
          cases ht'
          rw [hs] at hu'
          simp only [Option.some.injEq] at hu'
          subst hu'
          exact absurd hF (by omega)
      · rw [decide_eq_false hF]
        have hne : word ps h pg (4 + i) ≠ eofs ps h pg := fun hc => hF (.inl hc)
        have hle : t.length ≤ u.length := by omega
        obtain ⟨pg2, g1, g2, g3, g4, g5, g6⟩ := h2.place hsi hwf (o := word ps h pg (4 + i))
          (by rw [h6 hne]; omega) (by omega) (by
            intro j v hj
            have hjl : j < s.length := by
              have := (List.getElem?_eq_some_iff.mp hj).1
              simpa using this
            have hji : j ≠ i := by
              rintro rfl
              rw [hsi] at hj; simp at hj
            rw [List.getElem?_set_ne (by omega)] at hj
            rw [h7 j hji hjl]
            have hd := r.lay.disj i j u v (by omega) hs hj
            omega)
        rw [hset] at g2
        rw [updatePlace_eq hwf (pg1 := pg1) (o := word ps h pg (4 + i)) (by simp)]
        have g1' := g1
        rw [g1']
        refine ⟨pg2, rfl, ⟨by rw [hts]; exact g2, ?_⟩, by rw [g3, h4], ?_, ?_⟩
        rotate_left
        · intro j hj hjl
          rw [g6 j hj (by simpa using hjl), h7 j hj hjl]
        · intro _ _ _ _ _ _
          exact g5
        unfold Tight
        rw [g4]
        rcases h3 with h3 | ⟨j, v, hj, hje⟩
        · exact .inl h3
        · right
          have hjl : j < s.length := by
            have := (List.getElem?_eq_some_iff.mp hj).1
            simpa using this
          have hji : j ≠ i := by
            rintro rfl
            rw [hsi] at hj; simp at hj
          refine ⟨j, v, ?_, ?_⟩
          · rw [List.getElem?_set_ne (by omega)] at hj ⊢; exact hj
          · rw [g6 j hji (by simpa using hjl)]; exact hje

theorem Rep.update (r : Rep ps h d pg s) {i : Nat} {ext : Option Bytes} (hw : ExtOk d ext) :
    (UpdRoom ps h pg s i ext →
      ∃ pg', Slotted.update pg ps d i ext = some (pg', true) ∧ Rep ps h d pg' (s.set i ext) ∧
        hdrBytes ps h pg' = hdrBytes ps h pg) ∧
    (¬ UpdRoom ps h pg s i ext → Slotted.update pg ps d i ext = some (pg, false)) := by
  refine ⟨fun hc => ?_, (r.update_at hw).2⟩
  obtain ⟨pg', h1, h2, h3, -⟩ := (r.update_at hw).1 hc
  exact ⟨pg', h1, h2, h3⟩

end Slotted
end TS
