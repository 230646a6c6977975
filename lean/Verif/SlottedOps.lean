import Verif.SlottedRep
import Verif.PageSpec
/-
Every slotted page operation preserves the representation and acts on the logical page as the
specification says.
-/
namespace TS
namespace Slotted

variable {ps h : Nat} {d : SizeDef} {pg : Bytes} {s : Slots} {z : Nat}




theorem spaceFor_eq {ext : Option Bytes} (hw : ExtOk d ext) :
    spaceFor ps d ext = some (vsz ps + dataLen ext) := by
  cases ext with
  | none => simp [spaceFor, overhead]
  | some t =>
    have h1 := hw t rfl
    have h2 := h1.lt
    have h3 := vsz_le ps
    simp [spaceFor, h1.size, overhead, u32_eq (show vsz ps + t.length < 4294967296 by omega)]

theorem Rep.canAppend (r : Rep ps h d pg s) {ext : Option Bytes} (hw : ExtOk d ext) :
    Slotted.canAppend pg ps d ext = some (decide (vsz ps + dataLen ext ≤ free ps h pg s)) := by
  simp only [Slotted.canAppend, spaceFor_eq hw, r.freeSpace, Option.bind_eq_bind,
    Option.bind_some, Option.pure_def]

theorem Rep0.occ_lt (r : Rep0 ps h d pg s z) :
    liveSum s + s.length * vsz ps + wAddr ps h 4 ≤ ps := by
  have h1 := r.sum_le
  have h2 := r.space
  have h3 := r.eofs_le
  rw [wAddr_add] at h2
  omega

theorem Rep0.live (r : Rep0 ps h d pg s z) {i : Nat} {t : Bytes} (hi : s[i]? = some (some t)) :
    eofs ps h pg ≤ word ps h pg (4 + i) ∧ word ps h pg (4 + i) + t.length ≤ ps ∧
      rd pg (word ps h pg (4 + i)) t.length = t ∧ WellFormed d t ∧ i < s.length :=
  have h1 := r.lay.live i t hi
  ⟨h1.1, h1.2.1, h1.2.2.1, h1.2.2.2, (List.getElem?_eq_some_iff.mp hi).1⟩

theorem allocate_eq {K : Nat} (b : Base ps h K pg) (hK : 4 ≤ K) {sz : Nat}
    (hn : 4 + word ps h pg 1 ≤ K)
    (hle : wAddr ps h (4 + word ps h pg 1) + sz ≤ eofs ps h pg) :
    allocate pg ps sz =
      some (setWord ps h pg 3 (eofs ps h pg - sz), eofs ps h pg - sz) := by
  simp only [allocate, freeSpace_eq b hK hn (by omega), endFree_eq b hK, Option.bind_eq_bind,
    Option.bind_some, offEofs_eq b hK, storeVal_word b (show 3 < K by omega),
    sub32_eq (show sz ≤ eofs ps h pg by omega)]
  rw [if_neg (by omega)]
  rfl

theorem load_all (t : Bytes) : load t 0 t.length = some t := by
  rw [load_eq (by omega)]
  simp [rd]

/-- Computes words, heap contents and header bytes of a page with `K` metadata words after
metadata and heap writes. -/
macro "pgsimp" K:term : tactic => `(tactic|
  simp (disch := omega) only [word_setWord_ne, word_wr_ge $K, eofs_setWord_ne,
    eofs_wr_ge $K, rd_setWord_ge $K, hdrBytes_setWord])

/-- Writing a fresh slot and a tuple below all the others. -/
theorem Rep.append_at (r : Rep ps h d pg s) {ext : Option Bytes} (hw : ExtOk d ext) :
    (vsz ps + dataLen ext ≤ free ps h pg s →
      ∃ pg', Slotted.append pg ps d ext = some (pg', true) ∧ Rep ps h d pg' (s ++ [ext]) ∧
        hdrBytes ps h pg' = hdrBytes ps h pg ∧
        eofs ps h pg' = eofs ps h pg - dataLen ext ∧
        (∀ j, j < s.length → word ps h pg' (4 + j) = word ps h pg (4 + j)) ∧
        (∀ t, ext = some t → word ps h pg' (4 + s.length) = eofs ps h pg - t.length)) ∧
    (free ps h pg s < vsz ps + dataLen ext →
      Slotted.append pg ps d ext = some (pg, false)) := by
  refine ⟨fun hc => ?_, fun hn => by
    simp [Slotted.append, r.canAppend hw, show ¬ (vsz ps + dataLen ext ≤ free ps h pg s) by omega]⟩
  have hN := vsz_pos ps
  have h4lt := lt_wAddr ps h 4
  have hpow := le_pow_vsz r.base.lt
  have hocc := r.occ_lt
  have hsp := r.space
  have hel := r.eofs_le
  have hlt := r.base.lt
  have hsum := r.sum_le
  have hc' := hc
  unfold free at hc'
  have hs4 : wAddr ps h (4 + s.length) = wAddr ps h 4 + s.length * vsz ps := wAddr_add ..
  have hfit : wAddr ps h (4 + s.length + 1) + dataLen ext ≤ eofs ps h pg := by
    rw [wAddr_succ]; omega
  have hnlt := lt_wAddr ps h (4 + s.length + 1)
  have b0 : Base ps h (4 + s.length + 1) pg :=
    ⟨r.base.len, r.base.hdr, r.base.lt, by omega⟩
  have ht := tombs_le s
  simp only [Slotted.append, r.canAppend hw, Option.bind_eq_bind, Option.bind_some]
  rw [decide_eq_true hc]
  simp only [Bool.not_true, Bool.false_eq_true, if_false, offCount_eq b0 (by omega),
    Option.bind_some, loadVal_word b0 (show 1 < 4 + s.length + 1 by omega), r.cnt,
    u32_eq (show s.length + 1 < 4294967296 by omega),
    storeVal_word b0 (show 1 < 4 + s.length + 1 by omega)]
  have b1 := b0.setWord 1 (s.length + 1)
  rw [offIth_eq b1 (by omega) (show 4 + (s.length + 1 - 1) ≤ 4 + s.length + 1 by omega)]
  simp only [Nat.add_sub_cancel]
  cases ext with
  | none =>
    simp only [Option.bind_some, storeVal_word b1 (show 4 + s.length < 4 + s.length + 1 by omega)]
    have b2 := b1.setWord (4 + s.length) 0
    simp only [offTomb_eq b2 (by omega), loadVal_word b2 (show 2 < 4 + s.length + 1 by omega),
      storeVal_word b2 (show 2 < 4 + s.length + 1 by omega), Option.bind_some]
    pgsimp (4 + s.length + 1)
    rw [r.tomb]
    have b3 := b2.setWord 2 (tombs s + 1)
    simp only [u32_eq (show tombs s + 1 < 4294967296 by omega), Option.pure_def, offOcc_eq b3,
      loadVal_word b3 (show 0 < 4 + s.length + 1 by omega),
      storeVal_word b3 (show 0 < 4 + s.length + 1 by omega), Option.bind_some, overhead]
    pgsimp (4 + s.length + 1)
    rw [r.occ]
    simp only [dataLen_none] at *
    rw [u32_eq (show liveSum s + s.length * vsz ps + vsz ps < 4294967296 by omega)]
    simp only [Option.bind_some]
    have b4 := b3.setWord 0 (liveSum s + s.length * vsz ps + vsz ps)
    refine ⟨_, rfl, ?_, ?_, by pgsimp (4 + s.length + 1); omega, ?_, by simp⟩
    · refine ⟨⟨r.var, by simpa [Nat.add_assoc] using b4, ?_, ?_, ?_, ?_, ?_, ?_⟩, ?_⟩
      · rw [word_setWord_eq b3 (by omega) (by omega)]
        simp [Nat.succ_mul]; omega
      · pgsimp (4 + s.length + 1)
        rw [word_setWord_eq b0 (by omega) (by omega)]
        simp
      · pgsimp (4 + s.length + 1)
        rw [word_setWord_eq b2 (by omega) (by omega)]
        simp
      · pgsimp (4 + s.length + 1); simpa [Nat.add_assoc] using hfit
      · pgsimp (4 + s.length + 1); exact hel
      · pgsimp (4 + s.length + 1)
        refine Lay.snoc_none (offs := fun i => word ps h pg (4 + i))
          (r.lay.congr (fun _ _ => rfl) ?_ (fun i t ht => (r.lay.live i t ht).1)) ?_ ?_
        · intro i t hi
          have h1 := (r.live hi).1
          pgsimp (4 + s.length + 1)
        · skip
          rw [word_setWord_eq b1 (by omega) (by omega)]
        · intro j hj
          pgsimp (4 + s.length + 1)
      · unfold Tight
        pgsimp (4 + s.length + 1)
        rcases r.tight with h1 | ⟨i, t, h1, h2⟩
        · left; exact h1
        · right
          refine ⟨i, t, ?_, ?_⟩
          · rw [List.getElem?_append_left (List.getElem?_eq_some_iff.mp h1).1]; exact h1
          · have := (List.getElem?_eq_some_iff.mp h1).1
            pgsimp (4 + s.length + 1)
            exact h2
    · simp only [hdrBytes_setWord]
    · intro j hj
      pgsimp (4 + s.length + 1)
  | some t =>
    have hwf := hw t rfl
    have htp := hwf.pos r.var
    have htl := hwf.lt
    have hNle := vsz_le ps
    simp only [dataLen_some] at *
    have hw1 : word ps h (setWord ps h pg 1 (s.length + 1)) 1 = s.length + 1 :=
      word_setWord_eq b0 (by omega) (by omega)
    have he1 : eofs ps h (setWord ps h pg 1 (s.length + 1)) = eofs ps h pg :=
      eofs_setWord_ne _ (by omega) _
    have hal := allocate_eq b1 (by omega) (sz := t.length) (by rw [hw1]; omega)
      (by rw [hw1, he1]; exact hfit)
    rw [he1] at hal
    have b2 := b1.setWord 3 (eofs ps h pg - t.length)
    have b3 := b2.setWord (4 + s.length) (eofs ps h pg - t.length)
    have hepos : wAddr ps h (4 + s.length + 1) ≤ eofs ps h pg - t.length := by omega
    have helt : eofs ps h pg - t.length < 256 ^ vsz ps := by omega
    have hlen3 : ∀ (a b c : Nat), eofs ps h pg - t.length + t.length ≤
        (setWord ps h (setWord ps h (setWord ps h pg 1 c) 3 a) (4 + s.length) b).length := by
      intro a b c; simp only [setWord_length]; rw [r.base.len]; omega
    simp only [hwf.size, Option.bind_some, overhead, hal,
      u32_eq (show vsz ps + t.length < 4294967296 by omega), load_all, Option.pure_def,
      storeVal_word b2 (show 4 + s.length < 4 + s.length + 1 by omega),
      store_eq (hlen3 _ _ _)]
    have hw04 := wAddr_mono ps h (show 0 ≤ 4 + s.length + 1 by omega)
    have b4 := b3.wr (o := eofs ps h pg - t.length) (s := t) (by omega)
    simp only [offOcc_eq b4, loadVal_word b4 (show 0 < 4 + s.length + 1 by omega),
      storeVal_word b4 (show 0 < 4 + s.length + 1 by omega), Option.bind_some]
    pgsimp (4 + s.length + 1)
    rw [r.occ]
    simp only [Option.bind_some,
      u32_eq (show liveSum s + s.length * vsz ps + (vsz ps + t.length) < 4294967296 by omega)]
    have b5 := b4.setWord 0 (liveSum s + s.length * vsz ps + (vsz ps + t.length))
    have hset : s ++ [some t] = (s ++ [none]).set s.length (some t) := by simp
    refine ⟨_, rfl, ?_, ?_, ?_, ?_, ?_⟩
    · refine ⟨⟨r.var, by simpa [Nat.add_assoc] using b5, ?_, ?_, ?_, ?_, ?_, ?_⟩, ?_⟩
      · rw [word_setWord_eq b4 (by omega) (by omega)]
        simp [Nat.succ_mul]; omega
      · pgsimp (4 + s.length + 1)
        rw [hw1]; simp
      · pgsimp (4 + s.length + 1)
        rw [r.tomb]; simp
      · pgsimp (4 + s.length + 1)
        rw [eofs_setWord b1 (by omega) (by omega) (by omega)]
        simpa [Nat.add_assoc] using hepos
      · pgsimp (4 + s.length + 1)
        rw [eofs_setWord b1 (by omega) (by omega) (by omega)]
        omega
      · rw [hset]
        refine Lay.fill (o := eofs ps h pg - t.length) (m := pg)
          (Lay.snoc_none (offs := fun i => word ps h pg (4 + i))
            (offs' := fun i => if i = s.length then 0 else word ps h pg (4 + i)) r.lay
            (by simp) (by intro j hj; simp; omega)) (i := s.length)
          (by simp) ?_ ?_ hwf (by omega) ?_ ?_ ?_ ?_ ?_
        · pgsimp (4 + s.length + 1)
          rw [eofs_setWord b1 (by omega) (by omega) (by omega)]; omega
        · pgsimp (4 + s.length + 1)
          rw [eofs_setWord b1 (by omega) (by omega) (by omega)]; omega
        · pgsimp (4 + s.length + 1)
          rw [rd_wr_same]
          rw [b3.len]; omega
        · intro j u hj
          left
          rw [List.getElem?_append] at hj
          split at hj
          · have := (r.live hj).1
            rw [if_neg (by omega)]; omega
          · rcases hk : j - s.length with _ | k <;> simp [hk] at hj
        · intro j u hj
          rw [List.getElem?_append] at hj
          split at hj
          · have h1 := (r.live hj).1
            rw [if_neg (by omega)]
            pgsimp (4 + s.length + 1)
            rw [rd_wr_disj _ _ _ _ _ (.inr (by omega))]
            pgsimp (4 + s.length + 1)
          · rcases hk : j - s.length with _ | k <;> simp [hk] at hj
        · pgsimp (4 + s.length + 1)
          exact word_setWord_eq b2 (by omega) helt
        · intro j hj hjl
          rw [if_neg hj]
          simp at hjl
          pgsimp (4 + s.length + 1)
      · right
        refine ⟨s.length, t, by simp, ?_⟩
        pgsimp (4 + s.length + 1)
        rw [word_setWord_eq b2 (by omega) helt, eofs_setWord b1 (by omega) (by omega) (by omega)]
    · rw [hdrBytes_setWord, hdrBytes_wr _ (by omega)]
      simp only [hdrBytes_setWord]
    · pgsimp (4 + s.length + 1)
      rw [eofs_setWord b1 (by omega) (by omega) (by omega)]
    · intro j hj
      pgsimp (4 + s.length + 1)
    · intro u hu
      cases hu
      pgsimp (4 + s.length + 1)
      exact word_setWord_eq b2 (by omega) helt

theorem Rep.append (r : Rep ps h d pg s) {ext : Option Bytes} (hw : ExtOk d ext) :
    (vsz ps + dataLen ext ≤ free ps h pg s →
      ∃ pg', Slotted.append pg ps d ext = some (pg', true) ∧ Rep ps h d pg' (s ++ [ext]) ∧
        hdrBytes ps h pg' = hdrBytes ps h pg ∧
        eofs ps h pg' = eofs ps h pg - dataLen ext) ∧
    (free ps h pg s < vsz ps + dataLen ext →
      Slotted.append pg ps d ext = some (pg, false)) := by
  refine ⟨fun hc => ?_, (r.append_at hw).2⟩
  obtain ⟨pg', h1, h2, h3, h4, -⟩ := (r.append_at hw).1 hc
  exact ⟨pg', h1, h2, h3, h4⟩

end Slotted
end TS
