import Verif.SlottedUpdate
/-
The remaining slotted page operations: insert, swap, discard, trailing tomb stones, discard all,
zero out free space, and the space queries.
-/
namespace TS

/-! ### Byte effect of the block moves on metadata words -/

theorem rotRight_spec {m : Bytes} {off len rot : Nat} (hb : off + len ≤ m.length)
    (hr : rot ≤ len) : ∃ m', rotRight m off len rot = some m' ∧ m'.length = m.length ∧
      ∀ i, m'[i]? = if off ≤ i ∧ i < off + len then
        (if i < off + rot then m[i + (len - rot)]? else m[i - rot]?) else m[i]? := by
  have hl : (rd m off len).length = len := rd_length m off len hb
  have hl2 : ((rd m off len).drop (len - rot) ++ (rd m off len).take (len - rot)).length = len := by
    simp [hl]
  refine ⟨wr m off ((rd m off len).drop (len - rot) ++ (rd m off len).take (len - rot)),
    ?_, by simp, ?_⟩
  · simp only [rotRight, load_eq hb, Option.bind_eq_bind, Option.bind_some, if_pos hr]
    rw [store_eq (by rw [hl2]; exact hb)]
  · intro i
    rw [wr_getElem?, hl2]
    by_cases hi : off ≤ i ∧ i < off + len
    · rw [if_pos (by omega), if_pos hi]
      by_cases hi2 : i < off + rot
      · rw [if_pos hi2, List.getElem?_append_left (by simp [hl]; omega), List.getElem?_drop,
          rd_getElem?, if_pos (by omega)]
        congr 1; omega
      · rw [if_neg hi2, List.getElem?_append_right (by simp [hl]; omega)]
        simp only [List.length_drop, hl]
        rw [List.getElem?_take, if_pos (by omega), rd_getElem?, if_pos (by omega)]
        congr 1; omega
    · rw [if_neg (by omega), if_neg hi]

/-- Rotating `c` metadata words starting at word `k` right by one. -/
theorem rotRight_words {ps h K : Nat} {pg : Bytes} (b : Base ps h K pg) {k c : Nat} (hc : 1 ≤ c)
    (hk : k + c ≤ K) : ∃ pg', rotRight pg (wAddr ps h k) (c * vsz ps) (vsz ps) = some pg' ∧
      Base ps h K pg' ∧ hdrBytes ps h pg' = hdrBytes ps h pg ∧
      (∀ o l, wAddr ps h K ≤ o → rd pg' o l = rd pg o l) ∧
      (∀ j, word ps h pg' j = if j = k then word ps h pg (k + (c - 1))
        else if k < j ∧ j < k + c then word ps h pg (j - 1) else word ps h pg j) := by
  have hN := vsz_pos ps
  have e1 : wAddr ps h (k + c) = wAddr ps h k + c * vsz ps := wAddr_add ..
  have hm := wAddr_mono ps h hk
  have hfit := b.fits
  have hlen := b.len
  have hcN : 1 * vsz ps ≤ c * vsz ps := Nat.mul_le_mul_right _ hc
  obtain ⟨m', h1, h2, h3⟩ := rotRight_spec (m := pg) (off := wAddr ps h k) (len := c * vsz ps)
    (rot := vsz ps) (by omega) (by omega)
  have hge := wAddr_ge ps h k
  have hout : ∀ o l, (o + l ≤ wAddr ps h k ∨ wAddr ps h (k + c) ≤ o) → rd m' o l = rd pg o l := by
    intro o l ho
    apply rd_ext
    intro i hi
    rw [h3, if_neg (by omega)]
  refine ⟨m', h1, ⟨by omega, ?_, b.lt, hfit⟩, hout _ _ (.inl (by omega)), ?_, ?_⟩
  · rw [hout _ _ (.inl (by omega))]; exact b.hdr
  · intro o l ho; exact hout _ _ (.inr (by omega))
  · intro j
    unfold word
    by_cases hj : j = k
    · subst hj
      rw [if_pos rfl]
      congr 1
      apply rd_ext
      intro i hi
      rw [h3, if_pos (by omega), if_pos (by omega)]
      congr 1
      rw [wAddr_add, Nat.sub_mul]
      omega
    · rw [if_neg hj]
      split
      · rename_i hjr
        congr 1
        apply rd_ext
        intro i hi
        have e2 := wAddr_succ ps h (j - 1)
        rw [show j - 1 + 1 = j by omega] at e2
        have e3 := wAddr_mono ps h (show k ≤ j - 1 by omega)
        have e4 := wAddr_mono ps h (show j + 1 ≤ k + c by omega)
        have e5 := wAddr_succ ps h j
        rw [h3, if_pos (by omega), if_neg (by omega)]
        congr 1
        omega
      · rename_i hjr
        congr 1
        apply hout
        have e5 := wAddr_succ ps h j
        rcases Nat.lt_or_ge j k with hlt | hge
        · left
          have := wAddr_mono ps h (show j + 1 ≤ k from hlt)
          omega
        · right
          exact wAddr_mono ps h (show k + c ≤ j by omega)

theorem swapIn_spec {m : Bytes} {a b len : Nat} (ha : a + len ≤ m.length)
    (hb : b + len ≤ m.length) :
    swapIn m a b len = some (wr (wr m a (rd m b len)) b (rd m a len)) := by
  have hla := rd_length m a len ha
  have hlb := rd_length m b len hb
  simp only [swapIn, load_eq ha, load_eq hb, Option.bind_eq_bind, Option.bind_some]
  rw [store_eq (by omega)]
  simp only [Option.bind_some]
  rw [store_eq (by rw [wr_length]; omega)]

/-- Exchanging two different metadata words. -/
theorem swapIn_words {ps h K : Nat} {pg : Bytes} (b : Base ps h K pg) {i j : Nat} (hij : i ≠ j)
    (hi : i < K) (hj : j < K) :
    ∃ pg', swapIn pg (wAddr ps h i) (wAddr ps h j) (vsz ps) = some pg' ∧
      Base ps h K pg' ∧ hdrBytes ps h pg' = hdrBytes ps h pg ∧
      (∀ o l, wAddr ps h K ≤ o → rd pg' o l = rd pg o l) ∧
      (∀ k, word ps h pg' k = if k = i then word ps h pg j
        else if k = j then word ps h pg i else word ps h pg k) := by
  have hbi := b.wb hi
  have hbj := b.wb hj
  have hli := rd_length pg _ _ hbi
  have hlj := rd_length pg _ _ hbj
  have hgi := wAddr_ge ps h i
  have hgj := wAddr_ge ps h j
  have hg0 : wAddr ps h 0 = vsz ps + h := by simp [wAddr]
  have hsep : ∀ a c, a ≠ c → wAddr ps h a + vsz ps ≤ wAddr ps h c ∨
      wAddr ps h c + vsz ps ≤ wAddr ps h a := by
    intro a c hac
    rw [← wAddr_succ, ← wAddr_succ]
    rcases Nat.lt_or_gt_of_ne hac with h1 | h1
    · exact .inl (wAddr_mono ps h h1)
    · exact .inr (wAddr_mono ps h h1)
  refine ⟨_, swapIn_spec hbi hbj, (b.wr (by omega)).wr (by omega), ?_, ?_, ?_⟩
  · rw [hdrBytes_wr _ (by omega), hdrBytes_wr _ (by omega)]
  · intro o l ho
    have e1 := wAddr_mono ps h (show i + 1 ≤ K from hi)
    have e2 := wAddr_mono ps h (show j + 1 ≤ K from hj)
    rw [wAddr_succ] at e1 e2
    rw [rd_wr_disj _ _ _ _ _ (.inr (by omega)), rd_wr_disj _ _ _ _ _ (.inr (by omega))]
  · intro k
    unfold word
    by_cases hki : k = i
    · subst hki
      rw [if_pos rfl, rd_wr_disj _ _ _ _ _ (by rw [hli]; exact hsep _ _ hij)]
      have := rd_wr_same pg (wAddr ps h k) (rd pg (wAddr ps h j) (vsz ps)) (by omega)
      rw [hlj] at this
      rw [this]
    · rw [if_neg hki]
      by_cases hkj : k = j
      · subst hkj
        rw [if_pos rfl]
        have := rd_wr_same (wr pg (wAddr ps h i) (rd pg (wAddr ps h k) (vsz ps))) (wAddr ps h k)
          (rd pg (wAddr ps h i) (vsz ps)) (by rw [wr_length]; omega)
        rw [hli] at this
        rw [this]
      · rw [if_neg hkj, rd_wr_disj _ _ _ _ _ (by rw [hli]; exact hsep _ _ hkj),
          rd_wr_disj _ _ _ _ _ (by rw [hlj]; exact hsep _ _ hki)]

theorem moveIn_spec {m : Bytes} {dst src len : Nat} (hs : src + len ≤ m.length)
    (hd : dst + len ≤ m.length) : moveIn m dst src len = some (wr m dst (rd m src len)) := by
  have hl := rd_length m src len hs
  simp only [moveIn, load_eq hs, Option.bind_eq_bind, Option.bind_some]
  rw [store_eq (by omega)]

/-- Moving `c` metadata words from word `k + 1` down by one. -/
theorem moveIn_words {ps h K : Nat} {pg : Bytes} (b : Base ps h K pg) {k c : Nat}
    (hk : k + 1 + c ≤ K) :
    ∃ pg', moveIn pg (wAddr ps h k) (wAddr ps h (k + 1)) (c * vsz ps) = some pg' ∧
      Base ps h K pg' ∧ hdrBytes ps h pg' = hdrBytes ps h pg ∧
      (∀ o l, wAddr ps h K ≤ o → rd pg' o l = rd pg o l) ∧
      (∀ j, word ps h pg' j = if k ≤ j ∧ j < k + c then word ps h pg (j + 1)
        else word ps h pg j) := by
  have hN := vsz_pos ps
  have e1 : wAddr ps h (k + 1 + c) = wAddr ps h (k + 1) + c * vsz ps := wAddr_add ..
  have e0 := wAddr_succ ps h k
  have e2 : wAddr ps h (k + c) = wAddr ps h k + c * vsz ps := wAddr_add ..
  have hm := wAddr_mono ps h hk
  have hfit := b.fits
  have hlen := b.len
  have hge := wAddr_ge ps h k
  have hg0 : wAddr ps h 0 = vsz ps + h := by simp [wAddr]
  have hlb := rd_length pg (wAddr ps h (k + 1)) (c * vsz ps) (by omega)
  refine ⟨_, moveIn_spec (by omega) (by omega), b.wr (by omega), ?_, ?_, ?_⟩
  · rw [hdrBytes_wr _ (by omega)]
  · intro o l ho
    rw [rd_wr_disj _ _ _ _ _ (.inr (by omega))]
  · intro j
    unfold word
    have e5 := wAddr_succ ps h j
    split
    · rename_i hj
      have e3 := wAddr_mono ps h hj.1
      have e4 := wAddr_mono ps h (show j + 1 ≤ k + c from hj.2)
      rw [rd_wr_sub _ _ _ (by omega) _ _ e3 (by omega)]
      rw [rd_rd _ _ _ _ _ (by omega)]
      congr 2; omega
    · rename_i hj
      rw [rd_wr_disj]
      rw [hlb]
      rcases Nat.lt_or_ge j k with hlt | hge
      · left
        have := wAddr_mono ps h (show j + 1 ≤ k from hlt)
        omega
      · right
        have := wAddr_mono ps h (show k + c ≤ j by omega)
        omega

namespace Slotted

variable {ps h : Nat} {d : SizeDef} {pg : Bytes} {s : Slots} {z : Nat}

theorem liveSum_perm {a b : Slots} (hp : a.Perm b) : liveSum a = liveSum b :=
  (hp.map dataLen).sum_nat

theorem tombs_perm {a b : Slots} (hp : a.Perm b) : tombs a = tombs b := hp.countP_eq _

/-- Permuting the slot array. -/
theorem Rep.reindex (r : Rep ps h d pg s) {pg' : Bytes} {s' : Slots} (π σ : Nat → Nat)
    (hp : s'.Perm s) (hb : Base ps h (4 + s.length) pg')
    (hh : ∀ o l, wAddr ps h (4 + s.length) ≤ o → rd pg' o l = rd pg o l)
    (hw : ∀ k, k < 4 → word ps h pg' k = word ps h pg k)
    (ho : ∀ i, i < s.length → word ps h pg' (4 + i) = word ps h pg (4 + π i))
    (hs : ∀ i, i < s.length → s'[i]? = s[π i]?)
    (hinj : ∀ i j, i < s.length → j < s.length → i ≠ j → π i ≠ π j)
    (hσ : ∀ i, i < s.length → σ i < s.length ∧ π (σ i) = i) :
    Rep ps h d pg' s' := by
  have hl := hp.length_eq
  have he : eofs ps h pg' = eofs ps h pg := by
    unfold eofs; rw [hw 3 (by omega)]
  have hsp := r.space
  refine ⟨⟨r.var, by rw [hl]; exact hb, ?_, ?_, ?_, ?_, ?_, ?_⟩, ?_⟩
  · rw [hw 0 (by omega), r.occ, liveSum_perm hp, hl]
  · rw [hw 1 (by omega), r.cnt, hl]
  · rw [hw 2 (by omega), r.tomb, tombs_perm hp]
  · rw [he, hl]; exact hsp
  · rw [he]; exact r.eofs_le
  · rw [he]
    refine Lay.reindex (m := pg') (offs := fun i => word ps h pg (4 + i))
      (r.lay.congr (fun _ _ => rfl) ?_ (fun i t ht => (r.lay.live i t ht).1)) π
      (by rw [hl]; exact hs) (by rw [hl]; exact ho) (by rw [hl]; exact hinj)
    intro i t hi
    have := r.live hi
    exact hh _ _ (by omega)
  · unfold Tight
    rw [he]
    rcases r.tight with h1 | ⟨i, t, h1, h2⟩
    · exact .inl h1
    · right
      have hi := (r.live h1).2.2.2.2
      obtain ⟨h3, h4⟩ := hσ i hi
      exact ⟨σ i, t, by rw [hs _ h3, h4]; exact h1, by rw [ho _ h3, h4]; exact h2⟩

/-- The logical page with `ext` inserted before index `i`. -/
theorem insertPerm (s : Slots) (i : Nat) (ext : Option Bytes) :
    (s.take i ++ ext :: s.drop i).Perm (s ++ [ext]) := by
  have h1 : (s.take i ++ ext :: s.drop i).Perm (ext :: (s.take i ++ s.drop i)) :=
    List.perm_middle
  rw [List.take_append_drop] at h1
  exact h1.trans (List.perm_append_comm (l₁ := [ext]) (l₂ := s))

/-- `insert_tuple_slotted_page`. -/
theorem Rep.insert_at (r : Rep ps h d pg s) {i : Nat} {ext : Option Bytes} (hw : ExtOk d ext) :
    (i ≤ s.length ∧ vsz ps + dataLen ext ≤ free ps h pg s →
      ∃ pg', Slotted.insert pg ps d i ext = some (pg', true) ∧
        Rep ps h d pg' (s.take i ++ ext :: s.drop i) ∧
        hdrBytes ps h pg' = hdrBytes ps h pg ∧
        (∀ j, j < s.length + 1 → j ≠ i →
          word ps h pg' (4 + j) = word ps h pg (4 + (if i < j then j - 1 else j))) ∧
        (∀ t, ext = some t → word ps h pg' (4 + i) = eofs ps h pg - t.length)) ∧
    (¬ (i ≤ s.length ∧ vsz ps + dataLen ext ≤ free ps h pg s) →
      Slotted.insert pg ps d i ext = some (pg, false)) := by
  simp only [Slotted.insert, r.tupleCount, Option.bind_eq_bind, Option.bind_some]
  refine ⟨fun ⟨hi, hf⟩ => ?_, fun hn => ?_⟩
  · rw [if_neg (by omega)]
    obtain ⟨pg1, h1, h2, h3, h4, h5, h6⟩ := (r.append_at hw).1 hf
    simp only [h1, Option.bind_some, Bool.not_true, Bool.false_eq_true, if_false, h2.tupleCount,
      List.length_append, List.length_singleton, sub32_eq (show 1 ≤ s.length + 1 by omega),
      Nat.add_sub_cancel]
    by_cases hil : i = s.length
    · subst hil
      rw [if_pos rfl]
      refine ⟨pg1, rfl, by simpa using h2, h3, ?_, h6⟩
      intro j hj hne
      rw [if_neg (by omega)]
      exact h5 j (by omega)
    · rw [if_neg hil, sub32_eq (show i ≤ s.length + 1 by omega)]
      have hb := h2.base
      rw [List.length_append, List.length_singleton] at hb
      obtain ⟨pg2, g1, g2, g3, g4, g5⟩ := rotRight_words hb (k := 4 + i) (c := s.length + 1 - i)
        (by omega) (by omega)
      simp only [Option.bind_some, offIth_eq hb (show 4 ≤ 4 + (s.length + 1) by omega)
        (show 4 + i ≤ 4 + (s.length + 1) by omega), g1]
      refine ⟨pg2, rfl, ?_, by rw [g3, h3], ?_, ?_⟩
      rotate_left
      · intro j hj hji
        rw [g5, if_neg (by omega)]
        by_cases hlt : i < j
        · rw [if_pos (by omega), if_pos hlt, show 4 + j - 1 = 4 + (j - 1) by omega]
          exact h5 _ (by omega)
        · rw [if_neg (by omega), if_neg hlt]
          exact h5 _ (by omega)
      · intro t ht
        rw [g5, if_pos (by omega), show 4 + i + (s.length + 1 - i - 1) = 4 + s.length by omega]
        exact h6 t ht
      have hlen : (s ++ [ext]).length = s.length + 1 := by simp
      refine h2.reindex
        (fun j => if j = i then s.length else if i < j then j - 1 else j)
        (fun j => if j = s.length then i else if i ≤ j then j + 1 else j)
        (insertPerm s i ext) (by rw [hlen]; exact g2) (by rw [hlen]; exact g4) ?_ ?_ ?_ ?_ ?_
      · intro k hk
        rw [g5, if_neg (by omega), if_neg (by omega)]
      · intro j hj
        rw [hlen] at hj
        rw [g5]
        by_cases hji : j = i
        · rw [if_pos (by omega), if_pos hji]; congr 1; omega
        · rw [if_neg (by omega), if_neg hji]
          by_cases hlt : i < j
          · rw [if_pos (by omega), if_pos hlt]; congr 1; omega
          · rw [if_neg (by omega), if_neg hlt]
      · intro j hj
        rw [hlen] at hj
        have htl : (s.take i).length = i := by simp; omega
        by_cases hji : j = i
        · rw [if_pos hji, List.getElem?_append_right (by omega)]
          simp [htl, hji]
        · rw [if_neg hji]
          by_cases hlt : i < j
          · rw [if_pos hlt, List.getElem?_append_right (by omega), htl,
              List.getElem?_append_left (by omega)]
            rw [show j - i = (j - i - 1) + 1 by omega, List.getElem?_cons_succ, List.getElem?_drop]
            congr 1; omega
          · rw [if_neg hlt, List.getElem?_append_left (by omega),
              List.getElem?_append_left (by omega), List.getElem?_take, if_pos (by omega)]
      · intro a c ha hc hac
        rw [hlen] at ha hc
        split <;> split <;> (try split) <;> (try split) <;> omega
      · intro j hj
        rw [hlen] at hj ⊢
        constructor
        · split
          · omega
          · split <;> omega
        · by_cases h1 : j = s.length
          · simp [h1]
          · by_cases h2 : i ≤ j
            · simp only [if_neg h1, if_pos h2]
              rw [if_neg (by omega), if_pos (by omega)]; omega
            · simp only [if_neg h1, if_neg h2]
              rw [if_neg (by omega), if_neg (by omega)]
  · split
    · rfl
    · have hf : free ps h pg s < vsz ps + dataLen ext := by
        rcases Nat.lt_or_ge (free ps h pg s) (vsz ps + dataLen ext) with h1 | h1
        · exact h1
        · exact absurd ⟨by omega, h1⟩ hn
      simp [(r.append hw).2 hf]

theorem Rep.insert (r : Rep ps h d pg s) {i : Nat} {ext : Option Bytes} (hw : ExtOk d ext) :
    (i ≤ s.length ∧ vsz ps + dataLen ext ≤ free ps h pg s →
      ∃ pg', Slotted.insert pg ps d i ext = some (pg', true) ∧
        Rep ps h d pg' (s.take i ++ ext :: s.drop i) ∧
        hdrBytes ps h pg' = hdrBytes ps h pg) ∧
    (¬ (i ≤ s.length ∧ vsz ps + dataLen ext ≤ free ps h pg s) →
      Slotted.insert pg ps d i ext = some (pg, false)) := by
  refine ⟨fun hc => ?_, (r.insert_at hw).2⟩
  obtain ⟨pg', h1, h2, h3, -⟩ := (r.insert_at hw).1 hc
  exact ⟨pg', h1, h2, h3⟩

/-- `swap_tuples_slotted_page`. -/
theorem Rep.swap_at (r : Rep ps h d pg s) (i j : Nat) :
    (i < s.length ∧ j < s.length →
      ∃ pg', Slotted.swap pg ps i j = some (pg', true) ∧ Rep ps h d pg' (swapSlots s i j) ∧
        hdrBytes ps h pg' = hdrBytes ps h pg ∧
        (∀ k, k < s.length →
          word ps h pg' (4 + k) = word ps h pg (4 + (if k = i then j else if k = j then i else k)))) ∧
    (¬ (i < s.length ∧ j < s.length) → Slotted.swap pg ps i j = some (pg, false)) := by
  simp only [Slotted.swap, r.tupleCount, Option.bind_eq_bind, Option.bind_some]
  refine ⟨fun ⟨hi, hj⟩ => ?_, fun hn => by rw [if_pos (by omega)]; rfl⟩
  rw [if_neg (by omega)]
  have hsi : s[i]? = some s[i] := List.getElem?_eq_getElem hi
  have hsj : s[j]? = some s[j] := List.getElem?_eq_getElem hj
  have hsw : swapSlots s i j = (s.set i s[j]).set j s[i] := by simp [swapSlots, hsi, hsj]
  by_cases hij : i = j
  · subst hij
    rw [if_pos rfl]
    have : swapSlots s i i = s := by rw [hsw]; simp
    refine ⟨pg, rfl, by rw [this]; exact r, rfl, ?_⟩
    intro k hk
    by_cases hki : k = i <;> simp [hki]
  · rw [if_neg hij]
    obtain ⟨pg', g1, g2, g3, g4, g5⟩ := swapIn_words r.base (i := 4 + i) (j := 4 + j) (by omega)
      (by omega) (by omega)
    simp only [offIth_eq r.base (show 4 ≤ 4 + s.length by omega)
        (show 4 + i ≤ 4 + s.length by omega), offIth_eq r.base (show 4 ≤ 4 + s.length by omega)
        (show 4 + j ≤ 4 + s.length by omega), Option.bind_some, g1]
    have hwk : ∀ k, k < s.length →
        word ps h pg' (4 + k) = word ps h pg (4 + (if k = i then j else if k = j then i else k)) := by
      intro k hk
      rw [g5]
      by_cases h1 : k = i
      · rw [if_pos (by omega), if_pos h1]
      · rw [if_neg (by omega), if_neg h1]
        by_cases h2 : k = j
        · rw [if_pos (by omega), if_pos h2]
        · rw [if_neg (by omega), if_neg h2]
    refine ⟨pg', rfl, ?_, g3, hwk⟩
    rw [hsw]
    refine r.reindex (fun k => if k = i then j else if k = j then i else k)
      (fun k => if k = i then j else if k = j then i else k) ?_ g2 g4 ?_ ?_ ?_ ?_ ?_
    · exact List.set_set_perm hi hj
    · intro k hk
      rw [g5, if_neg (by omega), if_neg (by omega)]
    · exact hwk
    · intro k hk
      rw [List.getElem?_set, List.getElem?_set]
      by_cases h1 : k = i
      · rw [if_pos h1, if_neg (by omega), if_pos (by omega), hsj]; simp [hi]
      · rw [if_neg h1]
        by_cases h2 : k = j
        · rw [if_pos h2, if_pos (by omega), hsi]; simp [hj]
        · rw [if_neg h2, if_neg (by omega), if_neg (by omega)]
    · intro a c _ _ hac
      split <;> split <;> (try split) <;> (try split) <;> omega
    · intro k hk
      constructor
      · split
        · exact hj
        · split <;> omega
      · by_cases h1 : k = i
        · simp [h1]
        · by_cases h2 : k = j
          · simp [h2]
          · simp [h1, h2]

theorem Rep.swap (r : Rep ps h d pg s) (i j : Nat) :
    (i < s.length ∧ j < s.length →
      ∃ pg', Slotted.swap pg ps i j = some (pg', true) ∧ Rep ps h d pg' (swapSlots s i j) ∧
        hdrBytes ps h pg' = hdrBytes ps h pg) ∧
    (¬ (i < s.length ∧ j < s.length) → Slotted.swap pg ps i j = some (pg, false)) := by
  refine ⟨fun hc => ?_, (r.swap_at i j).2⟩
  obtain ⟨pg', h1, h2, h3, -⟩ := (r.swap_at i j).1 hc
  exact ⟨pg', h1, h2, h3⟩

theorem liveSum_eraseIdx (s : Slots) (i : Nat) (x : Option Bytes) (hi : s[i]? = some x) :
    liveSum (s.eraseIdx i) + dataLen x = liveSum s := by
  induction s generalizing i with
  | nil => simp at hi
  | cons a r ih =>
    cases i with
    | zero => simp at hi; subst hi; simp; omega
    | succ i => simp at hi; have := ih i hi; simp; omega

theorem tombs_eraseIdx (s : Slots) (i : Nat) (x : Option Bytes) (hi : s[i]? = some x) :
    tombs (s.eraseIdx i) + (if x = none then 1 else 0) = tombs s := by
  induction s generalizing i with
  | nil => simp at hi
  | cons a r ih =>
    cases i with
    | zero => simp at hi; subst hi; cases a <;> simp
    | succ i => simp at hi; have := ih i hi; cases a <;> simp <;> omega

/-- `discard_tuple_slotted_page`. -/
theorem Rep.discard_at (r : Rep ps h d pg s) (i : Nat) :
    (i < s.length →
      ∃ pg', Slotted.discard pg ps d i = some (pg', true) ∧ Rep ps h d pg' (s.eraseIdx i) ∧
        hdrBytes ps h pg' = hdrBytes ps h pg ∧
        (∀ j, j < s.length - 1 →
          word ps h pg' (4 + j) = word ps h pg (4 + (if j < i then j else j + 1)))) ∧
    (¬ i < s.length → Slotted.discard pg ps d i = some (pg, false)) := by
  simp only [Slotted.discard, r.tupleCount, Option.bind_eq_bind, Option.bind_some]
  refine ⟨fun hi => ?_, fun hn => by rw [if_pos (by omega)]; rfl⟩
  rw [if_neg (by omega)]
  have hs : s[i]? = some s[i] := List.getElem?_eq_getElem hi
  have b := r.base
  have hN := vsz_pos ps
  have hsp := r.space
  have hel := r.eofs_le
  have hlt := r.base.lt
  have hpow := le_pow_vsz r.base.lt
  have htl := tombs_le s
  have h4lt := lt_wAddr ps h (4 + s.length)
  have h4lt' := lt_wAddr ps h 4
  have hocc := r.occ_lt
  have hls := liveSum_eraseIdx s i s[i] hs
  have hte := tombs_eraseIdx s i s[i] hs
  have hosz : (if word ps h pg (4 + i) = 0 then some 0
      else tupleSize d (pg.drop (word ps h pg (4 + i)))) = some (dataLen s[i]) := by
    cases hx : s[i] with
    | none =>
      rw [if_pos ((r.word_eq_zero hi).mpr (by rw [hs, hx]))]; rfl
    | some t =>
      rw [hx] at hs
      have h0 := r.off_pos hs
      have hlv := r.live hs
      rw [if_neg (by omega), tupleSize_at hlv.2.2.2.1 hlv.2.2.1]; rfl
  obtain ⟨pg1, g1, b1, g3, g4, g5⟩ := moveIn_words b (k := 4 + i) (c := s.length - (i + 1))
    (by omega)
  have hmul : s.length * vsz ps = (s.length - 1) * vsz ps + vsz ps := by
    rw [← Nat.succ_mul]; congr 1; omega
  simp only [r.tupOff hi, Option.bind_some, Option.pure_def, hosz, offCount_eq b (show 4 ≤ 4 + s.length by omega),
    loadVal_word b (show 1 < 4 + s.length by omega), r.cnt,
    sub32_eq (show i + 1 ≤ s.length by omega), offIth_eq b (show 4 ≤ 4 + s.length by omega)
      (show 4 + i ≤ 4 + s.length by omega), offIth_eq b (show 4 ≤ 4 + s.length by omega)
      (show 4 + (i + 1) ≤ 4 + s.length by omega), overhead, ← Nat.add_assoc, g1,
    sub32_eq (show 1 ≤ s.length by omega), offCount_eq b1 (show 4 ≤ 4 + s.length by omega),
    storeVal_word b1 (show 1 < 4 + s.length by omega)]
  have b2 := b1.setWord 1 (s.length - 1)
  have g5' : ∀ k, k < 4 → word ps h pg1 k = word ps h pg k := by
    intro k hk; rw [g5, if_neg (by omega)]
  have e2 : word ps h (setWord ps h pg1 1 (s.length - 1)) 2 = tombs s := by
    pgsimp 0; rw [g5' 2 (by omega), r.tomb]
  -- the optional tomb stone update
  have hstep : ∃ pg3, (if word ps h pg (4 + i) = 0 then
        (offTomb (setWord ps h pg1 1 (s.length - 1)) ps).bind fun o =>
          (loadVal (setWord ps h pg1 1 (s.length - 1)) ps o).bind fun z =>
            (sub32 z 1).bind fun z =>
              (offTomb (setWord ps h pg1 1 (s.length - 1)) ps).bind fun o =>
                storeVal (setWord ps h pg1 1 (s.length - 1)) ps o z
      else some (setWord ps h pg1 1 (s.length - 1))) = some pg3 ∧
      Base ps h (4 + s.length) pg3 ∧ hdrBytes ps h pg3 = hdrBytes ps h pg1 ∧
      (∀ o l, wAddr ps h (4 + s.length) ≤ o → rd pg3 o l = rd pg1 o l) ∧
      word ps h pg3 2 = tombs (s.eraseIdx i) ∧ word ps h pg3 1 = s.length - 1 ∧
      (∀ k, k ≠ 1 → k ≠ 2 → word ps h pg3 k = word ps h pg1 k) := by
    cases hx : s[i] with
    | none =>
      have h0 := (r.word_eq_zero hi).mpr (by rw [hs, hx])
      have htp := tombs_pos s i (by rw [hs, hx])
      simp only [hx, if_true] at hte
      rw [if_pos h0]
      simp only [offTomb_eq b2 (show 4 ≤ 4 + s.length by omega), Option.bind_some,
        loadVal_word b2 (show 2 < 4 + s.length by omega), e2, sub32_eq htp,
        storeVal_word b2 (show 2 < 4 + s.length by omega)]
      refine ⟨_, rfl, b2.setWord 2 _, by simp only [hdrBytes_setWord], ?_, ?_, ?_, ?_⟩
      · intro o l ho; pgsimp (4 + s.length)
      · rw [word_setWord_eq b2 (by omega) (by omega)]; omega
      · pgsimp 0; rw [word_setWord_eq b1 (by omega) (by omega)]
      · intro k h1 h2; pgsimp 0
    | some t =>
      rw [hx] at hs
      have h0 := r.off_pos hs
      simp [hx] at hte
      rw [if_neg (by omega)]
      refine ⟨_, rfl, b2, by simp only [hdrBytes_setWord], ?_, ?_, ?_, ?_⟩
      · intro o l ho; pgsimp (4 + s.length)
      · rw [e2, hte]
      · rw [word_setWord_eq b1 (by omega) (by omega)]
      · intro k h1 h2; pgsimp 0
  obtain ⟨pg3, k1, b3, k3, k4, k5, k6, k7⟩ := hstep
  rw [k1]
  have b4 := b3.setWord 0 (liveSum s + s.length * vsz ps - (dataLen s[i] + vsz ps))
  have e3 : word ps h pg3 0 = liveSum s + s.length * vsz ps := by
    rw [k7 0 (by omega) (by omega), g5' 0 (by omega), r.occ]
  simp only [Option.bind_some, offOcc_eq b3, loadVal_word b3 (show 0 < 4 + s.length by omega), e3,
    sub32_eq (show dataLen s[i] + vsz ps ≤ liveSum s + s.length * vsz ps by omega),
    storeVal_word b3 (show 0 < 4 + s.length by omega),
    endFree_eq b4 (show 4 ≤ 4 + s.length by omega)]
  have e4 : eofs ps h pg3 = eofs ps h pg := by
    unfold eofs; rw [k7 3 (by omega) (by omega), g5' 3 (by omega)]
  have hll : (s.eraseIdx i).length = s.length - 1 := List.length_eraseIdx_of_lt hi
  have hwj : ∀ v j, j < s.length - 1 → word ps h (setWord ps h pg3 0 v) (4 + j) =
      word ps h pg (4 + (if j < i then j else j + 1)) := by
    intro v j hj
    pgsimp 0
    rw [k7 _ (by omega) (by omega), g5]
    by_cases hji : j < i
    · rw [if_neg (by omega), if_pos hji]
    · rw [if_pos (by omega), if_neg hji]; rfl
  have hR : Rep0 ps h d (setWord ps h pg3 0 (liveSum s + s.length * vsz ps - (dataLen s[i] + vsz ps)))
      (s.eraseIdx i) (tombs (s.eraseIdx i)) := by
    refine ⟨r.var, b4.mono (by omega), ?_, ?_, ?_, ?_, ?_, ?_⟩
    · rw [word_setWord_eq b3 (by omega) (by omega), hll]; omega
    · pgsimp 0; rw [k6, hll]
    · pgsimp 0; exact k5
    · pgsimp 0
      have := wAddr_mono ps h (show 4 + (s.eraseIdx i).length ≤ 4 + s.length by omega)
      omega
    · pgsimp 0; omega
    · pgsimp 0
      rw [e4]
      refine Lay.reindex (offs := fun j => word ps h pg (4 + j)) (r.lay.congr (fun _ _ => rfl) ?_
        (fun i t ht => (r.lay.live i t ht).1)) (fun j => if j < i then j else j + 1) ?_ ?_ ?_
      · intro j t hj
        have := r.live hj
        pgsimp (4 + s.length)
        rw [k4 _ _ (by omega), g4 _ _ (by omega)]
      · intro j hj
        rw [List.getElem?_eraseIdx]
        split <;> rfl
      · intro j hj
        have := hwj 0 j (by omega)
        rw [word_setWord_ne _ (by omega)] at this
        exact this
      · intro a c _ _ hac
        split <;> split <;> omega
  pgsimp 0
  rw [e4]
  split
  · rename_i heq
    obtain ⟨e, h1, h2, h3, h4, h5⟩ := hR.recomputeEnd
    refine ⟨_, by rw [h1]; rfl, ⟨h2, h3⟩, ?_, ?_⟩
    · simp only [hdrBytes_setWord, k3, g3]
    · intro j hj
      rw [word_setWord_ne _ (by omega)]
      exact hwj _ j hj
  · rename_i hne
    refine ⟨_, rfl, ⟨hR, ?_⟩, by simp only [hdrBytes_setWord, k3, g3], hwj _⟩
    unfold Tight
    rw [eofs_setWord_ne _ (by omega), e4]
    rcases r.tight with ht | ⟨j, u, h1, h2⟩
    · left; exact ht
    · right
      have hji : j ≠ i := by rintro rfl; exact hne h2
      have hjl := (r.live h1).2.2.2.2
      by_cases hlt : j < i
      · refine ⟨j, u, ?_, ?_⟩
        · rw [List.getElem?_eraseIdx_of_lt hlt]; exact h1
        · rw [hwj _ _ (by omega), if_pos hlt]; exact h2
      · refine ⟨j - 1, u, ?_, ?_⟩
        · rw [List.getElem?_eraseIdx_of_ge (by omega), show j - 1 + 1 = j by omega]; exact h1
        · rw [hwj _ _ (by omega), if_neg (by omega), show j - 1 + 1 = j by omega]; exact h2

theorem Rep.discard (r : Rep ps h d pg s) (i : Nat) :
    (i < s.length →
      ∃ pg', Slotted.discard pg ps d i = some (pg', true) ∧ Rep ps h d pg' (s.eraseIdx i) ∧
        hdrBytes ps h pg' = hdrBytes ps h pg) ∧
    (¬ i < s.length → Slotted.discard pg ps d i = some (pg, false)) := by
  refine ⟨fun hc => ?_, (r.discard_at i).2⟩
  obtain ⟨pg', h1, h2, h3, -⟩ := (r.discard_at i).1 hc
  exact ⟨pg', h1, h2, h3⟩

end Slotted
end TS
