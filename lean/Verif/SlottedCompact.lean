import Verif.SlottedTail
/-
`run_page_compaction_slotted_page`.
-/
namespace TS
namespace Slotted

variable {ps h : Nat} {d : SizeDef} {pg : Bytes} {s : Slots} {z : Nat}

/-- Length of the tuple at index `i` (0 if there is none). -/
def lenAt (s : Slots) (i : Nat) : Nat := dataLen (lookup s i)

/-- Total length of the tuples on a work list. -/
def lenSum (s : Slots) (l : List (Nat × Nat)) : Nat := (l.map (fun p => lenAt s p.2)).sum

theorem lenAt_some {i : Nat} {t : Bytes} (hi : s[i]? = some (some t)) : lenAt s i = t.length := by
  simp [lenAt, lookup, hi]

theorem collectLoop_spec (r : Rep0 ps h d pg s z) : ∀ (n i : Nat), i + n ≤ s.length →
    ∃ l, collectLoop pg ps n i = some l ∧
      (∀ p ∈ l, i ≤ p.2 ∧ (∃ t, s[p.2]? = some (some t)) ∧ p.1 = word ps h pg (4 + p.2)) ∧
      (∀ k t, i ≤ k → k < i + n → s[k]? = some (some t) → (word ps h pg (4 + k), k) ∈ l) ∧
      l.Pairwise (fun a b => a.2 ≠ b.2) ∧
      lenSum s l = liveSum ((s.drop i).take n) := by
  intro n
  induction n with
  | zero => intro i _; exact ⟨[], rfl, by simp, by intro k t h1 h2; omega, by simp, by simp [lenSum]⟩
  | succ n ih =>
    intro i hi
    have hil : i < s.length := by omega
    obtain ⟨l, h1, h2, h3, h4, h5⟩ := ih (i + 1) (by omega)
    have hs : s[i]? = some s[i] := List.getElem?_eq_getElem hil
    have htk : (s.drop i).take (n + 1) = s[i] :: (s.drop (i + 1)).take n := by
      rw [List.drop_eq_getElem_cons hil, List.take_succ_cons]
    rw [htk]
    simp only [collectLoop, r.existsTuple, r.tupOff hil, Option.bind_eq_bind, Option.bind_some, h1,
      lookup, hs]
    cases hx : s[i] with
    | none =>
      rw [hx] at hs
      refine ⟨l, by simp, ?_, ?_, h4, by simpa using h5⟩
      · intro p hp
        have := h2 p hp
        exact ⟨by omega, this.2⟩
      · intro k t hk1 hk2 hk3
        have : k ≠ i := by rintro rfl; rw [hs] at hk3; simp at hk3
        exact h3 k t (by omega) (by omega) hk3
    | some t =>
      rw [hx] at hs
      refine ⟨(word ps h pg (4 + i), i) :: l, by simp, ?_, ?_, ?_, ?_⟩
      · intro p hp
        rcases List.mem_cons.mp hp with rfl | hp
        · exact ⟨Nat.le_refl _, ⟨t, hs⟩, rfl⟩
        · have := h2 p hp
          exact ⟨by omega, this.2⟩
      · intro k u hk1 hk2 hk3
        by_cases hki : k = i
        · subst hki; simp
        · exact List.mem_cons_of_mem _ (h3 k u (by omega) (by omega) hk3)
      · rw [List.pairwise_cons]
        refine ⟨?_, h4⟩
        intro p hp
        have := (h2 p hp).1
        show i ≠ p.2
        omega
      · simp only [lenSum, List.map_cons, List.sum_cons, lenAt_some hs, liveSum_cons,
          dataLen_some]
        have h5' := h5
        unfold lenSum at h5'
        rw [h5']

/-- Invariant of the relocation loop: `pg` is the page before compaction, `p` the current page,
`l` the tuples still to be processed, `e` the lowest offset in use by the processed ones. -/
structure CInv (ps h : Nat) (d : SizeDef) (pg : Bytes) (s : Slots) (l : List (Nat × Nat))
    (p : Bytes) (e : Nat) (mv : Bool) : Prop where
  base : Base ps h (4 + s.length) p
  hdr : hdrBytes ps h p = hdrBytes ps h pg
  meta4 : ∀ k, k < 4 → word ps h p k = word ps h pg k
  lay : Lay ps d p (eofs ps h pg) (fun i => word ps h p (4 + i)) s
  todo : ∀ q ∈ l, (∃ t, s[q.2]? = some (some t)) ∧ word ps h p (4 + q.2) = q.1 ∧
    q.1 + lenAt s q.2 ≤ e
  done : ∀ i t, s[i]? = some (some t) → (∀ q ∈ l, q.2 ≠ i) → e ≤ word ps h p (4 + i)
  sorted : l.Pairwise (fun a b => b.1 + lenAt s b.2 ≤ a.1)
  sum : lenSum s l + (ps - e) = liveSum s
  e_le : e ≤ ps
  low : eofs ps h pg ≤ e
  tight : e = ps ∨ ∃ i t, s[i]? = some (some t) ∧ word ps h p (4 + i) = e
  start : (∃ q ∈ l, q.1 = eofs ps h pg) ∨ e = eofs ps h pg ∨ mv = true
  still : mv = false → ∀ i, i < s.length → word ps h p (4 + i) = word ps h pg (4 + i)
  grow : ∀ i t, s[i]? = some (some t) → word ps h pg (4 + i) ≤ word ps h p (4 + i)
  order : ∀ i j t u, s[i]? = some (some t) → s[j]? = some (some u) →
    word ps h pg (4 + i) < word ps h pg (4 + j) → word ps h p (4 + i) < word ps h p (4 + j)

/-- One round of the relocation loop. -/
theorem relocLoop_cons {p : Bytes} {n o i e : Nat} {mv : Bool} {rest : List (Nat × Nat)} {t : Bytes} (hb : Base ps h (4 + n) p) (hil : i < n)
    (how : word ps h p (4 + i) = o) (hwf : WellFormed d t) (hrd : rd p o t.length = t) (hot : o + t.length ≤ ps)
    (hlo : wAddr ps h (4 + n) ≤ e - t.length) (hle : t.length ≤ e) (hel : e ≤ ps) :
    relocLoop ps d ((o, i) :: rest) p e mv =
      relocLoop ps d rest (setWord ps h (wr p (e - t.length) t) (4 + i) (e - t.length))
        (e - t.length) (mv || decide (e - t.length ≠ o)) := by
  have hw0 := wAddr_mono ps h (show 0 ≤ 4 + n by omega)
  have hmv : moveIn p (e - t.length) o t.length = some (wr p (e - t.length) t) := by
    rw [moveIn_spec (by rw [hb.len]; omega) (by rw [hb.len]; omega), hrd]
  have b1 : Base ps h (4 + n) (wr p (e - t.length) t) := hb.wr (by omega)
  simp only [relocLoop, offIth_eq hb (show 4 ≤ 4 + n by omega)
    (show 4 + i ≤ 4 + n by omega), tupOff_eq hb (show 4 ≤ 4 + n by omega)
    (show 4 + i < 4 + n by omega), how, Option.bind_eq_bind, Option.bind_some,
    tupleSize_at hwf hrd, sub32_eq (show t.length ≤ e by omega), hmv,
    storeVal_word b1 (show 4 + i < 4 + n by omega)]

/-- The invariant is kept by a round. -/
theorem CInv.step (r : Rep ps h d pg s) {o i : Nat} {rest : List (Nat × Nat)} {p : Bytes} {e : Nat} {mv : Bool}
    (c : CInv ps h d pg s ((o, i) :: rest) p e mv) :
    ∃ t, s[i]? = some (some t) ∧ o + t.length ≤ e ∧ eofs ps h pg ≤ o ∧ word ps h p (4 + i) = o ∧ WellFormed d t ∧
      rd p o t.length = t ∧ CInv ps h d pg s rest
        (setWord ps h (wr p (e - t.length) t) (4 + i) (e - t.length)) (e - t.length)
        (mv || decide (e - t.length ≠ o)) := by
  obtain ⟨⟨t, hi⟩, how, hoe⟩ := c.todo (o, i) (by simp)
  try dsimp only at hi how hoe
  have hil : i < s.length := (List.getElem?_eq_some_iff.mp hi).1
  rw [lenAt_some hi] at hoe
  have hlv := c.lay.live i t hi
  have hwf := hlv.2.2.2
  have htp := hwf.pos r.var
  rw [how] at hlv
  have hb := c.base
  have hsp := r.space
  have hel := c.e_le
  have hlt := hb.lt
  have hpow := le_pow_vsz hb.lt
  have h4lt := lt_wAddr ps h (4 + s.length)
  have hw0 := wAddr_mono ps h (show 0 ≤ 4 + s.length by omega)
  have hrd := hlv.2.2.1
  have hrest : ∀ q ∈ rest, q.1 + lenAt s q.2 ≤ o := fun q hq => (List.pairwise_cons.mp c.sorted).1 q hq
  have hne : ∀ q ∈ rest, q.2 ≠ i := by
    intro q hq hqi
    obtain ⟨⟨u, hu⟩, hw, _⟩ := c.todo q (by simp [hq])
    have h1 := hrest q hq
    rw [hqi] at hw h1
    rw [lenAt_some hi] at h1
    omega
  have b1 : Base ps h (4 + s.length) (wr p (e - t.length) t) := hb.wr (by omega)
  -- where the other live tuples are
  have hothers : ∀ j u, j ≠ i → s[j]? = some (some u) →
      e ≤ word ps h p (4 + j) ∨ word ps h p (4 + j) + u.length ≤ o := by
    intro j u hji hj
    by_cases hq : ∃ q ∈ rest, q.2 = j
    · obtain ⟨q, hq, rfl⟩ := hq
      right
      have h1 := hrest q hq
      rw [lenAt_some hj] at h1
      rw [(c.todo q (by simp [hq])).2.1]
      exact h1
    · left
      refine c.done j u hj ?_
      intro q hq' hqj
      rcases List.mem_cons.mp hq' with rfl | hq'
      · exact hji hqj.symm
      · exact hq ⟨q, hq', hqj⟩
  have hwi : word ps h (setWord ps h (wr p (e - t.length) t) (4 + i) (e - t.length)) (4 + i) =
      e - t.length := word_setWord_eq b1 (by omega) (by omega)
  have hwj : ∀ k, k < 4 + s.length → k ≠ 4 + i →
      word ps h (setWord ps h (wr p (e - t.length) t) (4 + i) (e - t.length)) k = word ps h p k := by
    intro k hk hki
    pgsimp (4 + s.length)
  have hlow : eofs ps h pg ≤ o := hlv.1
  have hsum := c.sum
  have hls : lenSum s ((o, i) :: rest) = t.length + lenSum s rest := by
    simp [lenSum, lenAt_some hi]
  rw [hls] at hsum
  have cinv : CInv ps h d pg s rest
      (setWord ps h (wr p (e - t.length) t) (4 + i) (e - t.length)) (e - t.length)
      (mv || decide (e - t.length ≠ o)) := by
    refine ⟨b1.setWord _ _, ?_, ?_, ?_, ?_, ?_, (List.pairwise_cons.mp c.sorted).2, by omega,
      by omega, by omega, ?_, ?_, ?_, ?_, ?_⟩
    · rw [hdrBytes_setWord, hdrBytes_wr _ (by omega), c.hdr]
    · intro k hk
      rw [hwj k (by omega) (by omega), c.meta4 k hk]
    · have L0 : Lay ps d p (eofs ps h pg) (fun j => if j = i then 0 else word ps h p (4 + j))
          (s.set i none) :=
        c.lay.set_none i (by simp) (by intro j hj _; simp [hj])
      have hset : (s.set i none).set i (some t) = s := by
        apply List.ext_getElem?
        intro j
        rw [List.set_set, List.getElem?_set]
        split
        · rename_i hij; rw [← hij, hi]
        · rfl
      rw [← hset]
      have hlive : ∀ j u, (s.set i none)[j]? = some (some u) → j ≠ i ∧ s[j]? = some (some u) := by
        intro j u hj
        rw [List.getElem?_set] at hj
        split at hj
        · simp at hj
        · exact ⟨by omega, hj⟩
      refine L0.fill (o := e - t.length) (by simp [hil]) (Nat.le_refl _) (by omega) hwf (by omega)
        ?_ ?_ ?_ hwi ?_
      · pgsimp (4 + s.length)
        exact rd_wr_same _ _ _ (by rw [hb.len]; omega)
      · intro j u hj
        obtain ⟨h1, h2⟩ := hlive j u hj
        have := hothers j u h1 h2
        try dsimp only
        rw [if_neg h1]; omega
      · intro j u hj
        obtain ⟨h1, h2⟩ := hlive j u hj
        have h3 := hothers j u h1 h2
        have h4 := (c.lay.live j u h2).1
        try dsimp only at h4 ⊢
        rw [if_neg h1]
        pgsimp (4 + s.length)
        rw [rd_wr_disj _ _ _ _ _ (by omega)]
      · intro j hj hjl
        simp only [List.length_set] at hjl
        try dsimp only
        rw [if_neg hj]
        exact hwj _ (by omega) (by omega)
    · intro q hq
      obtain ⟨h1, h2, h3⟩ := c.todo q (by simp [hq])
      obtain ⟨u, hu⟩ := h1
      have h5 := (List.getElem?_eq_some_iff.mp hu).1
      refine ⟨⟨u, hu⟩, ?_, ?_⟩
      · rw [hwj _ (by omega) (by have := hne q hq; omega)]; exact h2
      · have := hrest q hq; omega
    · intro j u hj hq
      have hjl := (List.getElem?_eq_some_iff.mp hj).1
      by_cases hji : j = i
      · subst hji; rw [hwi]; exact Nat.le_refl _
      · rw [hwj _ (by omega) (by omega)]
        have := c.done j u hj (by
          intro q hq' hqj
          rcases List.mem_cons.mp hq' with rfl | hq'
          · exact hji hqj.symm
          · exact hq q hq' hqj)
        omega
    · right; exact ⟨i, t, hi, hwi⟩
    · by_cases hmo : e - t.length = o
      · rcases c.start with ⟨q, hq, h1⟩ | h1 | h1
        · rcases List.mem_cons.mp hq with rfl | hq
          · right; left; dsimp only at h1; omega
          · left; exact ⟨q, hq, h1⟩
        · omega
        · right; right; simp [h1]
      · right; right; simp [hmo]
    · intro hmvf j hj
      simp only [Bool.or_eq_false_iff, decide_eq_false_iff_not, ne_eq, Classical.not_not] at hmvf
      by_cases hji : j = i
      · subst hji
        rw [hwi, hmvf.2, ← c.still hmvf.1 j hj, how]
      · rw [hwj _ (by omega) (by omega)]; exact c.still hmvf.1 j hj
    · intro j u hj
      have hjl := (List.getElem?_eq_some_iff.mp hj).1
      have hg := c.grow j u hj
      by_cases hji : j = i
      · subst hji; rw [hwi]; omega
      · rw [hwj _ (by omega) (by omega)]; exact hg
    · intro j k u v hj hk hlt
      have hjl := (List.getElem?_eq_some_iff.mp hj).1
      have hkl := (List.getElem?_eq_some_iff.mp hk).1
      have hg := c.order j k u v hj hk hlt
      by_cases hji : j = i
      · subst hji
        have hkj : k ≠ j := by rintro rfl; omega
        rw [hwi, hwj _ (by omega) (by omega)]
        have := hothers k v hkj hk
        omega
      · rw [hwj _ (by omega) (by omega)]
        by_cases hki : k = i
        · subst hki
          rw [hwi]
          have := hothers j u hji hj
          have := WellFormed.pos r.var (c.lay.live j u hj).2.2.2
          omega
        · rw [hwj _ (by omega) (by omega)]; exact hg
  exact ⟨t, hi, hoe, hlv.1, how, hwf, hrd, cinv⟩

theorem relocLoop_spec (r : Rep ps h d pg s) : ∀ (l : List (Nat × Nat)) (p : Bytes) (e : Nat)
    (mv : Bool), CInv ps h d pg s l p e mv →
    ∃ p' e' mv', relocLoop ps d l p e mv = some (p', e', mv') ∧
      CInv ps h d pg s [] p' e' mv' ∧
      (mv' = true ↔ mv = true ∨ lenSum s l < e - eofs ps h pg) := by
  intro l
  induction l with
  | nil =>
    intro p e mv c
    refine ⟨p, e, mv, rfl, c, ?_⟩
    constructor
    · exact .inl
    · intro hh
      rcases hh with hh | hh
      · exact hh
      · rcases c.start with ⟨q, hq, _⟩ | h1 | h1
        · simp at hq
        · simp [lenSum] at hh; omega
        · exact h1
  | cons q rest ih =>
    intro p e mv c
    obtain ⟨o, i⟩ := q
    obtain ⟨t, hi, hoe, hlow, how, hwf, hrd, cinv⟩ := c.step r
    have hsp := r.space
    have hel := c.e_le
    have hrest : ∀ q ∈ rest, q.1 + lenAt s q.2 ≤ o := fun q hq => (List.pairwise_cons.mp c.sorted).1 q hq
    have hstep := relocLoop_cons (mv := mv) (rest := rest) c.base (List.getElem?_eq_some_iff.mp hi).1 how hwf hrd (by omega) (by omega) (by omega) hel
    have hls : lenSum s ((o, i) :: rest) = t.length + lenSum s rest := by
      simp [lenSum, lenAt_some hi]
    obtain ⟨p', e', mv', h1, h2, h3⟩ := ih _ _ _ cinv
    refine ⟨p', e', mv', by rw [hstep]; exact h1, h2, ?_⟩
    rw [h3, hls]
    -- the remaining tuples fit below `o`
    have hfit : lenSum s rest ≤ o - eofs ps h pg := by
      have := sum_le_of_disjoint _ (rest.map (fun q => (q.1, lenAt s q.2))) (eofs ps h pg) o
        (Nat.le_refl _) hlow (by
          intro x hx
          obtain ⟨q, hq, rfl⟩ := List.mem_map.mp hx
          refine ⟨?_, hrest q hq⟩
          obtain ⟨⟨u, hu⟩, h5, _⟩ := c.todo q (by simp [hq])
          have := (c.lay.live q.2 u hu).1
          try dsimp only at this ⊢
          omega)
        (by
          rw [List.pairwise_map]
          exact (List.pairwise_cons.mp c.sorted).2.imp (fun hab => .inr hab))
      rw [List.map_map] at this
      exact this
    simp only [Bool.or_eq_true, decide_eq_true_eq]
    constructor
    · rintro ((h5 | h5) | h5)
      · exact .inl h5
      · right; omega
      · right; omega
    · rintro (h5 | h5)
      · exact .inl (.inl h5)
      · right; omega

theorem lenSum_perm {l l' : List (Nat × Nat)} (hp : l.Perm l') : lenSum s l = lenSum s l' :=
  (hp.map _).sum_nat

/-- The invariant holds when the relocation loop starts. -/
theorem Rep.cinv (r : Rep ps h d pg s) : ∃ l, collectLoop pg ps s.length 0 = some l ∧
    CInv ps h d pg s (l.mergeSort (fun a b => decide (b.1 ≤ a.1))) pg ps false := by
  obtain ⟨l, h1, h2, h3, h4, h5⟩ := collectLoop_spec r.toRep0 s.length 0 (by omega)
  have hel := r.eofs_le
  have hsp := r.space
  rw [List.drop_zero, List.take_length] at h5
  have hperm : (l.mergeSort (fun a b => decide (b.1 ≤ a.1))).Perm l := List.mergeSort_perm _ _
  have hsort : (l.mergeSort (fun a b => decide (b.1 ≤ a.1))).Pairwise
      (fun a b => decide (b.1 ≤ a.1) = true) := by
    apply List.pairwise_mergeSort
    · intro a b c hab hbc
      simp only [decide_eq_true_eq] at *; omega
    · intro a b
      simp only [Bool.or_eq_true, decide_eq_true_eq]; omega
  have hnd : (l.mergeSort (fun a b => decide (b.1 ≤ a.1))).Pairwise (fun a b => a.2 ≠ b.2) :=
    (hperm.pairwise_iff (fun {_ _} hab => Ne.symm hab)).mpr h4
  have hmem : ∀ q, q ∈ l.mergeSort (fun a b => decide (b.1 ≤ a.1)) ↔ q ∈ l :=
    fun q => hperm.mem_iff
  have hlsum : lenSum s (l.mergeSort (fun a b => decide (b.1 ≤ a.1))) = liveSum s := by
    rw [lenSum_perm hperm, h5]
  refine ⟨l, h1, ?_⟩
  generalize hl' : l.mergeSort (fun a b => decide (b.1 ≤ a.1)) = l' at *
  have cinv : CInv ps h d pg s l' pg ps false := by
    refine ⟨r.base, rfl, fun _ _ => rfl, r.lay, ?_, ?_, ?_, by omega, Nat.le_refl _, hel,
      .inl rfl, ?_, fun _ _ _ => rfl, fun _ _ _ => Nat.le_refl _, fun _ _ _ _ _ _ hh => hh⟩
    · intro q hq
      obtain ⟨_, ⟨t, ht⟩, g2⟩ := h2 q ((hmem q).mp hq)
      refine ⟨⟨t, ht⟩, g2.symm, ?_⟩
      have := r.live ht
      rw [lenAt_some ht, g2]; exact this.2.1
    · intro i t hi hq
      have := (r.live hi).2.2.2.2
      exact absurd rfl (hq _ ((hmem _).mpr (h3 i t (by omega) (by omega) hi)))
    · have hboth := List.Pairwise.and hsort hnd
      refine List.Pairwise.imp_of_mem ?_ hboth
      intro a b ha hb hab
      simp only [decide_eq_true_eq] at hab
      obtain ⟨_, ⟨t, ht⟩, ga⟩ := h2 a ((hmem a).mp ha)
      obtain ⟨_, ⟨u, hu⟩, gb⟩ := h2 b ((hmem b).mp hb)
      have hd := r.lay.disj a.2 b.2 t u hab.2 ht hu
      try dsimp only at hd
      have := WellFormed.pos r.var (r.live ht).2.2.2.1
      rw [lenAt_some hu]
      omega
    · rcases r.tight with ht | ⟨i, t, ht, g⟩
      · right; left; exact ht.symm
      · left
        have := (r.live ht).2.2.2.2
        exact ⟨_, (hmem _).mpr (h3 i t (by omega) (by omega) ht), g⟩
  exact cinv

/-- `run_page_compaction_slotted_page`. -/
theorem Rep.compact_at (r : Rep ps h d pg s) :
    ∃ pg' mv, Slotted.compact pg ps d = some (pg', mv) ∧ Rep ps h d pg' s ∧
      hdrBytes ps h pg' = hdrBytes ps h pg ∧
      eofs ps h pg' = ps - liveSum s ∧
      (mv = true ↔ liveSum s < ps - eofs ps h pg) ∧
      (mv = true ↔ ∃ i, i < s.length ∧ word ps h pg' (4 + i) ≠ word ps h pg (4 + i)) ∧
      (∀ i t, s[i]? = some (some t) → word ps h pg (4 + i) ≤ word ps h pg' (4 + i)) ∧
      (∀ i j t u, s[i]? = some (some t) → s[j]? = some (some u) →
        word ps h pg (4 + i) < word ps h pg (4 + j) →
        word ps h pg' (4 + i) < word ps h pg' (4 + j)) := by
  obtain ⟨l, h1, cinv⟩ := r.cinv
  generalize hl' : l.mergeSort (fun a b => decide (b.1 ≤ a.1)) = l' at *
  have hel := r.eofs_le
  have hsp := r.space
  have hw4 := lt_wAddr ps h (4 + s.length)
  have hlsum : lenSum s l' = liveSum s := by have := cinv.sum; omega
  obtain ⟨p', e', mv', g1, g2, g3⟩ := relocLoop_spec r l' pg ps false cinv
  have b := g2.base
  have hs := g2.sum
  have hle := g2.e_le
  have hlo := g2.low
  simp only [lenSum, List.map_nil, List.sum_nil] at hs
  have he : e' = ps - liveSum s := by omega
  have hee : eofs ps h (setWord ps h p' 3 e') = e' := eofs_setWord b (by omega) (by omega) hle
  refine ⟨setWord ps h p' 3 e', mv', ?_, ?_, by rw [hdrBytes_setWord, g2.hdr], by rw [hee, he],
    ?_, ?_, ?_, ?_⟩
  · simp only [Slotted.compact, r.tupleCount, Option.bind_eq_bind, Option.bind_some, h1, hl', g1,
      offEofs_eq b (show 4 ≤ 4 + s.length by omega),
      storeVal_word b (show 3 < 4 + s.length by omega)]
    rfl
  · refine ⟨⟨r.var, b.setWord _ _, ?_, ?_, ?_, by omega, by omega, ?_⟩, ?_⟩
    · pgsimp 0; rw [g2.meta4 0 (by omega), r.occ]
    · pgsimp 0; rw [g2.meta4 1 (by omega), r.cnt]
    · pgsimp 0; rw [g2.meta4 2 (by omega), r.tomb]
    · rw [hee]
      refine g2.lay.congr ?_ ?_ ?_
      · intro i hi; pgsimp 0
      · intro i t hi
        have := (g2.lay.live i t hi).1
        try dsimp only at this ⊢
        pgsimp (4 + s.length)
      · intro i t hi
        exact g2.done i t hi (by simp)
    · unfold Tight
      rw [hee]
      rcases g2.tight with ht | ⟨i, t, ht, g⟩
      · exact .inl ht
      · exact .inr ⟨i, t, ht, by pgsimp 0; exact g⟩
  · rw [g3, hlsum]; simp
  · constructor
    · intro hm
      rw [g3, hlsum] at hm
      simp at hm
      rcases r.tight with ht | ⟨i, t, ht, g⟩
      · omega
      · refine ⟨i, (r.live ht).2.2.2.2, ?_⟩
        have := g2.done i t ht (by simp)
        pgsimp 0
        omega
    · rintro ⟨i, hi, hne⟩
      cases hm : mv' with
      | true => rfl
      | false =>
        exfalso
        apply hne
        pgsimp 0
        exact g2.still hm i hi
  · intro i t hi
    pgsimp 0
    exact g2.grow i t hi
  · intro i j t u hi hj hlt
    pgsimp 0
    exact g2.order i j t u hi hj hlt

theorem Rep.compact (r : Rep ps h d pg s) :
    ∃ pg' mv, Slotted.compact pg ps d = some (pg', mv) ∧ Rep ps h d pg' s ∧
      hdrBytes ps h pg' = hdrBytes ps h pg ∧
      eofs ps h pg' = ps - liveSum s ∧
      (mv = true ↔ liveSum s < ps - eofs ps h pg) ∧
      (mv = true ↔ ∃ i, i < s.length ∧ word ps h pg' (4 + i) ≠ word ps h pg (4 + i)) := by
  obtain ⟨pg', mv, h1, h2, h3, h4, h5, h6, -⟩ := r.compact_at
  exact ⟨pg', mv, h1, h2, h3, h4, h5, h6⟩

end Slotted
end TS
