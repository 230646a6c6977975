import Verif.Spec
/-
Where the tuples of a slotted page live: `Lay ps d m lo offs s` says that in memory `m` slot `i`
of the logical page `s` is stored at offset `offs i` (0 for a tomb stone), inside `[lo, ps)`,
and no two tuples overlap.
-/
namespace TS

structure Lay (ps : Nat) (d : SizeDef) (m : Bytes) (lo : Nat) (offs : Nat → Nat) (s : Slots) :
    Prop where
  dead : ∀ i, s[i]? = some none → offs i = 0
  live : ∀ i t, s[i]? = some (some t) →
    lo ≤ offs i ∧ offs i + t.length ≤ ps ∧ rd m (offs i) t.length = t ∧ WellFormed d t
  disj : ∀ i j t u, i ≠ j → s[i]? = some (some t) → s[j]? = some (some u) →
    offs i + t.length ≤ offs j ∨ offs j + u.length ≤ offs i

/-- Sum of the lengths of pairwise disjoint intervals inside `[a, b)` is at most `b - a`. -/
theorem sum_le_of_disjoint (n : Nat) : ∀ (l : List (Nat × Nat)) (a b : Nat), l.length ≤ n →
    a ≤ b → (∀ p ∈ l, a ≤ p.1 ∧ p.1 + p.2 ≤ b) →
    l.Pairwise (fun p q => p.1 + p.2 ≤ q.1 ∨ q.1 + q.2 ≤ p.1) →
    (l.map (·.2)).sum ≤ b - a := by
  induction n with
  | zero =>
    intro l a b hl hab _ _
    have : l = [] := List.length_eq_zero_iff.mp (by omega)
    subst this; simp
  | succ n ih =>
    intro l a b hl hab hin hpw
    match l with
    | [] => simp
    | p :: r =>
      rw [List.pairwise_cons] at hpw
      have hp := hin p (by simp)
      have key : ∀ r : List (Nat × Nat),
          (r.map (·.2)).sum = ((r.filter (fun q => decide (q.1 + q.2 ≤ p.1))).map (·.2)).sum +
            ((r.filter (fun q => !decide (q.1 + q.2 ≤ p.1))).map (·.2)).sum := by
        intro r
        induction r with
        | nil => rfl
        | cons q r ihr =>
          by_cases hq : q.1 + q.2 ≤ p.1
          · simp [hq, ihr]; omega
          · simp [hq, ihr]; omega
      have hlen : r.length ≤ n := by simpa using hl
      have h1 := ih (r.filter (fun q => decide (q.1 + q.2 ≤ p.1))) a p.1
        (Nat.le_trans (List.length_filter_le _ _) hlen) hp.1
        (by
          intro q hq
          simp only [List.mem_filter, decide_eq_true_eq] at hq
          exact ⟨(hin q (by simp [hq.1])).1, hq.2⟩)
        (hpw.2.filter _)
      have h2 := ih (r.filter (fun q => !decide (q.1 + q.2 ≤ p.1))) (p.1 + p.2) b
        (Nat.le_trans (List.length_filter_le _ _) hlen) hp.2
        (by
          intro q hq
          simp only [List.mem_filter, Bool.not_eq_true', decide_eq_false_iff_not] at hq
          refine ⟨?_, (hin q (by simp [hq.1])).2⟩
          rcases hpw.1 q hq.1 with h | h
          · exact h
          · exact absurd h hq.2)
        (hpw.2.filter _)
      have := key r
      simp only [List.map_cons, List.sum_cons]
      omega

/-- Intervals occupied by the live slots. -/
def ivals : (Nat → Nat) → Slots → List (Nat × Nat)
  | _, [] => []
  | offs, none :: r => ivals (fun i => offs (i + 1)) r
  | offs, some t :: r => (offs 0, t.length) :: ivals (fun i => offs (i + 1)) r

theorem mem_ivals {offs : Nat → Nat} {s : Slots} {p : Nat × Nat} (h : p ∈ ivals offs s) :
    ∃ i t, s[i]? = some (some t) ∧ p = (offs i, t.length) := by
  induction s generalizing offs with
  | nil => simp [ivals] at h
  | cons x r ih =>
    cases x with
    | none =>
      obtain ⟨i, t, h1, h2⟩ := ih h
      exact ⟨i + 1, t, by simpa using h1, h2⟩
    | some t =>
      simp only [ivals, List.mem_cons] at h
      rcases h with h | h
      · exact ⟨0, t, by simp, h⟩
      · obtain ⟨i, t, h1, h2⟩ := ih h
        exact ⟨i + 1, t, by simpa using h1, h2⟩

theorem ivals_sum (offs : Nat → Nat) (s : Slots) : ((ivals offs s).map (·.2)).sum = liveSum s := by
  induction s generalizing offs with
  | nil => rfl
  | cons x r ih =>
    cases x with
    | none => simp [ivals, liveSum, ih, dataLen]
    | some t => simp [ivals, liveSum, ih, dataLen]

theorem ivals_pairwise {offs : Nat → Nat} {s : Slots}
    (hd : ∀ i j t u, i ≠ j → s[i]? = some (some t) → s[j]? = some (some u) →
      offs i + t.length ≤ offs j ∨ offs j + u.length ≤ offs i) :
    (ivals offs s).Pairwise (fun p q => p.1 + p.2 ≤ q.1 ∨ q.1 + q.2 ≤ p.1) := by
  induction s generalizing offs with
  | nil => simp [ivals]
  | cons x r ih =>
    have hr : (ivals (fun i => offs (i + 1)) r).Pairwise
        (fun p q => p.1 + p.2 ≤ q.1 ∨ q.1 + q.2 ≤ p.1) := by
      apply ih
      intro i j t u hij hi hj
      exact hd (i + 1) (j + 1) t u (by omega) (by simpa using hi) (by simpa using hj)
    cases x with
    | none => exact hr
    | some t =>
      simp only [ivals, List.pairwise_cons]
      refine ⟨?_, hr⟩
      intro q hq
      obtain ⟨j, u, hj, rfl⟩ := mem_ivals hq
      exact hd 0 (j + 1) t u (by omega) (by simp) (by simpa using hj)

variable {ps : Nat} {d : SizeDef} {m : Bytes} {lo : Nat} {offs : Nat → Nat} {s : Slots}

theorem Lay.sum_le (L : Lay ps d m lo offs s) (hlo : lo ≤ ps) : liveSum s ≤ ps - lo := by
  rw [← ivals_sum offs s]
  refine sum_le_of_disjoint _ _ lo ps (Nat.le_refl _) hlo ?_ (ivals_pairwise L.disj)
  intro p hp
  obtain ⟨i, t, h1, rfl⟩ := mem_ivals hp
  exact ⟨(L.live i t h1).1, (L.live i t h1).2.1⟩

/-- Placement only depends on the offsets of existing slots and on the bytes of the tuples. -/
theorem Lay.congr (L : Lay ps d m lo offs s) {m' : Bytes} {offs' : Nat → Nat} {lo' : Nat}
    (ho : ∀ i, i < s.length → offs' i = offs i)
    (hm : ∀ i t, s[i]? = some (some t) → rd m' (offs i) t.length = rd m (offs i) t.length)
    (hlo : ∀ i t, s[i]? = some (some t) → lo' ≤ offs i) :
    Lay ps d m' lo' offs' s := by
  have hl : ∀ {i : Nat} {x}, s[i]? = some x → i < s.length := by
    intro i x hx
    exact (List.getElem?_eq_some_iff.mp hx).1
  refine ⟨?_, ?_, ?_⟩
  · intro i hi; rw [ho i (hl hi)]; exact L.dead i hi
  · intro i t hi
    rw [ho i (hl hi), hm i t hi]
    have := L.live i t hi
    exact ⟨hlo i t hi, this.2⟩
  · intro i j t u hij hi hj
    rw [ho i (hl hi), ho j (hl hj)]; exact L.disj i j t u hij hi hj

theorem Lay.mono (L : Lay ps d m lo offs s) {lo' : Nat} (h : lo' ≤ lo) :
    Lay ps d m lo' offs s :=
  L.congr (fun _ _ => rfl) (fun _ _ _ => rfl) (fun i t ht => Nat.le_trans h (L.live i t ht).1)

/-- Replace slot `i` by a tomb stone. -/
theorem Lay.set_none (L : Lay ps d m lo offs s) (i : Nat) {offs' : Nat → Nat}
    (h0 : i < s.length → offs' i = 0) (ho : ∀ j, j ≠ i → j < s.length → offs' j = offs j) :
    Lay ps d m lo offs' (s.set i none) := by
  have key : ∀ j x, (s.set i none)[j]? = some x → j < s.length := by
    intro j x hx
    have := (List.getElem?_eq_some_iff.mp hx).1
    simpa using this
  have key2 : ∀ j (t : Bytes), (s.set i none)[j]? = some (some t) →
      j ≠ i ∧ s[j]? = some (some t) := by
    intro j t hx
    rw [List.getElem?_set] at hx
    split at hx
    · split at hx <;> simp at hx
    · exact ⟨by omega, hx⟩
  refine ⟨?_, ?_, ?_⟩
  · intro j hj
    by_cases hji : j = i
    · subst hji; exact h0 (key _ _ hj)
    · rw [ho j hji (key j _ hj)]
      rw [List.getElem?_set_ne (by omega)] at hj
      exact L.dead j hj
  · intro j t hj
    obtain ⟨h1, h2⟩ := key2 j t hj
    rw [ho j h1 (key j _ hj)]; exact L.live j t h2
  · intro j k t u hjk hj hk
    obtain ⟨h1, h2⟩ := key2 j t hj
    obtain ⟨h3, h4⟩ := key2 k u hk
    rw [ho j h1 (key j _ hj), ho k h3 (key k _ hk)]; exact L.disj j k t u hjk h2 h4

/-- Fill the tomb stone at slot `i` with a tuple written to free memory `[o, o + t.length)`. -/
theorem Lay.fill (L : Lay ps d m lo offs s) {i : Nat} (hi : s[i]? = some none) {t : Bytes}
    {o : Nat} {m' : Bytes} {offs' : Nat → Nat} {lo' : Nat} (hlo : lo' ≤ lo) (hlo' : lo' ≤ o)
    (hw : WellFormed d t) (hend : o + t.length ≤ ps) (hrd : rd m' o t.length = t)
    (hfree : ∀ j u, s[j]? = some (some u) → o + t.length ≤ offs j ∨ offs j + u.length ≤ o)
    (hm : ∀ j u, s[j]? = some (some u) → rd m' (offs j) u.length = rd m (offs j) u.length)
    (h0 : offs' i = o) (ho : ∀ j, j ≠ i → j < s.length → offs' j = offs j) :
    Lay ps d m' lo' offs' (s.set i (some t)) := by
  have hil : i < s.length := (List.getElem?_eq_some_iff.mp hi).1
  have key : ∀ j x, (s.set i (some t))[j]? = some x → j < s.length := by
    intro j x hx
    have := (List.getElem?_eq_some_iff.mp hx).1
    simpa using this
  have key2 : ∀ j (u : Bytes), (s.set i (some t))[j]? = some (some u) →
      (j = i ∧ u = t) ∨ (j ≠ i ∧ s[j]? = some (some u)) := by
    intro j u hx
    rw [List.getElem?_set] at hx
    split at hx
    · left; simp [hil] at hx; exact ⟨by omega, hx.symm⟩
    · right; exact ⟨by omega, hx⟩
  refine ⟨?_, ?_, ?_⟩
  · intro j hj
    have hji : j ≠ i := by
      rintro rfl
      rw [List.getElem?_set_self hil] at hj; simp at hj
    rw [ho j hji (key j _ hj)]
    rw [List.getElem?_set_ne (by omega)] at hj
    exact L.dead j hj
  · intro j u hj
    rcases key2 j u hj with ⟨rfl, rfl⟩ | ⟨h1, h2⟩
    · rw [h0]; exact ⟨hlo', hend, hrd, hw⟩
    · rw [ho j h1 (key j _ hj), hm j u h2]
      have := L.live j u h2
      exact ⟨by omega, this.2⟩
  · intro j k u v hjk hj hk
    rcases key2 j u hj with ⟨rfl, rfl⟩ | ⟨h1, h2⟩
    · rcases key2 k v hk with ⟨rfl, rfl⟩ | ⟨h3, h4⟩
      · omega
      · rw [h0, ho k h3 (key k _ hk)]; exact hfree k v h4
    · rcases key2 k v hk with ⟨rfl, rfl⟩ | ⟨h3, h4⟩
      · rw [h0, ho j h1 (key j _ hj)]; exact (hfree j u h2).symm
      · rw [ho j h1 (key j _ hj), ho k h3 (key k _ hk)]; exact L.disj j k u v hjk h2 h4

/-- Permuting slots (`π` maps new indices to old ones injectively). -/
theorem Lay.reindex (L : Lay ps d m lo offs s) {s' : Slots} {offs' : Nat → Nat} (π : Nat → Nat)
    (hs : ∀ i, i < s'.length → s'[i]? = s[π i]?)
    (ho : ∀ i, i < s'.length → offs' i = offs (π i))
    (hinj : ∀ i j, i < s'.length → j < s'.length → i ≠ j → π i ≠ π j) :
    Lay ps d m lo offs' s' := by
  have hl : ∀ {i : Nat} {x}, s'[i]? = some x → i < s'.length := by
    intro i x hx
    exact (List.getElem?_eq_some_iff.mp hx).1
  refine ⟨?_, ?_, ?_⟩
  · intro i hi
    rw [ho i (hl hi)]; exact L.dead _ (by rw [← hs i (hl hi)]; exact hi)
  · intro i t hi
    rw [ho i (hl hi)]; exact L.live _ t (by rw [← hs i (hl hi)]; exact hi)
  · intro i j t u hij hi hj
    rw [ho i (hl hi), ho j (hl hj)]
    exact L.disj _ _ t u (hinj i j (hl hi) (hl hj) hij) (by rw [← hs i (hl hi)]; exact hi)
      (by rw [← hs j (hl hj)]; exact hj)

/-- Append a tomb stone slot. -/
theorem Lay.snoc_none (L : Lay ps d m lo offs s) {offs' : Nat → Nat}
    (h0 : offs' s.length = 0) (ho : ∀ j, j < s.length → offs' j = offs j) :
    Lay ps d m lo offs' (s ++ [none]) := by
  have key2 : ∀ j (t : Bytes), (s ++ [none])[j]? = some (some t) →
      j < s.length ∧ s[j]? = some (some t) := by
    intro j t hx
    rw [List.getElem?_append] at hx
    split at hx
    · exact ⟨‹_›, hx⟩
    · rcases hj : (j - s.length) with _ | k <;> simp [hj] at hx
  refine ⟨?_, ?_, ?_⟩
  · intro j hj
    rcases Nat.lt_trichotomy j s.length with h1 | h1 | h1
    · rw [ho j h1]; rw [List.getElem?_append_left h1] at hj; exact L.dead j hj
    · rw [h1]; exact h0
    · have := (List.getElem?_eq_some_iff.mp hj).1
      simp at this; omega
  · intro j t hj
    obtain ⟨h1, h2⟩ := key2 j t hj
    rw [ho j h1]; exact L.live j t h2
  · intro j k t u hjk hj hk
    obtain ⟨h1, h2⟩ := key2 j t hj
    obtain ⟨h3, h4⟩ := key2 k u hk
    rw [ho j h1, ho k h3]; exact L.disj j k t u hjk h2 h4

end TS
