import Verif.SlottedMore
/-
Trailing tomb stones, discard all, zero out free space, range space query of slotted pages.
-/
namespace TS

/-! ### Trailing tomb stones of the logical page -/

@[simp] theorem trailing_nil : trailing [] = 0 := rfl
@[simp] theorem dropTrailing_nil : dropTrailing [] = [] := rfl

@[simp] theorem trailing_snoc_none (s : Slots) : trailing (s ++ [none]) = trailing s + 1 := by
  simp [trailing]

@[simp] theorem trailing_snoc_some (s : Slots) (t : Bytes) : trailing (s ++ [some t]) = 0 := by
  simp [trailing]

@[simp] theorem dropTrailing_snoc_none (s : Slots) :
    dropTrailing (s ++ [none]) = dropTrailing s := by
  simp [dropTrailing]

@[simp] theorem dropTrailing_snoc_some (s : Slots) (t : Bytes) :
    dropTrailing (s ++ [some t]) = s ++ [some t] := by
  simp [dropTrailing]

theorem snoc_cases (s : Slots) : s = [] ∨ ∃ r x, s = r ++ [x] := by
  rcases List.eq_nil_or_concat s with h | ⟨r, x, h⟩
  · exact .inl h
  · exact .inr ⟨r, x, by simpa using h⟩

theorem snoc_induction {P : Slots → Prop} (h0 : P []) (h1 : ∀ r x, P r → P (r ++ [x])) :
    ∀ s, P s := by
  intro s
  have : ∀ n (s : Slots), s.length = n → P s := by
    intro n
    induction n with
    | zero => intro s hs; rw [List.length_eq_zero_iff.mp hs]; exact h0
    | succ n ih =>
      intro s hs
      rcases snoc_cases s with rfl | ⟨r, x, rfl⟩
      · simp at hs
      · exact h1 r x (ih r (by simpa using hs))
  exact this _ s rfl

theorem dropTrailing_append (s : Slots) :
    s = dropTrailing s ++ List.replicate (trailing s) none := by
  induction s using snoc_induction with
  | h0 => rfl
  | h1 r x ih =>
    cases x with
    | none =>
      simp only [dropTrailing_snoc_none, trailing_snoc_none, List.replicate_succ']
      rw [← List.append_assoc, ← ih]
    | some t => simp

theorem dropTrailing_length (s : Slots) : (dropTrailing s).length + trailing s = s.length := by
  have := congrArg List.length (dropTrailing_append s)
  simp at this; omega

theorem trailing_dropTrailing (s : Slots) : trailing (dropTrailing s) = 0 := by
  induction s using snoc_induction with
  | h0 => rfl
  | h1 r x ih =>
    cases x with
    | none => simpa using ih
    | some t => simp

theorem getElem?_dropTrailing {s : Slots} {i : Nat} (hi : i < (dropTrailing s).length) :
    (dropTrailing s)[i]? = s[i]? := by
  conv => rhs; rw [dropTrailing_append s]
  rw [List.getElem?_append_left hi]

theorem live_lt_dropTrailing {s : Slots} {i : Nat} {t : Bytes} (hi : s[i]? = some (some t)) :
    i < (dropTrailing s).length := by
  rcases Nat.lt_or_ge i (dropTrailing s).length with h | h
  · exact h
  · rw [dropTrailing_append s, List.getElem?_append_right h, List.getElem?_replicate] at hi
    split at hi <;> simp at hi

namespace Slotted

variable {ps h : Nat} {d : SizeDef} {pg : Bytes} {s : Slots} {z : Nat}

theorem liveSum_replicate (k : Nat) : liveSum (List.replicate k none) = 0 := by
  induction k with
  | zero => rfl
  | succ k ih => simp [List.replicate_succ, ih]

theorem tombs_replicate (k : Nat) : tombs (List.replicate k none) = k := by
  induction k with
  | zero => rfl
  | succ k ih => simp [List.replicate_succ, ih]

theorem liveSum_dropTrailing (s : Slots) : liveSum (dropTrailing s) = liveSum s := by
  conv => rhs; rw [dropTrailing_append s]
  simp [liveSum_replicate]

theorem tombs_dropTrailing (s : Slots) : tombs (dropTrailing s) + trailing s = tombs s := by
  conv => rhs; rw [dropTrailing_append s]
  simp [tombs_replicate]

theorem trailLoop_spec (r : Rep0 ps h d pg s z) : ∀ (n : Nat) (occ c k : Nat),
    n ≤ s.length → trailing (s.take n) ≤ c → trailing (s.take n) * vsz ps ≤ occ →
    trailLoop pg ps n occ c k = some ((dropTrailing (s.take n)).length,
      occ - trailing (s.take n) * vsz ps, c - trailing (s.take n), k + trailing (s.take n)) := by
  intro n
  induction n with
  | zero => intro occ c k _ _ _; simp [trailLoop]
  | succ n ih =>
    intro occ c k hn hc ho
    have hs : s[n]? = some s[n] := List.getElem?_eq_getElem (by omega)
    have htk : s.take (n + 1) = s.take n ++ [s[n]] := by
      rw [List.take_add_one, hs]; rfl
    have h0 := r.word_eq_zero (show n < s.length by omega)
    simp only [trailLoop, r.tupOff (show n < s.length by omega), Option.bind_eq_bind,
      Option.bind_some]
    rw [htk] at hc ho ⊢
    cases hx : s[n] with
    | none =>
      simp only [hx, trailing_snoc_none, dropTrailing_snoc_none] at hc ho ⊢
      rw [Nat.succ_mul] at ho
      rw [if_pos (h0.mpr (by rw [hs, hx]))]
      simp only [overhead, sub32_eq (show vsz ps ≤ occ by omega), Option.bind_some,
        sub32_eq (show 1 ≤ c by omega)]
      rw [ih _ _ _ (by omega) (by omega) (by omega), Nat.succ_mul]
      congr 1
      simp only [Prod.mk.injEq, true_and]
      omega
    | some t =>
      have : ¬ word ps h pg (4 + n) = 0 := by
        rw [h0, hs, hx]; simp
      rw [if_neg this]
      simp [List.length_take]; omega

/-- `discard_trailing_tomb_stones_slotted_page`. -/
theorem Rep.discardTrailing_at (r : Rep ps h d pg s) :
    ∃ pg', Slotted.discardTrailing pg ps = some (pg', trailing s) ∧
      Rep ps h d pg' (dropTrailing s) ∧ hdrBytes ps h pg' = hdrBytes ps h pg ∧
      (∀ j, word ps h pg' (4 + j) = word ps h pg (4 + j)) := by
  have b := r.base
  have hlt := r.base.lt
  have hsp := r.space
  have hel := r.eofs_le
  have hpow := le_pow_vsz r.base.lt
  have h4lt := lt_wAddr ps h (4 + s.length)
  have h4lt' := lt_wAddr ps h 4
  have hocc := r.occ_lt
  have hdl := dropTrailing_length s
  have htd := tombs_dropTrailing s
  have hts := tombs_le s
  have hmul : (dropTrailing s).length * vsz ps + trailing s * vsz ps = s.length * vsz ps := by
    rw [← Nat.add_mul, hdl]
  have hl := trailLoop_spec r.toRep0 s.length (liveSum s + s.length * vsz ps) (tombs s) 0
    (Nat.le_refl _) (by rw [List.take_length]; omega) (by rw [List.take_length]; omega)
  rw [List.take_length, Nat.zero_add] at hl
  have b1 := b.setWord 0 (liveSum s + s.length * vsz ps - trailing s * vsz ps)
  have b2 := b1.setWord 1 (dropTrailing s).length
  have b3 := b2.setWord 2 (tombs s - trailing s)
  simp only [Slotted.discardTrailing, offOcc_eq b, loadVal_word b (show 0 < 4 + s.length by omega),
    offCount_eq b (show 4 ≤ 4 + s.length by omega), loadVal_word b (show 1 < 4 + s.length by omega),
    offTomb_eq b (show 4 ≤ 4 + s.length by omega), loadVal_word b (show 2 < 4 + s.length by omega),
    Option.bind_eq_bind, Option.bind_some, r.occ, r.cnt, r.tomb, hl,
    storeVal_word b (show 0 < 4 + s.length by omega),
    offCount_eq b1 (show 4 ≤ 4 + s.length by omega),
    storeVal_word b1 (show 1 < 4 + s.length by omega),
    offTomb_eq b2 (show 4 ≤ 4 + s.length by omega),
    storeVal_word b2 (show 2 < 4 + s.length by omega)]
  refine ⟨_, rfl, ⟨⟨r.var, b3.mono (by omega), ?_, ?_, ?_, ?_, ?_, ?_⟩, ?_⟩,
    by simp only [hdrBytes_setWord], fun j => by pgsimp 0⟩
  · pgsimp 0
    rw [word_setWord_eq b (by omega) (by omega), liveSum_dropTrailing]; omega
  · pgsimp 0
    rw [word_setWord_eq b1 (by omega) (by omega)]
  · rw [word_setWord_eq b2 (by omega) (by omega)]; omega
  · pgsimp 0
    have := wAddr_mono ps h (show 4 + (dropTrailing s).length ≤ 4 + s.length by omega)
    omega
  · pgsimp 0; exact hel
  · pgsimp 0
    refine Lay.reindex (offs := fun j => word ps h pg (4 + j)) (r.lay.congr (fun _ _ => rfl) ?_
      (fun i t ht => (r.lay.live i t ht).1)) id ?_ ?_ ?_
    · intro j t hj
      have := r.live hj
      pgsimp (4 + s.length)
    · intro i hi; exact getElem?_dropTrailing hi
    · intro i hi; rfl
    · intro i j _ _ hij; exact hij
  · unfold Tight
    pgsimp 0
    rcases r.tight with ht | ⟨j, u, h1, h2⟩
    · left; exact ht
    · right
      exact ⟨j, u, by rw [getElem?_dropTrailing (live_lt_dropTrailing h1)]; exact h1, h2⟩

theorem Rep.discardTrailing (r : Rep ps h d pg s) :
    ∃ pg', Slotted.discardTrailing pg ps = some (pg', trailing s) ∧
      Rep ps h d pg' (dropTrailing s) ∧ hdrBytes ps h pg' = hdrBytes ps h pg := by
  obtain ⟨pg', h1, h2, h3, -⟩ := r.discardTrailing_at
  exact ⟨pg', h1, h2, h3⟩

/-- `discard_all_tuples_slotted_page`. -/
theorem Rep.discardAll (r : Rep ps h d pg s) :
    ∃ pg', Slotted.discardAll pg ps = some pg' ∧
      Rep ps h d pg' [] ∧ hdrBytes ps h pg' = hdrBytes ps h pg := by
  have b := r.base
  have hlt := r.base.lt
  have hpow := le_pow_vsz r.base.lt
  have h4lt := lt_wAddr ps h (4 + s.length)
  have h4lt' := lt_wAddr ps h 4
  have hfit := b.fits
  have hm := wAddr_mono ps h (show 4 ≤ 4 + s.length by omega)
  have b1 := b.setWord 0 0
  have b2 := b1.setWord 1 0
  have b3 := b2.setWord 2 0
  have b4 := b3.setWord 3 ps
  simp only [Slotted.discardAll, offOcc_eq b, Option.bind_eq_bind, Option.bind_some,
    storeVal_word b (show 0 < 4 + s.length by omega),
    offCount_eq b1 (show 4 ≤ 4 + s.length by omega),
    storeVal_word b1 (show 1 < 4 + s.length by omega),
    offTomb_eq b2 (show 4 ≤ 4 + s.length by omega),
    storeVal_word b2 (show 2 < 4 + s.length by omega),
    offEofs_eq b3 (show 4 ≤ 4 + s.length by omega),
    storeVal_word b3 (show 3 < 4 + s.length by omega)]
  have he := eofs_setWord b3 (e := ps) (by omega) (by omega) (by omega)
  refine ⟨_, rfl, ⟨⟨r.var, b4.mono (by simp), ?_, ?_, ?_, ?_, ?_, ?_⟩, ?_⟩,
    by simp only [hdrBytes_setWord]⟩
  · pgsimp 0; rw [word_setWord_eq b (by omega) (by omega)]; simp
  · pgsimp 0; rw [word_setWord_eq b1 (by omega) (by omega)]; simp
  · pgsimp 0; rw [word_setWord_eq b2 (by omega) (by omega)]; simp
  · rw [he]; simp; omega
  · omega
  · exact ⟨by simp, by simp, by simp⟩
  · left; exact he

/-- `zero_out_free_space_slotted_page`. -/
theorem Rep.zeroOut (r : Rep ps h d pg s) :
    (0 < free ps h pg s → ∃ pg', Slotted.zeroOut pg ps = some (pg', true) ∧
      Rep ps h d pg' s ∧ hdrBytes ps h pg' = hdrBytes ps h pg ∧
      eofs ps h pg' = eofs ps h pg ∧
      rd pg' (wAddr ps h (4 + s.length)) (free ps h pg s) = List.replicate (free ps h pg s) 0 ∧
      (∀ i, ¬ (wAddr ps h (4 + s.length) ≤ i ∧ i < eofs ps h pg) → pg'[i]? = pg[i]?)) ∧
    (free ps h pg s = 0 → Slotted.zeroOut pg ps = some (pg, false)) := by
  have b := r.base
  have hsp := r.space
  have hel := r.eofs_le
  simp only [Slotted.zeroOut, r.freeSpace, Option.bind_eq_bind, Option.bind_some]
  refine ⟨fun hf => ?_, fun hf => by rw [if_pos hf.symm]; rfl⟩
  rw [if_neg (by omega)]
  have hu : eofs ps h pg = wAddr ps h (4 + s.length) + free ps h pg s := by unfold free; omega
  have hst := startFree_eq b (show 4 ≤ 4 + s.length by omega) (by rw [r.cnt]; omega)
  rw [r.cnt] at hst
  have hzi : zeroIn pg (wAddr ps h (4 + s.length)) (free ps h pg s) =
      some (wr pg (wAddr ps h (4 + s.length)) (List.replicate (free ps h pg s) 0)) := by
    unfold zeroIn; rw [store_eq]; simp [b.len]; omega
  simp only [hst, endFree_eq b (show 4 ≤ 4 + s.length by omega), Option.bind_some,
    sub32_eq hsp, show eofs ps h pg - wAddr ps h (4 + s.length) = free ps h pg s from rfl, hzi]
  have hw0 := wAddr_mono ps h (show 0 ≤ 4 + s.length by omega)
  have hle : wAddr ps h (4 + s.length) ≤ wAddr ps h (4 + s.length) := Nat.le_refl _
  refine ⟨_, rfl, ⟨⟨r.var, b.wr hw0, ?_, ?_, ?_, ?_, ?_, ?_⟩, ?_⟩, hdrBytes_wr _ hw0, ?_, ?_, ?_⟩
  · pgsimp (4 + s.length); exact r.occ
  · pgsimp (4 + s.length); exact r.cnt
  · pgsimp (4 + s.length); exact r.tomb
  · pgsimp (4 + s.length); exact hsp
  · pgsimp (4 + s.length); exact hel
  · refine r.lay.congr ?_ ?_ ?_
    · intro i hi; pgsimp (4 + s.length)
    · intro i t hi
      have := r.live hi
      rw [rd_wr_disj _ _ _ _ _ (.inr (by simp; omega))]
    · intro i t hi
      pgsimp (4 + s.length); exact (r.live hi).1
  · unfold Tight
    pgsimp (4 + s.length)
    rcases r.tight with ht | ⟨j, u, h1, h2⟩
    · left; exact ht
    · right
      have := r.live h1
      exact ⟨j, u, h1, by pgsimp (4 + s.length); exact h2⟩
  · pgsimp (4 + s.length)
  · have := rd_wr_same pg (wAddr ps h (4 + s.length)) (List.replicate (free ps h pg s) 0)
      (by simp [b.len]; omega)
    simpa using this
  · intro i hi
    rw [wr_getElem?, if_neg (by simp; omega)]

/-! ### Space queries -/

theorem occLoop_spec (r : Rep0 ps h d pg s z) : ∀ (n i acc : Nat), i + n ≤ s.length →
    acc + liveSum ((s.drop i).take n) < 4294967296 →
    occLoop pg ps d n i acc = some (acc + liveSum ((s.drop i).take n)) := by
  intro n
  induction n with
  | zero => intro i acc _ _; simp [occLoop]
  | succ n ih =>
    intro i acc hi hb
    have hil : i < s.length := by omega
    have hs : s[i]? = some s[i] := List.getElem?_eq_getElem hil
    have htk : (s.drop i).take (n + 1) = s[i] :: (s.drop (i + 1)).take n := by
      rw [List.drop_eq_getElem_cons hil, List.take_succ_cons]
    rw [htk] at hb ⊢
    simp only [occLoop, r.existsTuple, Option.bind_eq_bind, Option.bind_some, lookup]
    cases hx : s[i] with
    | none =>
      simp only [hs, hx, Option.join, Option.bind_some, id, Option.isSome_none, Bool.false_eq_true,
        if_false]
      rw [hx] at hb
      rw [ih _ _ (by omega) (by simpa using hb)]
      simp
    | some t =>
      rw [hx] at hs hb
      simp only [hs, Option.join, Option.bind_some, id, Option.isSome_some, if_true]
      have h0 := r.off_pos hs
      have hlv := r.live hs
      have hg : Slotted.getNth pg ps i = some (some (word ps h pg (4 + i))) := by
        simp only [Slotted.getNth, r.tupleCount, Option.bind_eq_bind, Option.bind_some]
        rw [if_neg (by omega), r.tupOff hil]
        simp; omega
      simp only [liveSum_cons, dataLen_some] at hb
      simp only [hg, Option.bind_some, tupleSize_at hlv.2.2.2.1 hlv.2.2.1,
        u32_eq (show acc + t.length < 4294967296 by omega)]
      rw [ih _ _ (by omega) (by omega)]
      simp [Nat.add_assoc]

theorem liveSum_sub (s : Slots) (a n : Nat) : liveSum ((s.drop a).take n) ≤ liveSum s := by
  have h1 : liveSum (s.drop a) ≤ liveSum s := by
    conv => rhs; rw [← List.take_append_drop a s]
    rw [liveSum_append]; omega
  have h2 : liveSum ((s.drop a).take n) ≤ liveSum (s.drop a) := by
    conv => rhs; rw [← List.take_append_drop n (s.drop a)]
    rw [liveSum_append]; omega
  omega

/-- `get_space_occupied_by_tuples_slotted_page` on an inclusive range of indices. -/
theorem Rep0.spaceOccBy (r : Rep0 ps h d pg s z) {a b : Nat} (hab : a ≤ b) (hb : b < s.length) :
    Slotted.spaceOccBy pg ps d a b =
      some (liveSum ((s.drop a).take (b - a + 1)) + (b - a + 1) * vsz ps) := by
  have hocc := r.occ_lt
  have hlt := r.base.lt
  have hls := liveSum_sub s a (b - a + 1)
  have hmul : (b - a + 1) * vsz ps ≤ s.length * vsz ps := Nat.mul_le_mul_right _ (by omega)
  simp only [Slotted.spaceOccBy, sub32_eq hab, Option.bind_eq_bind, Option.bind_some, overhead]
  rw [occLoop_spec r (b - a + 1) a 0 (by omega) (by omega)]
  simp only [Option.bind_some, Nat.zero_add]
  rw [u32_eq (by omega)]

theorem Rep.spaceTomb (r : Rep ps h d pg s) :
    Slotted.spaceTomb pg ps = some (tombs s * vsz ps) := by
  have hocc := r.occ_lt
  have hlt := r.base.lt
  have hmul : tombs s * vsz ps ≤ s.length * vsz ps := Nat.mul_le_mul_right _ (tombs_le s)
  simp only [Slotted.spaceTomb, r.tombCount, Option.bind_eq_bind, Option.bind_some, overhead]
  rw [u32_eq (by omega)]

end Slotted
end TS
