import Verif.TwinOps
import Verif.TwinFixed
import Verif.SlottedCompact
/-
What is on a page besides the tuples that can be read: the bytes of discarded tuples.
-/
namespace TS

theorem leDec_eq {a b : Bytes} (hl : a.length = b.length) (h : leDec a = leDec b) : a = b := by
  rw [← leEnc_leDec a, ← leEnc_leDec b, hl, h]

/-! ### Tuples that leave no gap -/

/-- Bytes of the tuples that lie at `c` or behind. -/
def fromSum (offs : Nat → Nat) (c : Nat) (s : Slots) : Nat :=
  (((ivals offs s).filter (fun p => decide (c ≤ p.1))).map (·.2)).sum

theorem filter_sum (f : Nat × Nat → Bool) : ∀ l : List (Nat × Nat),
    ((l.filter f).map (·.2)).sum + ((l.filter (fun p => !f p)).map (·.2)).sum = (l.map (·.2)).sum
  | [] => rfl
  | p :: r => by
    have := filter_sum f r
    cases hf : f p <;> simp [hf] <;> omega

variable {ps : Nat} {d : SizeDef} {m : Bytes} {lo : Nat} {offs : Nat → Nat} {s : Slots}

/-- Without gaps a tuple lies as far from the end of the page as it, and what is behind it, is long. -/
theorem Lay.tiled (L : Lay ps d m lo offs s) (hlo : lo ≤ ps) (hs : liveSum s = ps - lo) {i : Nat} {t : Bytes}
    (hi : s[i]? = some (some t)) : offs i + fromSum offs (offs i) s = ps := by
  have hsum := filter_sum (fun p => decide (offs i ≤ p.1)) (ivals offs s)
  rw [ivals_sum, hs] at hsum
  have hl := L.live i t hi
  have hp := ivals_pairwise L.disj
  have h1 : (((ivals offs s).filter (fun p => decide (offs i ≤ p.1))).map (·.2)).sum ≤ ps - offs i := by
    refine sum_le_of_disjoint _ _ _ _ (Nat.le_refl _) (by omega) ?_ (hp.filter _)
    intro p hm
    rw [List.mem_filter] at hm
    obtain ⟨j, u, h1, rfl⟩ := mem_ivals hm.1
    exact ⟨by simpa using hm.2, (L.live j u h1).2.1⟩
  have h2 : (((ivals offs s).filter (fun p => !decide (offs i ≤ p.1))).map (·.2)).sum ≤ offs i - lo := by
    refine sum_le_of_disjoint _ _ _ _ (Nat.le_refl _) (by omega) ?_ (hp.filter _)
    intro p hm
    rw [List.mem_filter] at hm
    obtain ⟨j, u, h1, rfl⟩ := mem_ivals hm.1
    have h3 : offs j < offs i := by simpa using hm.2
    have h4 := L.disj j i u t (by rintro rfl; omega) h1 hi
    exact ⟨(L.live j u h1).1, by simp only; omega⟩
  unfold fromSum
  omega

/-- Without gaps every byte behind the free space belongs to a tuple. -/
theorem Lay.covered (L : Lay ps d m lo offs s) (hlo : lo ≤ ps) (hs : liveSum s = ps - lo) {x : Nat} (h1 : lo ≤ x) (h2 : x < ps) :
    ∃ i t, s[i]? = some (some t) ∧ offs i ≤ x ∧ x < offs i + t.length := by
  apply Classical.byContradiction
  intro hn
  have hsum := filter_sum (fun p => decide (x + 1 ≤ p.1)) (ivals offs s)
  rw [ivals_sum, hs] at hsum
  have hp := ivals_pairwise L.disj
  have h3 : (((ivals offs s).filter (fun p => decide (x + 1 ≤ p.1))).map (·.2)).sum ≤ ps - (x + 1) := by
    refine sum_le_of_disjoint _ _ _ _ (Nat.le_refl _) (by omega) ?_ (hp.filter _)
    intro p hm
    rw [List.mem_filter] at hm
    obtain ⟨j, u, h1, rfl⟩ := mem_ivals hm.1
    exact ⟨by simpa using hm.2, (L.live j u h1).2.1⟩
  have h4 : (((ivals offs s).filter (fun p => !decide (x + 1 ≤ p.1))).map (·.2)).sum ≤ x - lo := by
    refine sum_le_of_disjoint _ _ _ _ (Nat.le_refl _) (by omega) ?_ (hp.filter _)
    intro p hm
    rw [List.mem_filter] at hm
    obtain ⟨j, u, g1, rfl⟩ := mem_ivals hm.1
    have h3 : ¬ x + 1 ≤ offs j := by simpa using hm.2
    refine ⟨(L.live j u g1).1, ?_⟩
    apply Classical.byContradiction
    intro hc
    exact hn ⟨j, u, g1, by omega, by simp only at hc; omega⟩
  omega

theorem fromSum_congr {f g : Nat → Nat} {c e : Nat} (hc : ∀ j u, s[j]? = some (some u) → (c ≤ f j ↔ e ≤ g j)) :
    fromSum f c s = fromSum g e s := by
  unfold fromSum
  induction s generalizing f g with
  | nil => rfl
  | cons x r ih =>
    have := ih (f := fun i => f (i + 1)) (g := fun i => g (i + 1)) (fun j u hj => hc (j + 1) u (by simpa using hj))
    cases x with
    | none => simpa [ivals] using this
    | some u =>
      have h0 := hc 0 u (by simp)
      simp only [ivals]
      by_cases h1 : c ≤ f 0
      · rw [List.filter_cons_of_pos (by simpa using h1), List.filter_cons_of_pos (by simpa using h0.mp h1)]
        simp [this]
      · rw [List.filter_cons_of_neg (by simpa using h1), List.filter_cons_of_neg (by simpa using fun h => h1 (h0.mpr h))]
        exact this

namespace Slotted

variable {h : Nat} {pg a b : Bytes}

/-- Compaction always writes the end of free space. -/
theorem Rep.compact_end (r : Rep ps h d pg s) {pg' : Bytes} {mv : Bool} (hc : Slotted.compact pg ps d = some (pg', mv)) :
    word ps h pg' 3 = (ps - liveSum s) % 256 ^ vsz ps := by
  obtain ⟨l, h1, cinv⟩ := r.cinv
  generalize hl' : l.mergeSort (fun a b => decide (b.1 ≤ a.1)) = l' at *
  have hel := r.eofs_le
  have hsp := r.space
  have hw4 := lt_wAddr ps h (4 + s.length)
  have hlsum : lenSum s l' = liveSum s := by have := cinv.sum; omega
  obtain ⟨p', e', mv', g1, g2, g3⟩ := relocLoop_spec r l' pg ps false cinv
  have b := g2.base
  have hs := g2.sum
  have hle := g2.e_le
  simp only [lenSum, List.map_nil, List.sum_nil] at hs
  have he : e' = ps - liveSum s := by omega
  simp only [Slotted.compact, r.tupleCount, Option.bind_eq_bind, Option.bind_some, h1, hl', g1,
      offEofs_eq b (show 4 ≤ 4 + s.length by omega),
      storeVal_word b (show 3 < 4 + s.length by omega)] at hc
  simp only [Option.pure_def, Option.some.injEq, Prod.mk.injEq] at hc
  rw [← hc.1, ← he]
  have hl : wAddr ps h 3 + (leEnc (vsz ps) e').length ≤ p'.length := by
    have h4 := wAddr_mono ps h (show 3 + 1 ≤ 4 + s.length by omega)
    rw [wAddr_succ] at h4
    have := b.fits
    rw [leEnc_length, b.len]; omega
  have hrd := rd_wr_same p' (wAddr ps h 3) (leEnc (vsz ps) e') hl
  rw [leEnc_length] at hrd
  unfold TS.word TS.setWord
  rw [hrd, leDec_leEnc]

/-- Pages without gaps with the same tuples in the same order differ only in free space. -/
theorem Rep.packed (ra : Rep ps h d a s) (rb : Rep ps h d b s) (hh : hdrBytes ps h b = hdrBytes ps h a)
    (ea : liveSum s = ps - eofs ps h a) (eb : liveSum s = ps - eofs ps h b) (e3 : word ps h b 3 = word ps h a 3)
    (ho : ∀ i j t u, s[i]? = some (some t) → s[j]? = some (some u) →
      (word ps h a (4 + i) ≤ word ps h a (4 + j) ↔ word ps h b (4 + i) ≤ word ps h b (4 + j))) : Twin ps h d a b s := by
  have hel := ra.eofs_le
  have hel2 := rb.eofs_le
  have hee : eofs ps h b = eofs ps h a := by omega
  have hsl : ∀ k, k < 4 + s.length → word ps h b k = word ps h a k := by
    intro k hk
    rcases show k = 0 ∨ k = 1 ∨ k = 2 ∨ k = 3 ∨ 4 ≤ k by omega with rfl | rfl | rfl | rfl | h4
    · rw [ra.occ, rb.occ]
    · rw [ra.cnt, rb.cnt]
    · rw [ra.tomb, rb.tomb]
    · exact e3
    · obtain ⟨i, rfl⟩ := Nat.exists_eq_add_of_le h4
      have hil : i < s.length := by omega
      have hs : s[i]? = some s[i] := List.getElem?_eq_getElem hil
      cases hx : s[i] with
      | none =>
        rw [hx] at hs
        rw [(ra.word_eq_zero hil).mpr hs, (rb.word_eq_zero hil).mpr hs]
      | some t =>
        rw [hx] at hs
        have t1 := ra.lay.tiled hel ea hs
        have t2 := rb.lay.tiled hel2 eb hs
        rw [fromSum_congr (g := fun i => word ps h b (4 + i)) (e := word ps h b (4 + i)) (fun j u hj => ho i j t u hs hj)] at t1
        omega
  have la := ra.base.len
  have lb := rb.base.len
  have hfi := ra.base.fits
  have hge := wAddr_ge ps h (4 + s.length)
  refine ⟨ra, ra.base, lb, ra.space, fun x hx => ?_⟩
  have same : ∀ {o n : Nat}, rd a o n = rd b o n → o ≤ x → x < o + n → a[x]? = b[x]? := by
    intro o n he h1 h2
    have := congrArg (fun l => l[x - o]?) he
    simp only [rd_getElem?, if_pos (show x - o < n by omega)] at this
    rwa [show o + (x - o) = x by omega] at this
  have wsame : ∀ k, k < 4 + s.length → rd a (wAddr ps h k) (vsz ps) = rd b (wAddr ps h k) (vsz ps) := by
    intro k hk
    have hm := wAddr_mono ps h (show k + 1 ≤ 4 + s.length from hk)
    rw [wAddr_succ] at hm
    exact leDec_eq (by rw [rd_length _ _ _ (by omega), rd_length _ _ _ (by omega)]) (hsl k hk).symm
  rcases hx with hx | hx
  · by_cases h0 : x < vsz ps
    · refine same (o := 0) (n := vsz ps) (leDec_eq ?_ ?_) (by omega) (by omega)
      · rw [rd_length _ _ _ (by omega), rd_length _ _ _ (by omega)]
      · rw [ra.base.hdr, rb.base.hdr]
    by_cases h1 : x < vsz ps + h
    · exact same (o := vsz ps) (n := h) hh.symm (by omega) (by omega)
    · have hN := vsz_pos ps
      have hdm := Nat.div_add_mod (x - (vsz ps + h)) (vsz ps)
      have hml := Nat.mod_lt (x - (vsz ps + h)) hN
      rw [Nat.mul_comm] at hdm
      generalize (x - (vsz ps + h)) / vsz ps = k at *
      generalize (x - (vsz ps + h)) % vsz ps = j at *
      have hk : k < 4 + s.length := by
        rcases Nat.lt_or_ge k (4 + s.length) with h2 | h2
        · exact h2
        · have := wAddr_mono ps h h2
          unfold wAddr at this hx
          omega
      exact same (wsame k hk) (by unfold wAddr; omega) (by unfold wAddr; omega)
  · by_cases h2 : x < ps
    · obtain ⟨i, t, g1, g2, g3⟩ := ra.lay.covered hel ea hx h2
      have q1 := (ra.lay.live i t g1).2.2.1
      have q2 := (rb.lay.live i t g1).2.2.1
      have hil := (List.getElem?_eq_some_iff.mp g1).1
      simp only [hsl (4 + i) (by omega)] at q2
      exact same (q1.trans q2.symm) g2 g3
    · rw [List.getElem?_eq_none (by omega), List.getElem?_eq_none (by omega)]

/-! ### What discarding writes -/

/-- `b` is `a` but for bytes below the end of the slot array. -/
structure Low (ps h K : Nat) (a b : Bytes) : Prop where
  base : Base ps h K b
  ag : ∀ i, wAddr ps h K ≤ i → b[i]? = a[i]?

variable {K : Nat}

theorem Low.setWord (t : Low ps h K a b) {k : Nat} (hk : k < K) (v : Nat) : Low ps h K a (TS.setWord ps h b k v) := by
  refine ⟨t.base.setWord k v, fun i hi => ?_⟩
  have hm := wAddr_mono ps h (show k + 1 ≤ K from hk)
  rw [wAddr_succ] at hm
  unfold TS.setWord
  rw [wr_getElem?, if_neg (by rw [leEnc_length]; omega), t.ag i hi]

theorem Low.recompute (t : Low ps h K a b) (hK : 4 ≤ K) (hn : 4 + TS.word ps h b 1 ≤ K) {c : Bytes} (hc : recomputeEnd b ps = some c) :
    Low ps h K a c := by
  obtain ⟨m, h1, -⟩ := minOffLoop_spec t.base hK (TS.word ps h b 1) 0 ps (by omega)
  simp only [recomputeEnd, tupleCount_eq t.base hK, h1, offEofs_eq t.base hK, storeVal_word t.base (show 3 < K by omega),
      Option.bind_eq_bind, Option.bind_some, Option.some.injEq] at hc
  rw [← hc]
  exact t.setWord (by omega) m

/-- `discard_tuple_on_page` writes nothing behind the slot array. -/
theorem Rep.discard_low (r : Rep ps h d a s) {i : Nat} {a' : Bytes} {ok : Bool} (h1 : Slotted.discard a ps d i = some (a', ok)) :
    ∀ x, wAddr ps h (4 + s.length) ≤ x → a'[x]? = a[x]? := by
  by_cases hi : i < s.length
  · have h4' : 4 ≤ 4 + s.length := by omega
    obtain ⟨p, g1, bp, -, g4, -⟩ := moveIn_words r.base (k := 4 + i) (c := s.length - (i + 1)) (by omega)
    have lp : Low ps h (4 + s.length) a p := by
      refine ⟨bp, fun x hx => ?_⟩
      have := congrArg (fun l => l[0]?) (g4 x 1 hx)
      simpa [rd_getElem?] using this
    simp only [Slotted.discard, r.tupleCount, Option.bind_eq_bind, Option.bind_some, if_neg (show ¬ i ≥ s.length by omega),
        r.tupOff hi, Option.pure_def,
        offCount_eq r.base h4', loadVal_word r.base (show 1 < 4 + s.length by omega),
        r.cnt, sub32_eq (show i + 1 ≤ s.length by omega),
        offIth_eq r.base h4' (show 4 + i ≤ 4 + s.length by omega), offIth_eq r.base h4' (show 4 + (i + 1) ≤ 4 + s.length by omega),
        overhead, ← Nat.add_assoc, g1, sub32_eq (show 1 ≤ s.length by omega), offCount_eq bp h4',
        storeVal_word bp (show 1 < 4 + s.length by omega), Option.bind_eq_some_iff] at h1
    obtain ⟨osz, -, h1⟩ := h1
    have l2 := lp.setWord (show 1 < 4 + s.length by omega) (s.length - 1)
    have hpow := le_pow_vsz r.base.lt
    have hn := lt_wAddr ps h (4 + s.length)
    have hfi := r.base.fits
    have e1 : TS.word ps h (TS.setWord ps h p 1 (s.length - 1)) 1 = s.length - 1 := word_setWord_eq bp (by omega) (by omega)
    obtain ⟨p2, hp2, o, ho, w, hw, v, hv, o2, ho2, p3, hp3, x, hx, h1⟩ := h1
    have l3 : Low ps h (4 + s.length) a p2 ∧ TS.word ps h p2 1 = s.length - 1 := by
      split at hp2
      · simp only [offTomb_eq l2.base h4', loadVal_word l2.base (show 2 < 4 + s.length by omega), Option.bind_some,
          storeVal_word l2.base (show 2 < 4 + s.length by omega)] at hp2
        obtain ⟨z, hz, hp2⟩ := Option.bind_eq_some_iff.mp hp2
        cases hp2
        exact ⟨l2.setWord (by omega) z, by rw [word_setWord_ne _ (by omega), e1]⟩
      · cases hp2
        exact ⟨l2, e1⟩
    rw [offOcc_eq l3.1.base, Option.some.injEq] at ho ho2
    subst ho ho2
    rw [storeVal_word l3.1.base (by omega), Option.some.injEq] at hp3
    subst hp3
    have l4 := l3.1.setWord (show 0 < 4 + s.length by omega) v
    obtain ⟨p4, h5, h6⟩ := h1
    cases h6
    split at h5
    · have l5 := l4.recompute h4' (by rw [word_setWord_ne _ (by omega), l3.2]; omega) h5
      exact l5.ag
    · cases h5
      exact l4.ag
  · rw [(r.discard i).2 hi] at h1
    cases h1
    exact fun _ _ => rfl

/-- So does replacing a tuple by NULL. -/
theorem Rep.update_none_low (r : Rep ps h d a s) {i : Nat} {a' : Bytes} {ok : Bool} (h1 : Slotted.update a ps d i none = some (a', ok)) :
    ∀ x, wAddr ps h (4 + s.length) ≤ x → a'[x]? = a[x]? := by
  have hw : ExtOk d none := by intro t ht; cases ht
  obtain ⟨c, hc, -⟩ := r.canUpdate i hw
  have h4' : 4 ≤ 4 + s.length := by omega
  by_cases hi : i < s.length
  · have hil : 4 + i < 4 + s.length := by omega
    simp only [Slotted.update, hc, Option.bind_eq_bind, Option.bind_some, offIth_eq r.base h4' (show 4 + i ≤ 4 + s.length by omega),
      loadVal_word r.base hil] at h1
    split at h1
    · cases h1; exact fun _ _ => rfl
    split at h1
    · cases h1; exact fun _ _ => rfl
    · obtain ⟨p, h2, h1⟩ := Option.bind_eq_some_iff.mp h1
      have l0 : Low ps h (4 + s.length) a a := ⟨r.base, fun _ _ => rfl⟩
      have l1 := l0.setWord hil 0
      simp only [updateDiscard, storeVal_word r.base hil, Option.bind_eq_bind, Option.bind_some, offOcc_eq l1.base,
        loadVal_word l1.base (show 0 < 4 + s.length by omega), storeVal_word l1.base (show 0 < 4 + s.length by omega), Option.bind_eq_some_iff] at h2
      obtain ⟨z, -, v, -, e, -, h2⟩ := h2
      have l2 := l1.setWord (show 0 < 4 + s.length by omega) v
      have l3 : Low ps h (4 + s.length) a p := by
        split at h2
        · exact l2.recompute h4' (by rw [word_setWord_ne _ (by omega), word_setWord_ne _ (by omega), r.cnt]; omega) h2
        · cases h2; exact l2
      simp only [offTomb_eq l3.base h4', loadVal_word l3.base (show 2 < 4 + s.length by omega), Option.bind_some,
        storeVal_word l3.base (show 2 < 4 + s.length by omega), Option.bind_eq_some_iff] at h1
      obtain ⟨z, -, h1⟩ := h1
      cases h1
      exact (l3.setWord (by omega) z).ag
  · rw [(r.update_at hw).2 (by simp [UpdRoom, List.getElem?_eq_none (Nat.le_of_not_lt hi)])] at h1
    cases h1
    exact fun _ _ => rfl

end Slotted

namespace Fixed

variable {h : Nat} {pg a b : Bytes}

/-- Replacing a tuple by NULL writes nothing into the slots. -/
theorem Rep.update_none_low (r : Rep ps h d a s) {i : Nat} {a' : Bytes} {ok : Bool} (h1 : Fixed.update a ps d i none = some (a', ok)) :
    ∀ x, tAddr ps h d 0 ≤ x → a'[x]? = a[x]? := by
  intro x hx
  simp only [Fixed.update, r.canUpdate, Option.bind_eq_bind, Option.bind_some] at h1
  by_cases hi : i < s.length
  · rw [if_neg (by simp [hi])] at h1
    have hle := r.le
    have hc : i < cap ps h d := by omega
    have b0 := r.base
    have hbl := Base.bit_lt b0 hc
    have hb := bit_in (ps := ps) (h := h) hc
    have h0 := tAddr0_ge (ps := ps) (h := h) (d := d)
    obtain ⟨p, h2, h1⟩ := Option.bind_eq_some_iff.mp h1
    cases h1
    simp only [Fixed.updateDiscard, offBits_eq b0, Option.bind_eq_bind, Option.bind_some, Option.bind_eq_some_iff] at h2
    obtain ⟨v, -, h2⟩ := h2
    cases v with
    | false => cases h2; rfl
    | true =>
      have b1 := Base.withBit b0 i false
      simp only [resetBit_eq hbl, Option.bind_some, offTomb_eq b1, loadVal_word b1 (show 1 < 2 by omega),
        storeVal_word b1 (show 1 < 2 by omega), if_true] at h2
      obtain ⟨z, -, h2⟩ := Option.bind_eq_some_iff.mp h2
      cases h2
      have hs2 : wAddr ps h 2 = wAddr ps h 1 + vsz ps := wAddr_succ ps h 1
      unfold setWord withBit
      rw [wr_getElem?, if_neg (by rw [leEnc_length]; omega), wr_getElem?, if_neg (by simp only [List.length_cons, List.length_nil]; omega)]
  · rw [if_pos (by simp; omega)] at h1
    cases h1; rfl

/-- Pages with the same tuples and the same page header have the same bytes, except in the slots of tomb stones, the free
space and the part of the bitmap that is in no use. -/
theorem Rep.alike (ra : Rep ps h d a s) (rb : Rep ps h d b s) (hh : hdrBytes ps h b = hdrBytes ps h a) {x : Nat}
    (hx : x < wAddr ps h 2 + s.length / 8 ∨ ∃ i t, s[i]? = some (some t) ∧ tAddr ps h d i ≤ x ∧ x < tAddr ps h d i + d.size) :
    a[x]? = b[x]? := by
  have la := ra.base.len
  have lb := rb.base.len
  have hfi := ra.base.fits
  have hge := wAddr_ge ps h 2
  have hs1 : wAddr ps h 1 = wAddr ps h 0 + vsz ps := wAddr_succ ps h 0
  have hs2 : wAddr ps h 2 = wAddr ps h 1 + vsz ps := wAddr_succ ps h 1
  have hs0 : wAddr ps h 0 = vsz ps + h := by unfold wAddr; omega
  have same : ∀ {o n : Nat}, rd a o n = rd b o n → o ≤ x → x < o + n → a[x]? = b[x]? := by
    intro o n he h1 h2
    have := congrArg (fun l => l[x - o]?) he
    simp only [rd_getElem?, if_pos (show x - o < n by omega)] at this
    rwa [show o + (x - o) = x by omega] at this
  rcases hx with hx | ⟨i, t, h1, h2, h3⟩
  · by_cases h0 : x < vsz ps
    · refine same (o := 0) (n := vsz ps) (leDec_eq ?_ ?_) (by omega) (by omega)
      · rw [rd_length _ _ _ (by omega), rd_length _ _ _ (by omega)]
      · rw [ra.base.hdr, rb.base.hdr]
    by_cases h1 : x < vsz ps + h
    · exact same (o := vsz ps) (n := h) hh.symm (by omega) (by omega)
    by_cases h2 : x < wAddr ps h 1
    · refine same (o := wAddr ps h 0) (n := vsz ps) (leDec_eq ?_ ?_) (by omega) (by omega)
      · rw [rd_length _ _ _ (by omega), rd_length _ _ _ (by omega)]
      · exact ra.cnt.trans rb.cnt.symm
    by_cases h3 : x < wAddr ps h 2
    · refine same (o := wAddr ps h 1) (n := vsz ps) (leDec_eq ?_ ?_) (by omega) (by omega)
      · rw [rd_length _ _ _ (by omega), rd_length _ _ _ (by omega)]
      · exact ra.tomb.trans rb.tomb.symm
    · obtain ⟨k, rfl⟩ := Nat.exists_eq_add_of_le (Nat.le_of_not_lt h3)
      have hk : k * 8 + 8 ≤ s.length := by omega
      have hle := ra.le
      have hin := bit_in (ps := ps) (h := h) (show k * 8 < cap ps h d by omega)
      have hta := ra.tAddr_le
      have htm := tAddr_mono (ps := ps) (h := h) (d := d) (Nat.zero_le s.length)
      rw [List.getElem?_eq_getElem (by omega), List.getElem?_eq_getElem (by omega)]
      congr 1
      apply UInt8.toNat_inj.mp
      refine Nat.eq_of_testBit_eq fun j => ?_
      by_cases hj : j < 8
      · have hjs : k * 8 + j < s.length := by omega
        have e1 := ra.bits _ _ (List.getElem?_eq_getElem hjs)
        have e2 := rb.bits _ _ (List.getElem?_eq_getElem hjs)
        rw [← e2] at e1
        unfold bit at e1
        rw [show (k * 8 + j) / 8 = k by omega, show (k * 8 + j) % 8 = j by omega, List.getElem?_eq_getElem (by omega),
          List.getElem?_eq_getElem (by omega)] at e1
        simpa using e1
      · have p8 : 2 ^ 8 ≤ 2 ^ j := Nat.pow_le_pow_right (by omega) (by omega)
        rw [Nat.testBit_lt_two_pow (Nat.lt_of_lt_of_le (UInt8.toNat_lt _) p8), Nat.testBit_lt_two_pow (Nat.lt_of_lt_of_le (UInt8.toNat_lt _) p8)]
  · exact same ((ra.data i t h1).2.trans (rb.data i t h1).2.symm) h2 h3

end Fixed
end TS
