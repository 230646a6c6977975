import Verif.Twin
/-
Two pages that differ only in free space, continued: update, trailing tomb stones, discard all, compaction,
zeroing of free space, setting an element in place, writing the page header.
-/
namespace TS
namespace Slotted

variable {ps h K e : Nat} {d : SizeDef} {a b : Bytes} {s : Slots}

theorem Twin.discardTrailing (t : Twin ps h d a b s) :
    Alike ps h d (Slotted.discardTrailing a ps) (Slotted.discardTrailing b ps) (dropTrailing s) (trailing s) := by
  obtain ⟨r, w⟩ := t
  have r2 := r.twin w
  have hts := tombs_le s
  have hdl := dropTrailing_length s
  have htd := tombs_dropTrailing s
  have hmul : (dropTrailing s).length * vsz ps + trailing s * vsz ps = s.length * vsz ps := by
    rw [← Nat.add_mul, hdl]
  have hex : ∀ x, Rep ps h d x s → Slotted.discardTrailing x ps = some (TS.setWord ps h (TS.setWord ps h (TS.setWord ps h x 0
      (liveSum s + s.length * vsz ps - trailing s * vsz ps)) 1 (dropTrailing s).length) 2 (tombs s - trailing s), trailing s) := by
    intro x r
    have b := r.base
    have hl := trailLoop_spec r.toRep0 s.length (liveSum s + s.length * vsz ps) (tombs s) 0
      (Nat.le_refl _) (by rw [List.take_length]; omega) (by rw [List.take_length]; omega)
    rw [List.take_length, Nat.zero_add] at hl
    have b1 := b.setWord 0 (liveSum s + s.length * vsz ps - trailing s * vsz ps)
    have b2 := b1.setWord 1 (dropTrailing s).length
    simp only [Slotted.discardTrailing, offOcc_eq b, loadVal_word b (show 0 < 4 + s.length by omega),
      offCount_eq b (show 4 ≤ 4 + s.length by omega), loadVal_word b (show 1 < 4 + s.length by omega),
      offTomb_eq b (show 4 ≤ 4 + s.length by omega), loadVal_word b (show 2 < 4 + s.length by omega),
      Option.bind_eq_bind, Option.bind_some, r.occ, r.cnt, r.tomb, hl,
      storeVal_word b (show 0 < 4 + s.length by omega),
      offCount_eq b1 (show 4 ≤ 4 + s.length by omega),
      storeVal_word b1 (show 1 < 4 + s.length by omega),
      offTomb_eq b2 (show 4 ≤ 4 + s.length by omega),
      storeVal_word b2 (show 2 < 4 + s.length by omega)]
    rfl
  obtain ⟨a', h1, h2, -, h4⟩ := r.discardTrailing_at
  refine ⟨_, _, hex a r, hex b r2, ?_⟩
  rw [hex a r] at h1
  cases h1
  refine ⟨h2, ((((w.setWord 0 _).setWord 1 _).setWord 2 _).mono (by omega) ?_)⟩
  refine h2.eofs_ge r.eofs_le (fun j u hj => ?_)
  rw [h4 j]
  rw [getElem?_dropTrailing (List.getElem?_eq_some_iff.mp hj).1] at hj
  exact (r.live hj).1

theorem Twin.discardAll (t : Twin ps h d a b s) :
    ∃ a' b', Slotted.discardAll a ps = some a' ∧ Slotted.discardAll b ps = some b' ∧ Twin ps h d a' b' [] := by
  obtain ⟨r, w⟩ := t
  have r2 := r.twin w
  have hex : ∀ x, Rep ps h d x s → Slotted.discardAll x ps = some (TS.setWord ps h (TS.setWord ps h (TS.setWord ps h (TS.setWord ps h x 0
      0) 1 0) 2 0) 3 ps) := by
    intro x r
    have b := r.base
    have b1 := b.setWord 0 0
    have b2 := b1.setWord 1 0
    have b3 := b2.setWord 2 0
    simp only [Slotted.discardAll, offOcc_eq b, storeVal_word b (show 0 < 4 + s.length by omega),
      offCount_eq b1 (show 4 ≤ 4 + s.length by omega), storeVal_word b1 (show 1 < 4 + s.length by omega),
      offTomb_eq b2 (show 4 ≤ 4 + s.length by omega), storeVal_word b2 (show 2 < 4 + s.length by omega),
      offEofs_eq b3 (show 4 ≤ 4 + s.length by omega), storeVal_word b3 (show 3 < 4 + s.length by omega),
      Option.bind_eq_bind, Option.bind_some]
  obtain ⟨a', h1, h2, -⟩ := r.discardAll
  refine ⟨_, _, hex a r, hex b r2, ?_⟩
  rw [hex a r] at h1
  cases h1
  refine ⟨h2, (((((w.setWord 0 _).setWord 1 _).setWord 2 _).setWord 3 _).mono (by simp) ?_)⟩
  exact h2.eofs_ge r.eofs_le (fun j u hj => by simp at hj)

theorem Twin.collect (t : Twin ps h d a b s) : ∀ (n i : Nat), i + n ≤ s.length → collectLoop b ps n i = collectLoop a ps n i
  | 0, _, _ => rfl
  | n + 1, i, hn => by
    have hw := t.2.word (show 4 + i < 4 + s.length by omega)
    have r2 := t.1.twin t.2
    simp only [collectLoop, existsTuple, t.1.tupleCount, r2.tupleCount, t.1.tupOff (show i < s.length by omega),
      r2.tupOff (show i < s.length by omega), hw, Option.bind_eq_bind, Option.bind_some]
    rw [t.collect n (i + 1) (by omega)]

theorem Tw.reloc (r : Rep ps h d a s) {E : Nat} (hE : E ≤ Slotted.eofs ps h a) : ∀ (l : List (Nat × Nat)) (p q : Bytes) (e : Nat) (mv : Bool),
    CInv ps h d a s l p e mv → Tw ps h (4 + s.length) E p q →
    ∃ p' q' e' mv', relocLoop ps d l p e mv = some (p', e', mv') ∧ relocLoop ps d l q e mv = some (q', e', mv') ∧
      Tw ps h (4 + s.length) E p' q'
  | [], p, q, e, mv, _, w => ⟨p, q, e, mv, rfl, rfl, w⟩
  | (o, i) :: rest, p, q, e, mv, c, w => by
    obtain ⟨t, hi, hoe, hlow, how, hwf, hrd, cinv⟩ := c.step r
    have hsp := r.space
    have hil := (List.getElem?_eq_some_iff.mp hi).1
    have hel := c.e_le
    have hge := wAddr_ge ps h (4 + s.length)
    have hrq : rd q o t.length = t := by unfold rd at hrd ⊢; rw [w.drop (by omega)]; exact hrd
    rw [relocLoop_cons c.base hil how hwf hrd (by omega) (by omega) (by omega) hel,
      relocLoop_cons w.baseB hil (by rw [w.word (by omega)]; exact how) hwf hrq (by omega) (by omega) (by omega) hel]
    exact Tw.reloc r hE rest _ _ _ _ cinv ((w.wr (by omega) t).setWord _ _)

theorem Twin.compact (t : Twin ps h d a b s) :
    ∃ v, Alike ps h d (Slotted.compact a ps d) (Slotted.compact b ps d) s v := by
  obtain ⟨r, w⟩ := t
  have r2 := r.twin w
  obtain ⟨l, g1, ci⟩ := r.cinv
  obtain ⟨p, q, e', mv', k1, k2, k3⟩ := Tw.reloc r (Nat.le_refl _) _ a b ps false ci w
  obtain ⟨a', mv, h1, h2, -, h4, -⟩ := r.compact_at
  have hsum := r.sum_le
  have hel := r.eofs_le
  have e1 : Slotted.compact a ps d = some (TS.setWord ps h p 3 e', mv') := by
    simp only [Slotted.compact, r.tupleCount, Option.bind_eq_bind, Option.bind_some, g1, k1,
      offEofs_eq k3.base (show 4 ≤ 4 + s.length by omega), storeVal_word k3.base (show 3 < 4 + s.length by omega)]
    rfl
  have e2 : Slotted.compact b ps d = some (TS.setWord ps h q 3 e', mv') := by
    simp only [Slotted.compact, r2.tupleCount, Twin.collect ⟨r, w⟩ s.length 0 (by omega), Option.bind_eq_bind, Option.bind_some, g1, k2,
      offEofs_eq k3.baseB (show 4 ≤ 4 + s.length by omega), storeVal_word k3.baseB (show 3 < 4 + s.length by omega)]
    rfl
  refine ⟨mv', _, _, e1, e2, ?_⟩
  rw [e1] at h1
  cases h1
  exact ⟨h2, (k3.setWord 3 _).mono (Nat.le_refl _) (by rw [h4]; omega)⟩

/-- Zeroing free space leaves identical pages. -/
theorem Twin.zeroOut (t : Twin ps h d a b s) : ∃ a' v, Slotted.zeroOut a ps = some (a', v) ∧ Slotted.zeroOut b ps = some (a', v) ∧
    Rep ps h d a' s := by
  obtain ⟨r, w⟩ := t
  have r2 := r.twin w
  have hf : Slotted.free ps h b s = Slotted.free ps h a s := Twin.free ⟨r, w⟩
  have hsp := r.space
  have he := w.eofs (by omega)
  rcases Nat.eq_zero_or_pos (Slotted.free ps h a s) with h0 | h0
  · have hab : b = a := by
      refine List.ext_getElem? (fun i => (w.ag i ?_).symm)
      unfold Slotted.free at h0
      omega
    subst hab
    exact ⟨b, false, r.zeroOut.2 h0, r.zeroOut.2 h0, r⟩
  · obtain ⟨a', h1, h2, -, -, h5, h6⟩ := r.zeroOut.1 h0
    obtain ⟨b', k1, k2, -, -, k5, k6⟩ := r2.zeroOut.1 (by omega)
    refine ⟨a', true, h1, ?_, h2⟩
    rw [k1, show b' = a' from ?_]
    rw [hf] at k5
    rw [he] at k6
    refine List.ext_getElem? (fun i => ?_)
    by_cases hc : wAddr ps h (4 + s.length) ≤ i ∧ i < Slotted.eofs ps h a
    · have hx := congrArg (fun l : Bytes => l[i - wAddr ps h (4 + s.length)]?) (k5.trans h5.symm)
      simp only [rd, List.getElem?_take, List.getElem?_drop] at hx
      unfold Slotted.free at hx
      rw [if_pos (by omega), if_pos (by omega), show wAddr ps h (4 + s.length) + (i - wAddr ps h (4 + s.length)) = i by omega] at hx
      exact hx
    · rw [h6 i hc, k6 i hc]
      exact (w.ag i (by omega)).symm

theorem Twin.setInPlace (t : Twin ps h d a b s) (i : Nat) {e : Api.Edit} (he : EditOk d e) :
    ∃ v s', Alike ps h d (Api.setInPlaceSlotted a ps d i e) (Api.setInPlaceSlotted b ps d i e) s' v ∧
      ((lookup s i = none ∧ v = false ∧ s' = s) ∨ ∃ u u', lookup s i = some u ∧ EditEffect d e u v.toNat u' ∧ s' = s.set i (some u')) := by
  obtain ⟨r, w⟩ := t
  have r2 := r.twin w
  rcases r.setInPlace_at i he with ⟨u, a', v, u', hi, h1, h2, h3, -, h5⟩ | ⟨hn, h1⟩
  · refine ⟨v, s.set i (some u'), ?_, .inr ⟨u, u', by simp [lookup, hi], h2, rfl⟩⟩
    have hlv := r.live hi
    have hil : i < s.length := hlv.2.2.2.2
    have hge : Slotted.eofs ps h a ≤ Slotted.eofs ps h a' := by
      refine h3.eofs_ge r.eofs_le (fun j x hj => ?_)
      have hjl := (List.getElem?_eq_some_iff.mp hj).1
      simp only [List.length_set] at hjl
      rw [h5 j hjl]
      by_cases hji : j = i
      · rw [hji]; exact hlv.1
      · rw [List.getElem?_set_ne (by omega)] at hj; exact (r.live hj).1
    have hg : ∀ x, Rep ps h d x s → TS.word ps h x (4 + i) = TS.word ps h a (4 + i) → Slotted.getNth x ps i = some (some (TS.word ps h a (4 + i))) := by
      intro x rx hx
      have h0 := rx.off_pos hi
      simp only [Slotted.getNth, rx.tupleCount, Option.bind_eq_bind, Option.bind_some, if_neg (show ¬ i ≥ s.length by omega), rx.tupOff hil, hx]
      rw [if_neg (by omega)]; rfl
    have hw := w.word (show 4 + i < 4 + s.length by omega)
    have hsp := r.space
    have hge2 := wAddr_ge ps h (4 + s.length)
    have key : ∃ b', Api.setInPlaceSlotted b ps d i e = some (b', v) ∧ Tw ps h (4 + s.length) (Slotted.eofs ps h a) a' b' := by
      simp only [Api.setInPlaceSlotted, hg a r rfl, hg b r2 hw, Option.bind_eq_bind, Option.bind_some, w.drop hlv.1] at h1 ⊢
      cases hz : tupleSize d (a.drop (TS.word ps h a (4 + i))) with
      | none => rw [hz] at h1; cases h1
      | some old =>
        rw [hz] at h1
        simp only [Option.bind_some, w.load (.inr hlv.1)] at h1 ⊢
        cases hl : TS.load a (TS.word ps h a (4 + i)) old with
        | none => rw [hl] at h1; cases h1
        | some x =>
          rw [hl] at h1
          simp only [Option.bind_some] at h1 ⊢
          cases hc : e.can x with
          | none => rw [hc] at h1; cases h1
          | some c =>
            rw [hc] at h1
            simp only [Option.bind_some] at h1 ⊢
            cases c with
            | false => cases h1; exact ⟨b, rfl, w⟩
            | true =>
              simp only [Bool.not_true, Bool.false_eq_true, if_false] at h1 ⊢
              cases hs : e.set x with
              | none => rw [hs] at h1; cases h1
              | some y =>
                obtain ⟨m, ok⟩ := y
                rw [hs] at h1
                simp only [Option.bind_some, store, w.base.len, w.len] at h1 ⊢
                have w2 := w.wr (o := TS.word ps h a (4 + i)) (by omega) m
                split at h1
                · rw [if_pos ‹_›]
                  simp only [Option.bind_some] at h1 ⊢
                  cases ok with
                  | false => cases h1; exact ⟨_, rfl, w2⟩
                  | true =>
                    simp only [if_true, w2.drop hlv.1, offOcc_eq w2.base, offOcc_eq w2.baseB, Option.bind_some,
                      loadVal_word w2.base (show 0 < 4 + s.length by omega), loadVal_word w2.baseB (show 0 < 4 + s.length by omega),
                      storeVal_word w2.base (show 0 < 4 + s.length by omega), storeVal_word w2.baseB (show 0 < 4 + s.length by omega),
                      w2.word (show 0 < 4 + s.length by omega)] at h1 ⊢
                    cases hn : tupleSize d ((TS.wr a (TS.word ps h a (4 + i)) m).drop (TS.word ps h a (4 + i))) with
                    | none => rw [hn] at h1; cases h1
                    | some new =>
                      rw [hn] at h1
                      cases h1
                      exact ⟨_, rfl, w2.setWord 0 _⟩
                · cases h1
    obtain ⟨b', k1, k2⟩ := key
    exact ⟨a', b', h1, k1, h3, k2.mono (by simp) hge⟩
  · refine ⟨false, s, ⟨a, b, h1, ?_, r, w⟩, .inl ⟨?_, rfl, rfl⟩⟩
    · rcases r2.setInPlace_at i he with ⟨u, _, _, _, hi, _⟩ | ⟨_, h1⟩
      · exact absurd hi (hn u)
      · exact h1
    · unfold lookup
      cases hx : s[i]? with
      | none => rfl
      | some y =>
        cases y with
        | none => rfl
        | some u => exact absurd hx (hn u)

theorem Tw.updDisc (w : Tw ps h K e a b) (hK : 4 ≤ K) {i o : Nat} (hi : 4 + i < K) (hc : 4 + TS.word ps h a 1 ≤ K) (ho : e ≤ o) {a' : Bytes}
    (hu : updateDiscard a ps d (wAddr ps h (4 + i)) o = some a') :
    ∃ b', updateDiscard b ps d (wAddr ps h (4 + i)) o = some b' ∧ Tw ps h K e a' b' := by
  have w1 := w.setWord (4 + i) 0
  simp only [updateDiscard, storeVal_word w.base hi, storeVal_word w.baseB hi, Option.bind_eq_bind, Option.bind_some, w1.drop ho] at hu ⊢
  cases hz : tupleSize d ((TS.setWord ps h a (4 + i) 0).drop o) with
  | none => rw [hz] at hu; cases hu
  | some z =>
    rw [hz] at hu
    simp only [Option.bind_some, offOcc_eq w1.base, offOcc_eq w1.baseB, loadVal_word w1.base (show 0 < K by omega),
      loadVal_word w1.baseB (show 0 < K by omega), w1.word (show 0 < K by omega)] at hu ⊢
    cases hs : sub32 (TS.word ps h (TS.setWord ps h a (4 + i) 0) 0) z with
    | none => rw [hs] at hu; cases hu
    | some v =>
      rw [hs] at hu
      have w2 := w1.setWord 0 v
      simp only [Option.bind_some, storeVal_word w1.base (show 0 < K by omega), storeVal_word w1.baseB (show 0 < K by omega),
        endFree_eq w2.base hK, endFree_eq w2.baseB hK, w2.eofs hK] at hu ⊢
      split at hu
      · rw [if_pos ‹_›]
        obtain ⟨v2, u1, u2⟩ := w2.recompute hK (by rw [word_setWord_ne _ (by omega), word_setWord_ne _ (by omega)]; exact hc)
        rw [u1] at hu
        rw [u2]
        cases hu
        exact ⟨_, rfl, w2.setWord 3 v2⟩
      · rw [if_neg ‹_›]
        cases hu
        exact ⟨_, rfl, w2⟩

theorem Tw.place (w : Tw ps h K e a b) {i o x : Nat} {u : Bytes} (hi : 4 + i < K) (hx : Tw ps h K x (TS.wr (TS.setWord ps h a (4 + i) o) o u)
      (TS.wr (TS.setWord ps h b (4 + i) o) o u)) {a' : Bytes}
    (hu : (do
        let pg ← storeVal a ps (wAddr ps h (4 + i)) o
        let b ← TS.load u 0 u.length
        let pg ← store pg o b
        let occ ← loadVal pg ps (← offOcc pg ps)
        let occ ← u32 (occ + u.length)
        storeVal pg ps (← offOcc pg ps) occ : Option Bytes) = some a') :
    ∃ b', (do
        let pg ← storeVal b ps (wAddr ps h (4 + i)) o
        let b ← TS.load u 0 u.length
        let pg ← store pg o b
        let occ ← loadVal pg ps (← offOcc pg ps)
        let occ ← u32 (occ + u.length)
        storeVal pg ps (← offOcc pg ps) occ : Option Bytes) = some b' ∧ Tw ps h K x a' b' := by
  have w1 := w.setWord (4 + i) o
  simp only [storeVal_word w.base hi, storeVal_word w.baseB hi, Option.bind_eq_bind, Option.bind_some, load_all, store, w1.base.len, w1.len] at hu ⊢
  split at hu
  · rw [if_pos ‹_›]
    simp only [Option.bind_some, offOcc_eq hx.base, offOcc_eq hx.baseB, loadVal_word hx.base (show 0 < K by omega),
      loadVal_word hx.baseB (show 0 < K by omega), hx.word (show 0 < K by omega), storeVal_word hx.base (show 0 < K by omega),
      storeVal_word hx.baseB (show 0 < K by omega)] at hu ⊢
    cases hs : u32 (TS.word ps h (TS.wr (TS.setWord ps h a (4 + i) o) o u) 0 + u.length) with
    | none => rw [hs] at hu; cases hu
    | some v =>
      rw [hs] at hu
      cases hu
      exact ⟨_, rfl, hx.setWord 0 v⟩
  · cases hu

/-- Placing the tuple below the others. -/
theorem Tw.updFree (w : Tw ps h K e a b) (hK : 4 ≤ K) {i o : Nat} {u : Bytes} (hwf : WellFormed d u) (hi : 4 + i < K) (hn : 4 + TS.word ps h a 1 = K)
    (he : e ≤ Slotted.eofs ps h a) (hel : Slotted.eofs ps h a ≤ ps) (hfit : wAddr ps h K + u.length ≤ Slotted.eofs ps h a) {a' : Bytes}
    (hu : updatePlace a ps d (wAddr ps h (4 + i)) o true u = some a') :
    ∃ b', updatePlace b ps d (wAddr ps h (4 + i)) o true u = some b' ∧ Tw ps h K (Slotted.eofs ps h a - u.length) a' b' := by
  have hge := wAddr_ge ps h K
  have hwe := w.eofs hK
  have hal := allocate_eq w.base hK (sz := u.length) (by rw [hn]; omega) (by rw [hn]; exact hfit)
  have hal2 := allocate_eq w.baseB hK (sz := u.length) (by rw [w.word (by omega), hn]; omega) (by rw [w.word (by omega), hn, hwe]; exact hfit)
  rw [hwe] at hal2
  rw [updatePlace_eq hwf (by simpa using hal)] at hu
  rw [updatePlace_eq hwf (by simpa using hal2)]
  have w1 := w.setWord 3 (Slotted.eofs ps h a - u.length)
  refine w1.place hi ?_ hu
  exact ((w1.setWord _ _).mono (Nat.le_refl _) he).wrE (by omega) (by omega) (by omega)

/-- Placing the tuple where the former one was. -/
theorem Tw.updSame (w : Tw ps h K e a b) {i o : Nat} {u : Bytes} (hwf : WellFormed d u) (hi : 4 + i < K) (ho : e ≤ o) {a' : Bytes}
    (hu : updatePlace a ps d (wAddr ps h (4 + i)) o false u = some a') :
    ∃ b', updatePlace b ps d (wAddr ps h (4 + i)) o false u = some b' ∧ Tw ps h K e a' b' := by
  have hge := wAddr_ge ps h K
  have := w.sp
  rw [updatePlace_eq hwf (pg1 := a) (o := o) (by simp)] at hu
  rw [updatePlace_eq hwf (pg1 := b) (o := o) (by simp)]
  exact w.place hi ((w.setWord _ _).wr (by omega) u) hu

theorem Twin.room (t : Twin ps h d a b s) (i : Nat) (ext : Option Bytes) : UpdRoom ps h b s i ext ↔ UpdRoom ps h a s i ext := by
  have hf := t.free
  have he := t.2.eofs (by omega)
  by_cases hi : i < s.length
  · unfold UpdRoom
    rw [hf, he, t.2.word (show 4 + i < 4 + s.length by omega)]
  · simp [UpdRoom, List.getElem?_eq_none (show s.length ≤ i by omega)]

theorem Twin.update (t : Twin ps h d a b s) {i : Nat} {ext : Option Bytes} (hw : ExtOk d ext) :
    (i < s.length ∧ Alike ps h d (Slotted.update a ps d i ext) (Slotted.update b ps d i ext) (s.set i ext) true) ∨
    Alike ps h d (Slotted.update a ps d i ext) (Slotted.update b ps d i ext) s false := by
  have hroom := t.room i ext
  obtain ⟨r, w⟩ := t
  have r2 := r.twin w
  by_cases hc : UpdRoom ps h a s i ext
  · left
    have hi : i < s.length := by
      rcases Nat.lt_or_ge i s.length with h1 | h1
      · exact h1
      · simp [UpdRoom, List.getElem?_eq_none h1] at hc
    refine ⟨hi, ?_⟩
    obtain ⟨a', h1, h2, -, h4, h5⟩ := (r.update_at hw).1 hc
    obtain ⟨ca, hca, hcr⟩ := r.canUpdate i hw
    obtain ⟨cb, hcb, hcr2⟩ := r2.canUpdate i hw
    have e1 := hcr.mpr hc
    have e2 := hcr2.mpr (hroom.mpr hc)
    subst e1 e2
    have h4' : 4 ≤ 4 + s.length := by omega
    have hil : 4 + i < 4 + s.length := by omega
    have hel := r.eofs_le
    have hsp := r.space
    have hge := wAddr_ge ps h (4 + s.length)
    have hs : s[i]? = some s[i] := List.getElem?_eq_getElem hi
    have key : ∃ b' x, Slotted.update b ps d i ext = some (b', true) ∧ Tw ps h (4 + s.length) x a' b' ∧ x ≤ Slotted.eofs ps h a' := by
      simp only [Slotted.update, hca, hcb, Option.bind_eq_bind, Option.bind_some, Bool.not_true, Bool.false_eq_true, if_false,
        offIth_eq r.base h4' (show 4 + i ≤ 4 + s.length by omega), offIth_eq r2.base h4' (show 4 + i ≤ 4 + s.length by omega),
        loadVal_word r.base hil, loadVal_word r2.base hil, w.word hil] at h1 ⊢
      cases hx : s[i] with
      | none =>
        rw [hx] at hs
        rw [if_pos ((r.word_eq_zero hi).mpr hs)] at h1 ⊢
        cases ext with
        | none => cases h1; exact ⟨b, _, rfl, w, Nat.le_refl _⟩
        | some u =>
          have hwf := hw u rfl
          have hfit : wAddr ps h (4 + s.length) + u.length ≤ Slotted.eofs ps h a := by
            simp [UpdRoom, hs, Slotted.free] at hc; omega
          obtain ⟨p, g1, g2, -, -, g5, g6⟩ := r.placeFree hs hwf hfit (TS.word ps h a (4 + i))
          obtain ⟨q, k1, k2⟩ := w.updFree h4' hwf hil (by rw [r.cnt]) (Nat.le_refl _) hel hfit g1
          simp only [g1, k1, Option.bind_some, offTomb_eq k2.base h4', offTomb_eq k2.baseB h4', loadVal_word k2.base (show 2 < 4 + s.length by omega),
            loadVal_word k2.baseB (show 2 < 4 + s.length by omega), k2.word (show 2 < 4 + s.length by omega),
            storeVal_word k2.base (show 2 < 4 + s.length by omega), storeVal_word k2.baseB (show 2 < 4 + s.length by omega)] at h1 ⊢
          cases hz : sub32 (TS.word ps h p 2) 1 with
          | none => rw [hz] at h1; cases h1
          | some z =>
            rw [hz] at h1
            cases h1
            refine ⟨_, _, rfl, k2.setWord 2 z, ?_⟩
            refine h2.eofs_ge (by omega) (fun j x hj => ?_)
            have hjl := (List.getElem?_eq_some_iff.mp hj).1
            simp only [List.length_set] at hjl
            by_cases hji : j = i
            · subst hji; rw [word_setWord_ne _ (by omega), g5]; exact Nat.le_refl _
            · rw [h4 j hji hjl]
              rw [List.getElem?_set_ne (by omega)] at hj
              have := (r.live hj).1
              omega
      | some v =>
        rw [hx] at hs
        have h0 := r.off_pos hs
        have hlv := r.live hs
        rw [if_neg (by omega)] at h1 ⊢
        obtain ⟨p, g1, g2, g3, -, g5, g6, g7⟩ := r.updateDiscard r.tight hs
        obtain ⟨q, k1, k2⟩ := w.updDisc h4' hil (by rw [r.cnt]; omega) hlv.1 g1
        have hpl : 4 + TS.word ps h p 1 = 4 + s.length := by rw [g2.cnt]; simp
        cases ext with
        | none =>
          simp only [g1, k1, Option.bind_some, offTomb_eq k2.base h4', offTomb_eq k2.baseB h4', loadVal_word k2.base (show 2 < 4 + s.length by omega),
            loadVal_word k2.baseB (show 2 < 4 + s.length by omega), k2.word (show 2 < 4 + s.length by omega),
            storeVal_word k2.base (show 2 < 4 + s.length by omega), storeVal_word k2.baseB (show 2 < 4 + s.length by omega)] at h1 ⊢
          cases hz : u32 (TS.word ps h p 2 + 1) with
          | none => rw [hz] at h1; cases h1
          | some z =>
            rw [hz] at h1
            cases h1
            refine ⟨_, _, rfl, k2.setWord 2 z, ?_⟩
            rw [eofs_setWord_ne _ (by omega)]; exact g5
        | some u =>
          have hwf := hw u rfl
          simp only [tupleSize_at hlv.2.2.2.1 hlv.2.2.1, w.drop hlv.1, Option.bind_some, hwf.size, g1, k1, endFree_eq r.base h4',
            endFree_eq r2.base h4', w.eofs h4'] at h1 ⊢
          have hlow : ∀ x, x ≤ Slotted.eofs ps h a → x ≤ TS.word ps h a' (4 + i) → x ≤ Slotted.eofs ps h a' := by
            intro x hx1 hx2
            refine h2.eofs_ge (by omega) (fun j y hj => ?_)
            have hjl := (List.getElem?_eq_some_iff.mp hj).1
            simp only [List.length_set] at hjl
            by_cases hji : j = i
            · rw [hji]; exact hx2
            · rw [h4 j hji hjl]
              rw [List.getElem?_set_ne (by omega)] at hj
              have := (r.live hj).1
              omega
          have hlow2 : ∀ x, x ≤ Slotted.eofs ps h p → x ≤ TS.word ps h a' (4 + i) → x ≤ Slotted.eofs ps h a' := by
            intro x hx1 hx2
            have hpe := g2.eofs_le
            refine h2.eofs_ge (by omega) (fun j y hj => ?_)
            have hjl := (List.getElem?_eq_some_iff.mp hj).1
            simp only [List.length_set] at hjl
            by_cases hji : j = i
            · rw [hji]; exact hx2
            · rw [h4 j hji hjl, ← g7 j hji hjl]
              rw [List.getElem?_set_ne (by omega)] at hj
              have := (g2.live (show (s.set i none)[j]? = some (some y) by rw [List.getElem?_set_ne (by omega)]; exact hj)).1
              omega
          by_cases hF : TS.word ps h a (4 + i) = Slotted.eofs ps h a ∨ v.length < u.length
          · have hsi : (s.set i none)[i]? = some none := by simp [hi]
            have hfit : wAddr ps h (4 + s.length) + u.length ≤ Slotted.eofs ps h p := by
              by_cases heq : TS.word ps h a (4 + i) = Slotted.eofs ps h a
              · have hgp : Slotted.eofs ps h a + v.length ≤ Slotted.eofs ps h p := by
                  rcases g3 with g3 | ⟨j, y, hj, hje⟩
                  · rw [g3]; omega
                  · have hjl : j < s.length := by
                      have := (List.getElem?_eq_some_iff.mp hj).1
                      simpa using this
                    have hji : j ≠ i := by
                      rintro rfl
                      rw [hsi] at hj; simp at hj
                    rw [List.getElem?_set_ne (by omega)] at hj
                    rw [← hje, g7 j hji hjl]
                    have hd := r.lay.disj i j v y (by omega) hs hj
                    have hv := (r.live hj)
                    have hvp := WellFormed.pos r.var hv.2.2.2.1
                    omega
                simp [UpdRoom, hs, heq, Slotted.free] at hc
                omega
              · rw [g6 heq]
                simp [UpdRoom, hs, heq, Slotted.free] at hc
                omega
            have hdec : decide (TS.word ps h a (4 + i) = Slotted.eofs ps h a ∨ v.length < u.length) = true := decide_eq_true hF
            simp only [hdec] at h1 ⊢
            obtain ⟨p2, m1, -, -, -, m5, -⟩ := g2.placeFree hsi hwf (by simpa using hfit) (TS.word ps h a (4 + i))
            obtain ⟨q2, n1, n2⟩ := k2.updFree h4' hwf hil hpl g5 g2.eofs_le hfit m1
            rw [m1] at h1
            rw [n1]
            cases h1
            exact ⟨_, _, rfl, n2, hlow2 _ (by omega) (by rw [m5]; exact Nat.le_refl _)⟩
          · have hdec : decide (TS.word ps h a (4 + i) = Slotted.eofs ps h a ∨ v.length < u.length) = false := decide_eq_false hF
            simp only [hdec] at h1 ⊢
            cases hz : updatePlace p ps d (wAddr ps h (4 + i)) (TS.word ps h a (4 + i)) false u with
            | none => rw [hz] at h1; cases h1
            | some p2 =>
              obtain ⟨q2, n1, n2⟩ := k2.updSame hwf hil hlv.1 hz
              rw [hz] at h1
              rw [n1]
              cases h1
              exact ⟨_, _, rfl, n2, hlow _ (Nat.le_refl _) (by rw [h5 v u hs rfl (by omega) (by omega)]; exact hlv.1)⟩
    obtain ⟨b', x, k1, k2, k3⟩ := key
    exact ⟨a', b', h1, k1, h2, k2.mono (by simp) k3⟩
  · right
    exact ⟨a, b, (r.update_at hw).2 hc, (r2.update_at hw).2 (fun hh => hc (hroom.mp hh)), r, w⟩

end Slotted
end TS
