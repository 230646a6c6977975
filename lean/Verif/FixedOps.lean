import Verif.FixedRep
/-
Every fixed array page operation preserves the representation and acts on the logical page as
the specification says.
-/
namespace TS
namespace Fixed

open Slotted (load_all)

variable {ps h : Nat} {d : SizeDef} {pg : Bytes} {s : Slots}

/-- Computes words, bits, slots and header bytes of a page after metadata, bit and slot writes. -/
macro "fsimp" : tactic => `(tactic|
  simp (disch := omega) only [word_setWord_ne, word_withBit, word_wrSlot, bit_setWord,
    slot_setWord, slot_withBit, bit_wrSlot, hdrBytes_setWord, hdr_withBit, hdr_wrSlot])

theorem ext_length (hv : d.isVar = false) {t : Bytes} (hw : ExtOk d (some t)) :
    t.length = d.size := by
  have := (hw t rfl).size
  simp [tupleSize, hv] at this
  exact this.symm

theorem Rep.canAppend (r : Rep ps h d pg s) :
    Fixed.canAppend pg ps d = some (decide (s.length < cap ps h d)) := by
  simp only [Fixed.canAppend, r.tupleCount, capacity_eq r.base r.pos, Option.bind_eq_bind,
    Option.bind_some, Option.pure_def]

theorem Rep.pow_facts (r : Rep ps h d pg s) :
    cap ps h d < 256 ^ vsz ps ∧ cap ps h d < 4294967296 ∧ tombs s ≤ s.length := by
  have h1 := cap_lt r.base.lt r.base.fits r.pos
  have h2 := le_pow_vsz r.base.lt
  have h3 := r.base.lt
  exact ⟨by omega, by omega, Slotted.tombs_le s⟩

/-- `append_tuple_fixed_array_page`. -/
theorem Rep.append (r : Rep ps h d pg s) {ext : Option Bytes} (hw : ExtOk d ext) :
    (s.length < cap ps h d →
      ∃ pg', Fixed.append pg ps d ext = some (pg', true) ∧ Rep ps h d pg' (s ++ [ext]) ∧
        hdrBytes ps h pg' = hdrBytes ps h pg) ∧
    (¬ s.length < cap ps h d → Fixed.append pg ps d ext = some (pg, false)) := by
  refine ⟨fun hc => ?_, fun hn => by simp [Fixed.append, r.canAppend, hn]⟩
  obtain ⟨p1, p2, p3⟩ := r.pow_facts
  have b0 := r.base
  have b1 := b0.setWord 0 (s.length + 1)
  have hlt : ∀ i, i < s.length → i < cap ps h d := fun i hi => by omega
  simp only [Fixed.append, r.canAppend, Option.bind_eq_bind, Option.bind_some]
  rw [decide_eq_true hc]
  simp only [Bool.not_true, Bool.false_eq_true, if_false, offCount_eq b0,
    Option.bind_some, loadVal_word b0 (show 0 < 2 by omega), r.cnt,
    u32_eq (show s.length + 1 < 4294967296 by omega), Nat.add_sub_cancel,
    storeVal_word b0 (show 0 < 2 by omega)]
  have hbl := Base.bit_lt b1 hc
  cases ext with
  | none =>
    have b2 := Base.withBit b1 s.length false
    simp only [offBits_eq b1, resetBit_eq hbl, Option.bind_some, offTomb_eq b2,
      loadVal_word b2 (show 1 < 2 by omega), storeVal_word b2 (show 1 < 2 by omega)]
    fsimp
    rw [r.tomb]
    simp only [u32_eq (show tombs s + 1 < 4294967296 by omega), Option.bind_some, Option.pure_def]
    have b3 := b2.setWord 1 (tombs s + 1)
    refine ⟨_, rfl, ⟨r.fixed, r.pos, b3, ?_, ?_, by simp; omega, ?_, ?_⟩, by fsimp⟩
    · fsimp
      rw [word_setWord_eq b0 (by omega) (by omega)]; simp
    · rw [word_setWord_eq b2 (by omega) (by omega)]; simp
    · intro i x hi
      fsimp
      rw [bit_withBit hbl]
      by_cases hil : i = s.length
      · subst hil; simp at hi; subst hi; simp
      · have hi' : i < (s ++ [none]).length := (List.getElem?_eq_some_iff.mp hi).1
        simp at hi'
        rw [List.getElem?_append_left (by omega)] at hi
        rw [if_neg hil]
        fsimp
        exact r.bits i x hi
    · intro i t hi
      have hi' : i < s.length := by
        rcases Nat.lt_or_ge i s.length with h1 | h1
        · exact h1
        · rw [List.getElem?_append_right h1] at hi
          rcases hk : i - s.length with _ | k <;> simp [hk] at hi
      rw [List.getElem?_append_left hi'] at hi
      fsimp
      exact r.data i t hi
  | some t =>
    have htl := ext_length r.fixed hw
    have b2 := Base.withBit b1 s.length true
    have hsl := Base.slot_le b2 hc
    have hsl' := hsl
    rw [← htl] at hsl'
    have hload : load t 0 d.size = some t := by rw [← htl]; exact load_all t
    simp only [offBits_eq b1, setBit_eq hbl, Option.bind_some, offIth_eq b2 r.pos (Nat.le_of_lt hc),
      hload, store_eq hsl', Option.pure_def]
    have b3 := Base.wrSlot (d := d) b2 s.length t
    refine ⟨_, rfl, ⟨r.fixed, r.pos, b3, ?_, ?_, by simp; omega, ?_, ?_⟩, by fsimp⟩
    · fsimp
      rw [word_setWord_eq b0 (by omega) (by omega)]; simp
    · fsimp
      rw [r.tomb]; simp
    · intro i x hi
      have hi' : i < (s ++ [some t]).length := (List.getElem?_eq_some_iff.mp hi).1
      simp at hi'
      fsimp
      rw [bit_withBit hbl]
      by_cases hil : i = s.length
      · subst hil; simp at hi; subst hi; simp
      · rw [List.getElem?_append_left (by omega)] at hi
        rw [if_neg hil]
        fsimp
        exact r.bits i x hi
    · intro i u hi
      rw [slot_wrSlot b2 hc htl]
      by_cases hil : i = s.length
      · subst hil; simp at hi; subst hi; simp [htl]
      · have hi' : i < (s ++ [some t]).length := (List.getElem?_eq_some_iff.mp hi).1
        simp at hi'
        rw [List.getElem?_append_left (by omega)] at hi
        rw [if_neg hil]
        fsimp
        exact r.data i u hi

theorem Rep.canUpdate (r : Rep ps h d pg s) (i : Nat) :
    Fixed.canUpdate pg ps i = some (decide (i < s.length)) := by
  simp only [Fixed.canUpdate, r.tupleCount, Option.bind_eq_bind, Option.bind_some, Option.pure_def]

theorem Rep.updateDiscard (r : Rep ps h d pg s) {i : Nat} (hi : i < s.length) :
    ∃ pg', Fixed.updateDiscard pg ps i = some pg' ∧ Rep ps h d pg' (s.set i none) ∧
      hdrBytes ps h pg' = hdrBytes ps h pg := by
  obtain ⟨p1, p2, p3⟩ := r.pow_facts
  have hle := r.le
  have b0 := r.base
  have hs : s[i]? = some s[i] := List.getElem?_eq_getElem hi
  simp only [Fixed.updateDiscard, offBits_eq b0, Option.bind_eq_bind, Option.bind_some, r.getBit hs]
  cases hx : s[i] with
  | none =>
    rw [hx] at hs
    simp only [Option.isSome_none, Bool.false_eq_true, if_false]
    refine ⟨pg, rfl, ?_, rfl⟩
    have : s.set i none = s := by
      apply List.ext_getElem?
      intro k
      rw [List.getElem?_set]
      split
      · rename_i hij; rw [← hij, hs]
      · rfl
    rw [this]; exact r
  | some t =>
    rw [hx] at hs
    have hic : i < cap ps h d := by omega
    have hbl := Base.bit_lt b0 hic
    have b1 := Base.withBit b0 i false
    have ht := Slotted.tombs_set_none s i t hs
    have htle := Slotted.tombs_le (s.set i none)
    simp only [List.length_set] at htle
    simp only [Option.isSome_some, if_true, resetBit_eq hbl, Option.bind_some, offTomb_eq b1,
      loadVal_word b1 (show 1 < 2 by omega), storeVal_word b1 (show 1 < 2 by omega)]
    fsimp
    rw [r.tomb, u32_eq (show tombs s + 1 < 4294967296 by omega)]
    simp only [Option.bind_some]
    have b2 := b1.setWord 1 (tombs s + 1)
    refine ⟨_, rfl, ⟨r.fixed, r.pos, b2, ?_, ?_, by simpa using hle, ?_, ?_⟩, by fsimp⟩
    · fsimp
      rw [r.cnt]; simp
    · rw [word_setWord_eq b1 (by omega) (by omega)]; omega
    · intro j x hj
      fsimp
      rw [bit_withBit hbl]
      rw [List.getElem?_set] at hj
      by_cases hji : j = i
      · rw [if_pos hji.symm, if_pos hi] at hj
        simp at hj; subst hj; simp [hji]
      · rw [if_neg (Ne.symm hji)] at hj
        rw [if_neg hji]; exact r.bits j x hj
    · intro j u hj
      fsimp
      rw [List.getElem?_set] at hj
      by_cases hji : j = i
      · rw [if_pos hji.symm, if_pos hi] at hj
        simp at hj
      · rw [if_neg (Ne.symm hji)] at hj
        exact r.data j u hj

theorem Rep.updatePlace (r : Rep ps h d pg s) {i : Nat} (hs : s[i]? = some none) {t : Bytes}
    (hw : ExtOk d (some t)) :
    ∃ pg', Fixed.updatePlace pg ps d i t = some pg' ∧ Rep ps h d pg' (s.set i (some t)) ∧
      hdrBytes ps h pg' = hdrBytes ps h pg := by
  obtain ⟨p1, p2, p3⟩ := r.pow_facts
  have hi := (List.getElem?_eq_some_iff.mp hs).1
  have hle := r.le
  have b0 := r.base
  have hic : i < cap ps h d := by omega
  have hbl := Base.bit_lt b0 hic
  have htl := ext_length r.fixed hw
  have b1 := Base.withBit b0 i true
  have b2 := b1.setWord 1 (tombs s - 1)
  have htp := Slotted.tombs_pos s i hs
  have hts := Slotted.tombs_set_some s i t hs
  have hsl := Base.slot_le b2 hic
  rw [← htl] at hsl
  have hload : load t 0 d.size = some t := by rw [← htl]; exact load_all t
  simp only [Fixed.updatePlace, offBits_eq b0, setBit_eq hbl, Option.bind_eq_bind,
    Option.bind_some, offTomb_eq b1,
    loadVal_word b1 (show 1 < 2 by omega), storeVal_word b1 (show 1 < 2 by omega)]
  fsimp
  rw [r.tomb, sub32_eq (show 1 ≤ tombs s by omega)]
  simp only [Option.bind_some, offIth_eq b2 r.pos (Nat.le_of_lt hic), hload, store_eq hsl]
  have b3 := Base.wrSlot (d := d) b2 i t
  refine ⟨_, rfl, ⟨r.fixed, r.pos, b3, ?_, ?_, by simpa using hle, ?_, ?_⟩, by fsimp⟩
  · fsimp
    rw [r.cnt]; simp
  · fsimp
    rw [word_setWord_eq b1 (by omega) (by omega)]; omega
  · intro j x hj
    have hjl := (List.getElem?_eq_some_iff.mp hj).1
    simp only [List.length_set] at hjl
    fsimp
    rw [bit_withBit hbl]
    rw [List.getElem?_set] at hj
    by_cases hji : j = i
    · rw [if_pos hji.symm, if_pos hi] at hj
      simp at hj; subst hj; simp [hji]
    · rw [if_neg (Ne.symm hji)] at hj
      rw [if_neg hji]; exact r.bits j x hj
  · intro j u hj
    rw [slot_wrSlot b2 hic htl]
    rw [List.getElem?_set] at hj
    by_cases hji : j = i
    · rw [if_pos hji.symm, if_pos hi] at hj
      simp at hj; subst hj; simp [hji, htl]
    · rw [if_neg (Ne.symm hji)] at hj
      rw [if_neg hji]
      fsimp
      exact r.data j u hj

/-- `update_tuple_fixed_array_page`. -/
theorem Rep.update (r : Rep ps h d pg s) {i : Nat} {ext : Option Bytes} (hw : ExtOk d ext) :
    (i < s.length →
      ∃ pg', Fixed.update pg ps d i ext = some (pg', true) ∧ Rep ps h d pg' (s.set i ext) ∧
        hdrBytes ps h pg' = hdrBytes ps h pg) ∧
    (¬ i < s.length → Fixed.update pg ps d i ext = some (pg, false)) := by
  refine ⟨fun hi => ?_, fun hn => by simp [Fixed.update, r.canUpdate, hn]⟩
  obtain ⟨pg1, h1, h2, h3⟩ := r.updateDiscard hi
  simp only [Fixed.update, r.canUpdate, Option.bind_eq_bind, Option.bind_some]
  rw [decide_eq_true hi]
  simp only [Bool.not_true, Bool.false_eq_true, if_false, h1, Option.bind_some]
  cases ext with
  | none => exact ⟨pg1, rfl, h2, h3⟩
  | some t =>
    obtain ⟨pg2, g1, g2, g3⟩ := h2.updatePlace (i := i) (t := t) (by simp [hi]) hw
    refine ⟨pg2, by simp [g1], by simpa using g2, by rw [g3, h3]⟩

/-! ### Insert -/

theorem rotBitsLoop_spec {o idx : Nat} : ∀ (k : Nat) (pg : Bytes),
    o + (idx + k) / 8 < pg.length →
    ∃ pg', rotBitsLoop o idx k pg = some pg' ∧ pg'.length = pg.length ∧
      (∀ j, bit pg' o j = if idx < j ∧ j ≤ idx + k then bit pg o (j - 1) else bit pg o j) ∧
      (∀ a l, a + l ≤ o ∨ o + (idx + k) / 8 + 1 ≤ a → rd pg' a l = rd pg a l) := by
  intro k
  induction k with
  | zero =>
    intro pg _
    refine ⟨pg, rfl, rfl, ?_, fun _ _ _ => rfl⟩
    intro j
    rw [if_neg (by omega)]
  | succ k ih =>
    intro pg hl
    have hl1 : o + (idx + k + 1 - 1) / 8 < pg.length := by omega
    have hl2 : o + (idx + k + 1) / 8 < pg.length := by
      rw [show idx + k + 1 = idx + (k + 1) by omega]; exact hl
    obtain ⟨pg', g1, g2, g3, g4⟩ := ih (withBit pg o (idx + k + 1) (bit pg o (idx + k + 1 - 1)))
      (by simp; omega)
    refine ⟨pg', ?_, by simpa using g2, ?_, ?_⟩
    · simp only [rotBitsLoop, getBit_eq hl1, putBit_eq hl2, Option.bind_eq_bind, Option.bind_some, g1]
    · intro j
      rw [g3]
      by_cases hj : idx < j ∧ j ≤ idx + k
      · rw [if_pos hj, if_pos (by omega), bit_withBit hl2, if_neg (by omega)]
      · rw [if_neg hj, bit_withBit hl2]
        by_cases hj2 : j = idx + k + 1
        · rw [if_pos hj2, if_pos (by omega), hj2]
        · rw [if_neg hj2, if_neg (by omega)]
    · intro a l hd
      rw [g4 a l (by omega), rd_withBit]
      omega

/-- Everything about the page follows from its header size, its counters, its bits and its
slots. -/
theorem Rep.mk' (hv : d.isVar = false) (hpos : 1 ≤ d.size) (b : Base ps h 2 pg)
    (hc : word ps h pg 0 = s.length) (ht : word ps h pg 1 = tombs s)
    (hle : s.length ≤ cap ps h d)
    (hd : ∀ i x, s[i]? = some x → bit pg (wAddr ps h 2) i = x.isSome ∧
      ∀ t, x = some t → t.length = d.size ∧ slot ps h d pg i = t) : Rep ps h d pg s :=
  ⟨hv, hpos, b, hc, ht, hle, fun i x hx => (hd i x hx).1, fun i t hx => (hd i _ hx).2 t rfl⟩

theorem Rep.at (r : Rep ps h d pg s) {i : Nat} {x : Option Bytes} (hi : s[i]? = some x) :
    bit pg (wAddr ps h 2) i = x.isSome ∧
      ∀ t, x = some t → t.length = d.size ∧ slot ps h d pg i = t :=
  ⟨r.bits i x hi, fun t ht => r.data i t (by rw [hi, ht])⟩

/-- Pages that agree outside of the bitmap and slots have the same header and counters. -/
theorem Base.of_rd {pg' : Bytes} (b : Base ps h 2 pg) (hl : pg'.length = pg.length)
    (hr : ∀ a l, a + l ≤ wAddr ps h 2 → rd pg' a l = rd pg a l) :
    Base ps h 2 pg' ∧ hdrBytes ps h pg' = hdrBytes ps h pg ∧
      ∀ k, k < 2 → word ps h pg' k = word ps h pg k := by
  have h2 := wAddr_ge ps h 2
  refine ⟨⟨by rw [hl, b.len], ?_, b.lt, b.fits⟩, hr _ _ (by omega), ?_⟩
  · rw [hr _ _ (by omega)]; exact b.hdr
  · intro k hk
    unfold word
    have := wAddr_mono ps h (show k + 1 ≤ 2 from hk)
    rw [wAddr_succ] at this
    rw [hr _ _ this]

/-- `insert_tuple_fixed_array_page`. -/
theorem Rep.insert (r : Rep ps h d pg s) {i : Nat} {ext : Option Bytes} (hw : ExtOk d ext) :
    (i ≤ s.length ∧ s.length < cap ps h d →
      ∃ pg', Fixed.insert pg ps d i ext = some (pg', true) ∧
        Rep ps h d pg' (s.take i ++ ext :: s.drop i) ∧
        hdrBytes ps h pg' = hdrBytes ps h pg) ∧
    (¬ (i ≤ s.length ∧ s.length < cap ps h d) →
      Fixed.insert pg ps d i ext = some (pg, false)) := by
  simp only [Fixed.insert, r.tupleCount, Option.bind_eq_bind, Option.bind_some]
  refine ⟨fun ⟨hi, hf⟩ => ?_, fun hn => ?_⟩
  · rw [if_neg (by omega)]
    obtain ⟨pg1, h1, r1, h3⟩ := (r.append hw).1 hf
    have b1 := r1.base
    simp only [h1, Option.bind_some, Bool.not_true, Bool.false_eq_true, if_false, r1.tupleCount,
      List.length_append, List.length_singleton, sub32_eq (show 1 ≤ s.length + 1 by omega),
      Nat.add_sub_cancel]
    by_cases hil : i = s.length
    · subst hil
      rw [if_pos rfl]
      exact ⟨pg1, rfl, by simpa using r1, h3⟩
    · rw [if_neg hil]
      have hbl : ∀ k, k ≤ s.length → wAddr ps h 2 + k / 8 < pg1.length :=
        fun k hk => Base.bit_lt (d := d) b1 (by omega)
      simp only [offBits_eq b1, Option.bind_some, getBit_eq (hbl s.length (Nat.le_refl _))]
      obtain ⟨pg2, g1, g2, g3, g4⟩ := rotBitsLoop_spec (o := wAddr ps h 2) (idx := i)
        (s.length - i) pg1 (hbl _ (by omega))
      have hbi := bit_in (ps := ps) (h := h) (d := d) (i := s.length) (by omega)
      obtain ⟨b2, hh2, hw2⟩ := Base.of_rd b1 g2 (fun a l ha => g4 a l (.inl ha))
      have hbl2 : wAddr ps h 2 + i / 8 < pg2.length := by
        rw [g2]; exact hbl i (by omega)
      have b3 := Base.withBit b2 i (bit pg1 (wAddr ps h 2) s.length)
      simp only [g1, Option.bind_some, putBit_eq hbl2, sub32_eq (show i ≤ s.length + 1 by omega)]
      have hcap := tAddr_cap (d := d) r.base.fits
      have hm : tAddr ps h d (i + (s.length + 1 - i)) ≤ tAddr ps h d (cap ps h d) :=
        tAddr_mono (by omega)
      rw [tAddr_add] at hm
      have hlt := r.base.lt
      have hge1 : 1 * d.size ≤ (s.length + 1 - i) * d.size := Nat.mul_le_mul_right _ (by omega)
      obtain ⟨pg3, k1, k2, k3⟩ := rotRight_spec
        (m := withBit pg2 (wAddr ps h 2) i (bit pg1 (wAddr ps h 2) s.length))
        (off := tAddr ps h d i) (len := (s.length + 1 - i) * d.size) (rot := d.size)
        (by rw [b3.len]; omega) (by omega)
      simp only [u32_eq (show (s.length + 1 - i) * d.size < 4294967296 by omega), Option.bind_some,
        offIth_eq b3 r.pos (show i ≤ cap ps h d by omega), k1, Option.pure_def]
      have hbt := bits_le_tAddr (ps := ps) (h := h) (d := d) i
      obtain ⟨b4, hh4, hw4⟩ := Base.of_rd b3 k2 (fun a l ha => by
        apply rd_ext
        intro j hj
        rw [k3, if_neg (by omega)])
      -- bits
      have hbits : ∀ j, j < cap ps h d → bit pg3 (wAddr ps h 2) j =
          if j = i then bit pg1 (wAddr ps h 2) s.length else
            if i < j ∧ j ≤ s.length then bit pg1 (wAddr ps h 2) (j - 1)
            else bit pg1 (wAddr ps h 2) j := by
        intro j hj
        have hb1 : bit pg3 (wAddr ps h 2) j =
            bit (withBit pg2 (wAddr ps h 2) i (bit pg1 (wAddr ps h 2) s.length)) (wAddr ps h 2) j := by
          unfold bit
          have := bit_in hj
          have := tAddr_mono (ps := ps) (h := h) (d := d) (Nat.zero_le i)
          rw [k3, if_neg (by omega)]
          rfl
        rw [hb1, bit_withBit hbl2, g3]
        congr 1
        by_cases hc : i < j ∧ j ≤ s.length
        · rw [if_pos (by omega), if_pos hc]
        · rw [if_neg (by omega), if_neg hc]
      have hslot2 : ∀ j, slot ps h d (withBit pg2 (wAddr ps h 2) i
          (bit pg1 (wAddr ps h 2) s.length)) j = slot ps h d pg1 j := by
        intro j
        rw [slot_withBit _ (by omega)]
        apply g4
        right
        have := tAddr_mono (ps := ps) (h := h) (d := d) (Nat.zero_le j)
        have := bit_in (ps := ps) (h := h) (d := d) (i := s.length) hf
        rw [show i + (s.length - i) = s.length by omega]
        omega
      have hslot : ∀ j, j ≤ s.length → slot ps h d pg3 j =
          if j = i then slot ps h d pg1 s.length else
            if i < j then slot ps h d pg1 (j - 1) else slot ps h d pg1 j := by
        intro j hj
        by_cases hji : j = i
        · subst hji
          rw [if_pos rfl, ← hslot2]
          apply rd_ext
          intro k hk
          rw [k3, if_pos (by omega), if_pos (by omega)]
          congr 1
          have e : tAddr ps h d s.length = tAddr ps h d j + (s.length - j) * d.size := by
            rw [← tAddr_add]; congr 1; omega
          rw [e, show s.length + 1 - j = (s.length - j) + 1 by omega, Nat.succ_mul]
          omega
        · rw [if_neg hji]
          by_cases hlt2 : i < j
          · rw [if_pos hlt2, ← hslot2]
            apply rd_ext
            intro k hk
            have e1 := tAddr_succ (ps := ps) (h := h) (d := d) (j - 1)
            rw [show j - 1 + 1 = j by omega] at e1
            have e2 := tAddr_mono (ps := ps) (h := h) (d := d) (show i ≤ j - 1 by omega)
            have e3 : tAddr ps h d (j + 1) ≤ tAddr ps h d (i + (s.length + 1 - i)) :=
              tAddr_mono (by omega)
            rw [tAddr_succ, tAddr_add] at e3
            rw [k3, if_pos (by omega), if_neg (by omega)]
            congr 1
            omega
          · rw [if_neg hlt2, ← hslot2]
            apply rd_ext
            intro k hk
            have e3 : tAddr ps h d (j + 1) ≤ tAddr ps h d i := tAddr_mono (by omega)
            rw [tAddr_succ] at e3
            rw [k3, if_neg (by omega)]
      have hlen' : (s.take i ++ ext :: s.drop i).length = s.length + 1 := by simp; omega
      refine ⟨pg3, rfl, Rep.mk' r.fixed r.pos b4 ?_ ?_ (by omega) ?_, ?_⟩
      · rw [hw4 0 (by omega), word_withBit _ (by omega), hw2 0 (by omega), r1.cnt, hlen']; simp
      · rw [hw4 1 (by omega), word_withBit _ (by omega), hw2 1 (by omega), r1.tomb,
          Slotted.tombs_perm (Slotted.insertPerm s i ext)]
      · intro j x hj
        have hjl := (List.getElem?_eq_some_iff.mp hj).1
        rw [hlen'] at hjl
        rw [hbits j (by omega), hslot j (by omega)]
        have htl : (s.take i).length = i := by simp; omega
        by_cases hji : j = i
        · rw [if_pos hji, if_pos hji]
          apply r1.at
          rw [List.getElem?_append_right (by omega)] at hj
          simp [htl, hji] at hj
          simp [hj]
        · rw [if_neg hji, if_neg hji]
          by_cases hlt2 : i < j
          · rw [if_pos (by omega), if_pos hlt2]
            apply r1.at
            rw [List.getElem?_append_right (by omega), htl,
              show j - i = (j - i - 1) + 1 by omega, List.getElem?_cons_succ,
              List.getElem?_drop] at hj
            rw [List.getElem?_append_left (by omega), ← hj]
            congr 1; omega
          · rw [if_neg (by omega), if_neg hlt2]
            apply r1.at
            rw [List.getElem?_append_left (by omega), List.getElem?_take, if_pos (by omega)] at hj
            rw [List.getElem?_append_left (by omega), hj]
      · rw [hh4, hdr_withBit, hh2, h3]
  · split
    · rfl
    · simp [(r.append hw).2 (show ¬ s.length < cap ps h d by omega)]

/-! ### Discard -/

theorem discardLoop_spec (hpos : 1 ≤ d.size) : ∀ (k i : Nat) (pg : Bytes), Base ps h 2 pg →
    1 ≤ i → i + k ≤ cap ps h d →
    ∃ pg', discardLoop ps d (wAddr ps h 2) k i pg = some pg' ∧ Base ps h 2 pg' ∧
      hdrBytes ps h pg' = hdrBytes ps h pg ∧
      (∀ w, w < 2 → word ps h pg' w = word ps h pg w) ∧
      (∀ j, j < cap ps h d → bit pg' (wAddr ps h 2) j =
        if i ≤ j + 1 ∧ j + 1 < i + k then bit pg (wAddr ps h 2) (j + 1)
        else bit pg (wAddr ps h 2) j) ∧
      (∀ j, j < cap ps h d → i ≤ j + 1 ∧ j + 1 < i + k → bit pg (wAddr ps h 2) (j + 1) = true →
        slot ps h d pg' j = slot ps h d pg (j + 1)) ∧
      (∀ j, j + 1 < i ∨ i + k ≤ j + 1 → slot ps h d pg' j = slot ps h d pg j) := by
  intro k
  induction k with
  | zero =>
    intro i pg b _ _
    refine ⟨pg, rfl, b, rfl, fun _ _ => rfl, ?_, ?_, fun _ _ => rfl⟩
    · intro j _; rw [if_neg (by omega)]
    · intro j _ hj; omega
  | succ k ih =>
    intro i pg b hi1 hik
    have hbl : wAddr ps h 2 + i / 8 < pg.length := Base.bit_lt (d := d) b (by omega)
    have hbl' : wAddr ps h 2 + (i - 1) / 8 < pg.length := Base.bit_lt (d := d) b (by omega)
    have hic : i < cap ps h d := by omega
    have hic' : i - 1 < cap ps h d := by omega
    simp only [discardLoop, getBit_eq hbl, Option.bind_eq_bind, Option.bind_some]
    have hstep : ∃ p1, (if bit pg (wAddr ps h 2) i then
          (setBit pg (wAddr ps h 2) (i - 1)).bind fun pg =>
            (offIth pg ps d (i - 1)).bind fun a => (offIth pg ps d i).bind fun c =>
              moveIn pg a c d.size
          else resetBit pg (wAddr ps h 2) (i - 1) : Option Bytes) = some p1 ∧ Base ps h 2 p1 ∧
        hdrBytes ps h p1 = hdrBytes ps h pg ∧
        (∀ w, w < 2 → word ps h p1 w = word ps h pg w) ∧
        (∀ j, j < cap ps h d → bit p1 (wAddr ps h 2) j =
          if j = i - 1 then bit pg (wAddr ps h 2) i else bit pg (wAddr ps h 2) j) ∧
        (bit pg (wAddr ps h 2) i = true → slot ps h d p1 (i - 1) = slot ps h d pg i) ∧
        (∀ j, j ≠ i - 1 → slot ps h d p1 j = slot ps h d pg j) := by
      cases hv : bit pg (wAddr ps h 2) i with
      | false =>
        simp only [Bool.false_eq_true, if_false, resetBit_eq hbl']
        refine ⟨_, rfl, Base.withBit b _ _, hdr_withBit _ _ _, ?_, ?_, by simp, ?_⟩
        · intro w hw; rw [word_withBit _ hw]
        · intro j hj; rw [bit_withBit hbl']
        · intro j _; rw [slot_withBit _ hic']
      | true =>
        have b1 := Base.withBit b (i - 1) true
        have hm := moveIn_spec (m := withBit pg (wAddr ps h 2) (i - 1) true)
          (dst := tAddr ps h d (i - 1)) (src := tAddr ps h d i) (len := d.size)
          (Base.slot_le b1 hic) (Base.slot_le b1 hic')
        have hrl := rd_length _ _ _ (Base.slot_le b1 hic)
        simp only [if_true, setBit_eq hbl', Option.bind_some,
          offIth_eq b1 hpos (Nat.le_of_lt hic), offIth_eq b1 hpos (Nat.le_of_lt hic'), hm]
        refine ⟨_, rfl, Base.wrSlot b1 _ _, ?_, ?_, ?_, ?_, ?_⟩
        · rw [hdr_wrSlot, hdr_withBit]
        · intro w hw; rw [word_wrSlot _ hw, word_withBit _ hw]
        · intro j hj; rw [bit_wrSlot _ _ _ hj, bit_withBit hbl']
        · intro _
          rw [slot_wrSlot b1 hic' hrl, if_pos rfl]
          exact slot_withBit _ hic' _ _
        · intro j hj
          rw [slot_wrSlot b1 hic' hrl, if_neg hj, slot_withBit _ hic']
    obtain ⟨p1, e1, b1, e2, e3, e4, e5, e6⟩ := hstep
    rw [e1]
    obtain ⟨pg', g1, g2, g3, g4, g5, g6, g7⟩ := ih (i + 1) p1 b1 (by omega) (by omega)
    refine ⟨pg', by simpa using g1, g2, by rw [g3, e2], ?_, ?_, ?_, ?_⟩
    · intro w hw; rw [g4 w hw, e3 w hw]
    · intro j hj
      rw [g5 j hj]
      by_cases h1 : i + 1 ≤ j + 1 ∧ j + 1 < i + 1 + k
      · rw [if_pos h1, if_pos (by omega), e4 _ (by omega), if_neg (by omega)]
      · rw [if_neg h1, e4 _ hj]
        by_cases h2 : j = i - 1
        · rw [if_pos h2, if_pos (by omega), h2]; congr 1; omega
        · rw [if_neg h2, if_neg (by omega)]
    · intro j hj hr hbit
      by_cases h2 : j = i - 1
      · rw [g7 j (by omega)]
        subst h2
        rw [show i - 1 + 1 = i by omega] at hbit ⊢
        exact e5 hbit
      · rw [g6 j hj (by omega) (by rw [e4 _ (by omega), if_neg (by omega)]; exact hbit),
          e6 _ (by omega)]
    · intro j hj
      rw [g7 j (by omega), e6 j (by omega)]

/-- `discard_tuple_fixed_array_page`. -/
theorem Rep.discard (r : Rep ps h d pg s) (i : Nat) :
    (i < s.length →
      ∃ pg', Fixed.discard pg ps d i = some (pg', true) ∧ Rep ps h d pg' (s.eraseIdx i) ∧
        hdrBytes ps h pg' = hdrBytes ps h pg) ∧
    (¬ i < s.length → Fixed.discard pg ps d i = some (pg, false)) := by
  simp only [Fixed.discard, r.tupleCount, Option.bind_eq_bind, Option.bind_some]
  refine ⟨fun hi => ?_, fun hn => by rw [if_pos (by omega)]; rfl⟩
  rw [if_neg (by omega)]
  obtain ⟨p1, p2, p3⟩ := r.pow_facts
  have hle := r.le
  have b0 := r.base
  have hs : s[i]? = some s[i] := List.getElem?_eq_getElem hi
  obtain ⟨pg1, g1, b1, g3, g4, g5, g6, g7⟩ := discardLoop_spec (h := h) r.pos
    (s.length - (i + 1)) (i + 1) pg b0 (by omega) (by omega)
  have ht := Slotted.tombs_eraseIdx s i _ hs
  have hlen' : (s.eraseIdx i).length = s.length - 1 := by rw [List.length_eraseIdx]; simp [hi]
  simp only [offCount_eq b0, loadVal_word b0 (show 0 < 2 by omega), r.cnt, offBits_eq b0,
    Option.bind_some, r.getBit hs, g1, sub32_eq (show 1 ≤ s.length by omega), offCount_eq b1,
    storeVal_word b1 (show 0 < 2 by omega)]
  have b2 := b1.setWord 0 (s.length - 1)
  have hat : ∀ j x, (s.eraseIdx i)[j]? = some x → bit pg1 (wAddr ps h 2) j = x.isSome ∧
      ∀ t, x = some t → t.length = d.size ∧ slot ps h d pg1 j = t := by
    intro j x hj
    have hjl := (List.getElem?_eq_some_iff.mp hj).1
    rw [hlen'] at hjl
    rw [List.getElem?_eraseIdx] at hj
    rw [g5 j (by omega)]
    by_cases hji : j < i
    · rw [if_pos hji] at hj
      rw [if_neg (by omega), g7 j (by omega)]
      exact r.at hj
    · rw [if_neg hji] at hj
      rw [if_pos (by omega)]
      have hh := r.at hj
      refine ⟨hh.1, fun t ht => ?_⟩
      rw [g6 j (by omega) (by omega) (by rw [hh.1, ht]; rfl)]
      exact hh.2 t ht
  cases hx : s[i] with
  | some t =>
    simp only [Option.isSome_some, if_true]
    rw [hx] at ht
    simp at ht
    refine ⟨_, rfl, Rep.mk' r.fixed r.pos b2 ?_ ?_ (by omega) ?_, by rw [hdrBytes_setWord, g3]⟩
    · rw [word_setWord_eq b1 (by omega) (by omega), hlen']
    · rw [word_setWord_ne _ (by omega), g4 1 (by omega), r.tomb, ht]
    · intro j x hj
      fsimp
      exact hat j x hj
  | none =>
    rw [hx] at ht
    simp at ht
    simp only [Option.isSome_none, Bool.false_eq_true, if_false, offTomb_eq b2,
      loadVal_word b2 (show 1 < 2 by omega), Option.bind_some]
    rw [word_setWord_ne _ (by omega), g4 1 (by omega), r.tomb]
    simp only [sub32_eq (show 1 ≤ tombs s by omega), Option.bind_some,
      storeVal_word b2 (show 1 < 2 by omega), Option.pure_def]
    have b3 := b2.setWord 1 (tombs s - 1)
    refine ⟨_, rfl, Rep.mk' r.fixed r.pos b3 ?_ ?_ (by omega) ?_,
      by rw [hdrBytes_setWord, hdrBytes_setWord, g3]⟩
    · rw [word_setWord_ne _ (by omega), word_setWord_eq b1 (by omega) (by omega), hlen']
    · rw [word_setWord_eq b2 (by omega) (by omega)]; omega
    · intro j x hj
      fsimp
      exact hat j x hj

/-! ### Swap -/

/-- `swap_tuples_fixed_array_page`. -/
theorem Rep.swap (r : Rep ps h d pg s) (i j : Nat) :
    (i < s.length ∧ j < s.length →
      ∃ pg', Fixed.swap pg ps d i j = some (pg', true) ∧ Rep ps h d pg' (swapSlots s i j) ∧
        hdrBytes ps h pg' = hdrBytes ps h pg) ∧
    (¬ (i < s.length ∧ j < s.length) → Fixed.swap pg ps d i j = some (pg, false)) := by
  simp only [Fixed.swap, r.tupleCount, Option.bind_eq_bind, Option.bind_some]
  refine ⟨fun ⟨hi, hj⟩ => ?_, fun hn => by rw [if_pos (by omega)]; rfl⟩
  rw [if_neg (by omega)]
  have hle := r.le
  have hsi : s[i]? = some s[i] := List.getElem?_eq_getElem hi
  have hsj : s[j]? = some s[j] := List.getElem?_eq_getElem hj
  have hsw : swapSlots s i j = (s.set i s[j]).set j s[i] := by simp [swapSlots, hsi, hsj]
  by_cases hij : i = j
  · subst hij
    rw [if_pos rfl]
    have : swapSlots s i i = s := by rw [hsw]; simp
    exact ⟨pg, rfl, by rw [this]; exact r, rfl⟩
  · rw [if_neg hij]
    have b0 := r.base
    simp only [offBits_eq b0, Option.bind_some, r.getBit hsi, r.getBit hsj]
    by_cases hbb : s[i].isSome = false ∧ s[j].isSome = false
    · simp only [hbb.1, hbb.2, Bool.not_false, Bool.and_self, if_true]
      refine ⟨pg, rfl, ?_, rfl⟩
      have h1 : s[i] = none := by simpa using hbb.1
      have h2 : s[j] = none := by simpa using hbb.2
      have : swapSlots s i j = s := by
        rw [hsw]
        apply List.ext_getElem?
        intro k
        rw [List.getElem?_set, List.getElem?_set]
        split
        · rename_i hk; subst hk; rw [hsj, h1, h2]; simp [hj]
        · split
          · rename_i hk; subst hk; rw [hsi, h1, h2]
          · rfl
      rw [this]; exact r
    · have hcond : (!s[i].isSome && !s[j].isSome) = false := by
        cases h1 : s[i].isSome <;> cases h2 : s[j].isSome <;> simp_all
      simp only [hcond, Bool.false_eq_true, if_false]
      have hic : i < cap ps h d := by omega
      have hjc : j < cap ps h d := by omega
      have hblj : wAddr ps h 2 + j / 8 < pg.length := Base.bit_lt b0 hjc
      have b1 := Base.withBit b0 j s[i].isSome
      have hbli := Base.bit_lt b1 hic
      have b2 := Base.withBit b1 i s[j].isSome
      simp only [putBit_eq hblj, putBit_eq hbli, Option.bind_some,
        offIth_eq b2 r.pos (Nat.le_of_lt hic), offIth_eq b2 r.pos (Nat.le_of_lt hjc),
        swapIn_spec (Base.slot_le b2 hic) (Base.slot_le b2 hjc), Option.pure_def]
      have hri := rd_length _ _ _ (Base.slot_le b2 hic)
      have hrj := rd_length _ _ _ (Base.slot_le b2 hjc)
      have b3 := Base.wrSlot (d := d) b2 i
        (rd (withBit (withBit pg (wAddr ps h 2) j s[i].isSome) (wAddr ps h 2) i s[j].isSome)
          (tAddr ps h d j) d.size)
      have b4 := Base.wrSlot (d := d) b3 j
        (rd (withBit (withBit pg (wAddr ps h 2) j s[i].isSome) (wAddr ps h 2) i s[j].isSome)
          (tAddr ps h d i) d.size)
      have hsl : ∀ k, rd (withBit (withBit pg (wAddr ps h 2) j s[i].isSome) (wAddr ps h 2) i
          s[j].isSome) (tAddr ps h d k) d.size = slot ps h d pg k := by
        intro k
        show slot ps h d _ k = _
        rw [slot_withBit _ hic, slot_withBit _ hjc]
      refine ⟨_, rfl, Rep.mk' r.fixed r.pos b4 ?_ ?_ ?_ ?_, ?_⟩
      · fsimp
        rw [r.cnt, hsw]; simp
      · fsimp
        rw [r.tomb, hsw, Slotted.tombs_perm (List.set_set_perm hi hj)]
      · rw [hsw]; simpa using hle
      · intro k x hk
        rw [hsw] at hk
        have hkl := (List.getElem?_eq_some_iff.mp hk).1
        simp only [List.length_set] at hkl
        rw [slot_wrSlot b3 hjc hri, slot_wrSlot b2 hic hrj, hsl, hsl, slot_withBit _ hic,
          slot_withBit _ hjc, bit_wrSlot _ _ _ (by omega), bit_wrSlot _ _ _ (by omega),
          bit_withBit hbli, bit_withBit hblj]
        rw [List.getElem?_set, List.getElem?_set] at hk
        have ai := r.at hsi
        have aj := r.at hsj
        by_cases h1 : k = j
        · rw [if_pos h1.symm] at hk
          simp [hj] at hk
          subst hk
          rw [if_neg (by omega), if_pos h1, if_pos h1]
          exact ⟨rfl, ai.2⟩
        · rw [if_neg (Ne.symm h1)] at hk
          rw [if_neg h1, if_neg h1]
          by_cases h2 : k = i
          · rw [if_pos h2.symm] at hk
            simp [hi] at hk
            subst hk
            rw [if_pos h2, if_pos h2]
            exact ⟨rfl, aj.2⟩
          · rw [if_neg (Ne.symm h2)] at hk
            rw [if_neg h2, if_neg h2]
            exact r.at hk
      · fsimp

/-! ### Trailing tomb stones, discard all, zero out -/

theorem trailLoop_spec (r : Rep ps h d pg s) : ∀ (n z k : Nat), n ≤ s.length →
    trailing (s.take n) ≤ z →
    trailLoop pg (wAddr ps h 2) n z k = some (n - trailing (s.take n),
      z - trailing (s.take n), k + trailing (s.take n)) := by
  intro n
  induction n with
  | zero => intro z k _ _; simp [trailLoop, trailing]
  | succ n ih =>
    intro z k hn hz
    have hs : s[n]? = some s[n] := List.getElem?_eq_getElem (by omega)
    have htake : s.take (n + 1) = s.take n ++ [s[n]] := by
      rw [List.take_add_one, hs]; rfl
    simp only [trailLoop, r.getBit hs, Option.bind_eq_bind, Option.bind_some]
    cases hx : s[n] with
    | some t =>
      rw [hx] at htake
      simp [htake]
    | none =>
      rw [hx] at htake
      rw [htake] at hz ⊢
      simp only [trailing_snoc_none] at hz ⊢
      simp only [Option.isSome_none, Bool.false_eq_true, if_false, sub32_eq (show 1 ≤ z by omega),
        Option.bind_some]
      rw [ih (z - 1) (k + 1) (by omega) (by omega)]
      congr 1
      ext <;> simp <;> omega

/-- `discard_trailing_tomb_stones_fixed_array_page`. -/
theorem Rep.discardTrailing (r : Rep ps h d pg s) :
    ∃ pg', Fixed.discardTrailing pg ps = some (pg', trailing s) ∧
      Rep ps h d pg' (dropTrailing s) ∧ hdrBytes ps h pg' = hdrBytes ps h pg := by
  obtain ⟨p1, p2, p3⟩ := r.pow_facts
  have hle := r.le
  have b0 := r.base
  have ht := Slotted.tombs_dropTrailing s
  have hl := dropTrailing_length s
  have hloop := trailLoop_spec r s.length (tombs s) 0 (Nat.le_refl _) (by simp; omega)
  simp only [List.take_length, Nat.zero_add] at hloop
  have b1 := b0.setWord 0 (s.length - trailing s)
  simp only [Fixed.discardTrailing, offCount_eq b0, offTomb_eq b0, offBits_eq b0,
    loadVal_word b0 (show 0 < 2 by omega), loadVal_word b0 (show 1 < 2 by omega), r.cnt, r.tomb,
    Option.bind_eq_bind, Option.bind_some, hloop, storeVal_word b0 (show 0 < 2 by omega),
    offTomb_eq b1, storeVal_word b1 (show 1 < 2 by omega), Option.pure_def]
  have b2 := b1.setWord 1 (tombs s - trailing s)
  refine ⟨_, rfl, Rep.mk' r.fixed r.pos b2 ?_ ?_ (by omega) ?_, by fsimp⟩
  · fsimp
    rw [word_setWord_eq b0 (by omega) (by omega)]; omega
  · rw [word_setWord_eq b1 (by omega) (by omega)]; omega
  · intro i x hi
    have hil := (List.getElem?_eq_some_iff.mp hi).1
    rw [getElem?_dropTrailing hil] at hi
    fsimp
    exact r.at hi

/-- `discard_all_tuples_fixed_array_page`. -/
theorem Rep.discardAll (r : Rep ps h d pg s) :
    ∃ pg', Fixed.discardAll pg ps = some pg' ∧
      Rep ps h d pg' [] ∧ hdrBytes ps h pg' = hdrBytes ps h pg := by
  have b0 := r.base
  have b1 := b0.setWord 0 0
  have hp : 0 < 256 ^ vsz ps := Nat.pow_pos (by omega)
  simp only [Fixed.discardAll, offCount_eq b0, Option.bind_eq_bind, Option.bind_some,
    storeVal_word b0 (show 0 < 2 by omega),
    offTomb_eq b1, storeVal_word b1 (show 1 < 2 by omega)]
  refine ⟨_, rfl, Rep.mk' r.fixed r.pos (b1.setWord 1 0) ?_ ?_ (by simp) (by simp), by fsimp⟩
  · fsimp
    rw [word_setWord_eq b0 (by omega) hp]; simp
  · rw [word_setWord_eq b1 (by omega) hp]; simp

/-- `zero_out_free_space_fixed_array_page`. -/
theorem Rep.zeroOut (r : Rep ps h d pg s) :
    ∃ pg' ok, Fixed.zeroOut pg ps d = some (pg', ok) ∧ Rep ps h d pg' s ∧
      hdrBytes ps h pg' = hdrBytes ps h pg ∧
      (ok = true ↔ 0 < ps - tAddr ps h d s.length) ∧
      (∀ i, tAddr ps h d s.length ≤ i → i < ps → pg'[i]? = some 0) ∧
      (∀ i, ¬ (tAddr ps h d s.length ≤ i ∧ i < ps) → pg'[i]? = pg[i]?) := by
  have hle := r.tAddr_le
  have hlen := r.base.len
  simp only [Fixed.zeroOut, r.freeSpace, Option.bind_eq_bind, Option.bind_some]
  by_cases h0 : 0 = ps - tAddr ps h d s.length
  · rw [if_pos h0]
    exact ⟨pg, false, rfl, r, rfl, by simp; omega, by intro i h1 h2; omega, fun _ _ => rfl⟩
  · rw [if_neg h0]
    simp only [r.startFree, Option.bind_some, sub32_eq hle]
    have hz : zeroIn pg (tAddr ps h d s.length) (ps - tAddr ps h d s.length) =
        some (wr pg (tAddr ps h d s.length)
          (List.replicate (ps - tAddr ps h d s.length) 0)) := by
      unfold zeroIn; rw [store_eq]; simp; omega
    simp only [hz, Option.bind_some, Option.pure_def]
    refine ⟨_, true, rfl, ?_, by fsimp, by simp; omega, ?_, ?_⟩
    · refine Rep.mk' r.fixed r.pos (Base.wrSlot r.base _ _) ?_ ?_ r.le ?_
      · fsimp; exact r.cnt
      · fsimp; exact r.tomb
      · intro i x hi
        have hil := (List.getElem?_eq_some_iff.mp hi).1
        have := r.le
        rw [bit_wrSlot _ _ _ (by omega)]
        have e := tAddr_mono (ps := ps) (h := h) (d := d) (show i + 1 ≤ s.length from hil)
        rw [tAddr_succ] at e
        have : slot ps h d (wr pg (tAddr ps h d s.length)
            (List.replicate (ps - tAddr ps h d s.length) 0)) i = slot ps h d pg i :=
          rd_wr_disj _ _ _ _ _ (.inl e)
        rw [this]
        exact r.at hi
    · intro i h1 h2
      rw [wr_getElem?, if_pos (by simp; omega), List.getElem?_replicate]
      rw [if_pos (by omega)]
    · intro i h1
      rw [wr_getElem?, if_neg (by simp; omega)]

end Fixed
end TS
