import Verif.OnPage
import Verif.ApiRep
/-
A pointer into the page reads the same bytes at every moment at which the page functions read
through it, so that the functions do what they do for a copy of those bytes.
-/
namespace TS

variable {ps h : Nat} {d : SizeDef} {pg : Bytes} {s : Slots}

/-- The page holds the bytes of `t` at offset `o`. -/
structure HoldsAt (pg : Bytes) (o : Nat) (t : Bytes) : Prop where
  le : o + t.length ≤ pg.length
  eq : rd pg o t.length = t

theorem HoldsAt.size {o : Nat} {t : Bytes} (hh : HoldsAt pg o t) (hw : WellFormed d t) :
    tupleSize d ((Ptr.on o).mem pg) = some t.length := tupleSize_at hw hh.eq

theorem HoldsAt.load {o : Nat} {t : Bytes} (hh : HoldsAt pg o t) :
    load ((Ptr.on o).mem pg) 0 t.length = some t := by
  have h1 := hh.le
  rw [load_eq (by simp [Ptr.mem]; omega)]
  have h2 := hh.eq
  simpa [rd, Ptr.mem] using h2

theorem HoldsAt.setWord {o : Nat} {t : Bytes} (hh : HoldsAt pg o t) {k : Nat} (v : Nat)
    (ho : wAddr ps h (k + 1) ≤ o) : HoldsAt (setWord ps h pg k v) o t :=
  ⟨by simpa using hh.le, by rw [rd_setWord pg k v (.inr ho)]; exact hh.eq⟩

namespace Slotted

theorem canAppendAt_eq {o : Nat} {t : Bytes} (hh : HoldsAt pg o t) (hw : WellFormed d t) :
    canAppendAt pg ps d (some (.on o)) = canAppend pg ps d (some t) := by
  simp only [canAppendAt, canAppend, spaceForAt, spaceFor, hh.size hw, hw.size]

theorem canUpdateAt_eq {o : Nat} {t : Bytes} (hh : HoldsAt pg o t) (hw : WellFormed d t)
    (i : Nat) : canUpdateAt pg ps d i (some (.on o)) = canUpdate pg ps d i (some t) := by
  simp only [canUpdateAt, canUpdate, hh.size hw, hw.size]

theorem Rep.appendAt (r : Rep ps h d pg s) {o : Nat} {t : Bytes} (hh : HoldsAt pg o t)
    (hw : WellFormed d t) (ho : eofs ps h pg ≤ o) :
    Slotted.appendAt pg ps d (some (.on o)) = Slotted.append pg ps d (some t) := by
  have he : ExtOk d (some t) := by intro u hu; cases hu; exact hw
  simp only [Slotted.appendAt, Slotted.append, canAppendAt_eq hh hw, r.canAppend he,
    Option.bind_eq_bind, Option.bind_some]
  by_cases hc : vsz ps + dataLen (some t) ≤ free ps h pg s
  · rw [decide_eq_true hc]
    have hsp := r.space
    have hel := r.eofs_le
    have hlt := r.base.lt
    unfold free at hc
    simp only [dataLen_some] at hc
    have hfit : wAddr ps h (4 + s.length + 1) + t.length ≤ eofs ps h pg := by
      rw [wAddr_succ]; omega
    have hnlt := lt_wAddr ps h (4 + s.length + 1)
    have hpow := le_pow_vsz r.base.lt
    have b0 : Base ps h (4 + s.length + 1) pg :=
      ⟨r.base.len, r.base.hdr, r.base.lt, by omega⟩
    simp only [Bool.not_true, Bool.false_eq_true, if_false, offCount_eq b0 (by omega),
      Option.bind_some, loadVal_word b0 (show 1 < 4 + s.length + 1 by omega), r.cnt,
      u32_eq (show s.length + 1 < 4294967296 by omega),
      storeVal_word b0 (show 1 < 4 + s.length + 1 by omega)]
    have b1 := b0.setWord 1 (s.length + 1)
    have m1 := wAddr_mono ps h (show 1 + 1 ≤ 4 + s.length + 1 by omega)
    have m3 := wAddr_mono ps h (show 3 + 1 ≤ 4 + s.length + 1 by omega)
    have hh1 := hh.setWord (ps := ps) (h := h) (k := 1) (s.length + 1) (by omega)
    rw [offIth_eq b1 (by omega) (show 4 + (s.length + 1 - 1) ≤ 4 + s.length + 1 by omega)]
    simp only [Nat.add_sub_cancel]
    have hw1 : word ps h (setWord ps h pg 1 (s.length + 1)) 1 = s.length + 1 :=
      word_setWord_eq b0 (by omega) (by omega)
    have he1 : eofs ps h (setWord ps h pg 1 (s.length + 1)) = eofs ps h pg :=
      eofs_setWord_ne _ (by omega) _
    have hal := allocate_eq b1 (by omega) (sz := t.length) (by rw [hw1]; omega)
      (by rw [hw1, he1]; exact hfit)
    rw [he1] at hal
    have hh2 := hh1.setWord (ps := ps) (h := h) (k := 3) (eofs ps h pg - t.length) (by omega)
    have b2 := b1.setWord 3 (eofs ps h pg - t.length)
    have hh3 := hh2.setWord (ps := ps) (h := h) (k := 4 + s.length) (eofs ps h pg - t.length)
      (by omega)
    simp only [hw.size, hh1.size hw, Option.bind_some, hal, load_all,
      storeVal_word b2 (show 4 + s.length < 4 + s.length + 1 by omega), hh3.load]
  · rw [decide_eq_false hc]
    rfl

theorem Rep.insertAt (r : Rep ps h d pg s) {o : Nat} {t : Bytes} (hh : HoldsAt pg o t)
    (hw : WellFormed d t) (ho : eofs ps h pg ≤ o) (i : Nat) :
    Slotted.insertAt pg ps d i (some (.on o)) = Slotted.insert pg ps d i (some t) := by
  simp only [Slotted.insertAt, Slotted.insert, r.appendAt hh hw ho]

/-- What discarding writes: slots, the occupied space and the end of free space, never memory
from the end of free space on. -/
theorem Rep.discard_holds (r : Rep ps h d pg s) {i : Nat} {u : Bytes}
    (hi : s[i]? = some (some u)) {pg1 : Bytes}
    (h1 : Slotted.updateDiscard pg ps d (wAddr ps h (4 + i)) (word ps h pg (4 + i)) = some pg1)
    {o : Nat} {t : Bytes} (hh : HoldsAt pg o t) (ho : wAddr ps h (4 + s.length) ≤ o) :
    HoldsAt pg1 o t := by
  have hlv := r.live hi
  have b := r.base
  have b1 := b.setWord (4 + i) 0
  have hocc := r.occ_lt
  have hel := r.eofs_le
  have hsp := r.space
  have m0 := wAddr_mono ps h (show 0 + 1 ≤ 4 + s.length by omega)
  have mi := wAddr_mono ps h (show 4 + i + 1 ≤ 4 + s.length by omega)
  have m3 := wAddr_mono ps h (show 3 + 1 ≤ 4 + s.length by omega)
  have hlg := liveSum_get s i (some u) hi
  simp only [dataLen_some] at hlg
  have hts : tupleSize d ((TS.setWord ps h pg (4 + i) 0).drop (word ps h pg (4 + i))) =
      some u.length := by
    refine tupleSize_at hlv.2.2.2.1 ?_
    pgsimp (4 + s.length)
    exact hlv.2.2.1
  simp only [Slotted.updateDiscard, storeVal_word b (show 4 + i < 4 + s.length by omega),
    Option.bind_eq_bind, Option.bind_some, hts, offOcc_eq b1,
    loadVal_word b1 (show 0 < 4 + s.length by omega),
    storeVal_word b1 (show 0 < 4 + s.length by omega)] at h1
  have hh1 := hh.setWord (ps := ps) (h := h) (k := 4 + i) 0 (by omega)
  have hs : ∀ v, HoldsAt (TS.setWord ps h (TS.setWord ps h pg (4 + i) 0) 0 v) o t :=
    fun v => hh1.setWord (ps := ps) (h := h) (k := 0) v (by omega)
  have hb : ∀ v, Base ps h (4 + s.length) (TS.setWord ps h (TS.setWord ps h pg (4 + i) 0) 0 v) :=
    fun v => b1.setWord 0 v
  cases hsub : sub32 (word ps h (TS.setWord ps h pg (4 + i) 0) 0) u.length with
  | none => rw [hsub] at h1; cases h1
  | some v =>
    rw [hsub] at h1
    simp only [Option.bind_some, endFree_eq (hb v) (by omega)] at h1
    split at h1
    · simp only [Slotted.recomputeEnd, offEofs_eq (hb v) (by omega), Option.bind_eq_bind] at h1
      cases hn : Slotted.tupleCount
          (TS.setWord ps h (TS.setWord ps h pg (4 + i) 0) 0 v) ps with
      | none => rw [hn] at h1; cases h1
      | some n =>
        rw [hn] at h1
        simp only [Option.bind_some] at h1
        cases he : minOffLoop (TS.setWord ps h (TS.setWord ps h pg (4 + i) 0) 0 v) ps n 0 ps with
        | none => rw [he] at h1; cases h1
        | some e =>
          rw [he] at h1
          simp only [Option.bind_some,
            storeVal_word (hb v) (show 3 < 4 + s.length by omega), Option.some.injEq] at h1
          rw [← h1]
          exact (hs v).setWord (ps := ps) (h := h) (k := 3) e (by omega)
    · cases h1; exact hs v

/-- Placing the new tuple does the same from the page as from a copy. -/
theorem updatePlaceAt_eq {K : Nat} (b : Base ps h K pg) (hK : 4 ≤ K) {o : Nat} {t : Bytes}
    (hh : HoldsAt pg o t) (hw : WellFormed d t) (hK' : 4 + word ps h pg 1 ≤ K)
    (ho : wAddr ps h K ≤ o) {i : Nat} (hi : 4 + i < K) (old : Nat) {inFree : Bool}
    (hfit : inFree = true → wAddr ps h (4 + word ps h pg 1) + t.length ≤ eofs ps h pg) :
    updatePlaceAt pg ps d (wAddr ps h (4 + i)) old inFree (.on o) =
      updatePlace pg ps d (wAddr ps h (4 + i)) old inFree t := by
  have m3 := wAddr_mono ps h (show 3 + 1 ≤ K by omega)
  have mi := wAddr_mono ps h (show 4 + i + 1 ≤ K by omega)
  simp only [updatePlaceAt, updatePlace, hh.size hw, hw.size, Option.bind_eq_bind,
    Option.bind_some, load_all]
  cases inFree with
  | true =>
    have h1 := allocate_eq b hK (sz := t.length) hK' (hfit rfl)
    have b1 := b.setWord 3 (eofs ps h pg - t.length)
    have hh1 := hh.setWord (ps := ps) (h := h) (k := 3) (eofs ps h pg - t.length) (by omega)
    simp only [if_true, h1, Option.bind_some, storeVal_word b1 hi,
      (hh1.setWord (ps := ps) (h := h) (k := 4 + i) _ (by omega)).load]
  | false =>
    simp only [Bool.false_eq_true, if_false, Option.pure_def, Option.bind_some,
      storeVal_word b hi, (hh.setWord (ps := ps) (h := h) (k := 4 + i) old (by omega)).load]

theorem Rep.updateAt (r : Rep ps h d pg s) {o : Nat} {t : Bytes} (hh : HoldsAt pg o t)
    (hw : WellFormed d t) (ho : eofs ps h pg ≤ o) (i : Nat) :
    Slotted.updateAt pg ps d i (some (.on o)) = Slotted.update pg ps d i (some t) := by
  have he : ExtOk d (some t) := by intro u hu; cases hu; exact hw
  obtain ⟨b, hb, hbr⟩ := r.canUpdate i he
  simp only [Slotted.updateAt, Slotted.update, canUpdateAt_eq hh hw, hb, Option.bind_eq_bind,
    Option.bind_some]
  cases b with
  | false => rfl
  | true =>
    have hroom := hbr.mp rfl
    have hi : i < s.length := by
      rcases Nat.lt_or_ge i s.length with h1 | h1
      · exact h1
      · simp [UpdRoom, List.getElem?_eq_none h1] at hroom
    have hs : s[i]? = some s[i] := List.getElem?_eq_getElem hi
    have hsp := r.space
    simp only [Bool.not_true, Bool.false_eq_true, if_false,
      offIth_eq r.base (show 4 ≤ 4 + s.length by omega) (show 4 + i ≤ 4 + s.length by omega),
      loadVal_word r.base (show 4 + i < 4 + s.length by omega), Option.bind_some]
    cases hx : s[i] with
    | none =>
      rw [hx] at hs
      have h0 := (r.word_eq_zero hi).mpr hs
      rw [if_pos h0, if_pos h0]
      have hfit : wAddr ps h (4 + s.length) + t.length ≤ eofs ps h pg := by
        simp [UpdRoom, hs, free] at hroom; omega
      rw [updatePlaceAt_eq r.base (by omega) hh hw (by rw [r.cnt]; omega) (by omega)
        (by omega) _ (fun _ => by rw [r.cnt]; exact hfit)]
    | some u =>
      rw [hx] at hs
      have h0 := r.off_pos hs
      have hlv := r.live hs
      rw [if_neg (by omega), if_neg (by omega)]
      obtain ⟨pg1, h1, h2, h3, h4, h5, h6, h7⟩ := r.updateDiscard r.tight hs
      simp only [tupleSize_at hlv.2.2.2.1 hlv.2.2.1, Option.bind_some, hh.size hw, hw.size, h1,
        endFree_eq r.base (show 4 ≤ 4 + s.length by omega)]
      have hh1 := r.discard_holds hs h1 hh (by omega)
      have hc := h2.cnt
      simp only [List.length_set] at hc
      have hb2 := h2.base
      simp only [List.length_set] at hb2
      rw [updatePlaceAt_eq hb2 (by omega) hh1 hw (by rw [hc]; omega) (by omega) (by omega)]
      intro hF
      rw [hc]
      have hF := of_decide_eq_true hF
      by_cases heq : word ps h pg (4 + i) = eofs ps h pg
      · have hsi : (s.set i none)[i]? = some none := by simp [hi]
        have hup := WellFormed.pos r.var hlv.2.2.2.1
        have hge : eofs ps h pg + u.length ≤ eofs ps h pg1 := by
          rcases h3 with h3 | ⟨j, v, hj, hje⟩
          · rw [h3]; omega
          · have hjl : j < s.length := by
              have := (List.getElem?_eq_some_iff.mp hj).1
              simpa using this
            have hji : j ≠ i := by
              rintro rfl
              rw [hsi] at hj; simp at hj
            rw [List.getElem?_set_ne (by omega)] at hj
            rw [← hje, h7 j hji hjl]
            have hd := r.lay.disj i j u v (by omega) hs hj
            have hv := (r.live hj)
            have hvp := WellFormed.pos r.var hv.2.2.2.1
            omega
        simp [UpdRoom, hs, heq, free] at hroom
        omega
      · rw [h6 heq]
        simp [UpdRoom, hs, heq, free] at hroom
        omega

end Slotted

namespace Fixed

theorem holds_withBit {o : Nat} {t : Bytes} (hh : HoldsAt pg o t) {i : Nat}
    (hi : i < cap ps h d) (v : Bool) (ho : tAddr ps h d 0 ≤ o) :
    HoldsAt (withBit pg (wAddr ps h 2) i v) o t := by
  have h1 := bit_in (ps := ps) (h := h) (d := d) hi
  refine ⟨by simpa using hh.le, ?_⟩
  rw [rd_withBit pg v (.inr (by omega))]
  exact hh.eq

theorem holds_setWord {o : Nat} {t : Bytes} (hh : HoldsAt pg o t) {k : Nat} (hk : k < 2)
    (v : Nat) (ho : tAddr ps h d 0 ≤ o) : HoldsAt (setWord ps h pg k v) o t := by
  have h1 := bits_le_tAddr (ps := ps) (h := h) (d := d) 0
  have h2 := wAddr_mono ps h (show k + 1 ≤ 2 by omega)
  exact hh.setWord v (by omega)

theorem Rep.appendAt (r : Rep ps h d pg s) {o : Nat} {t : Bytes} (hh : HoldsAt pg o t)
    (hl : t.length = d.size) (ho : tAddr ps h d 0 ≤ o) :
    Fixed.appendAt pg ps d (some (.on o)) = Fixed.append pg ps d (some t) := by
  simp only [Fixed.appendAt, Fixed.append, r.canAppend, Option.bind_eq_bind, Option.bind_some]
  by_cases hc : s.length < cap ps h d
  · rw [decide_eq_true hc]
    obtain ⟨p1, p2, p3⟩ := r.pow_facts
    have b0 := r.base
    have b1 := b0.setWord 0 (s.length + 1)
    simp only [Bool.not_true, Bool.false_eq_true, if_false, offCount_eq b0,
      Option.bind_some, loadVal_word b0 (show 0 < 2 by omega), r.cnt,
      u32_eq (show s.length + 1 < 4294967296 by omega), Nat.add_sub_cancel,
      storeVal_word b0 (show 0 < 2 by omega)]
    have hbl := Base.bit_lt b1 hc
    have b2 := Base.withBit b1 s.length true
    have hh2 := holds_withBit (holds_setWord hh (show 0 < 2 by omega) (s.length + 1) ho) hc true ho
    have hload2 : load t 0 d.size = some t := by rw [← hl]; exact Slotted.load_all t
    have hload1 := hh2.load
    rw [hl] at hload1
    simp only [offBits_eq b1, setBit_eq hbl, Option.bind_some, offIth_eq b2 r.pos (Nat.le_of_lt hc),
      hload1, hload2]
  · rw [decide_eq_false hc]
    simp

theorem Rep.insertAt (r : Rep ps h d pg s) {o : Nat} {t : Bytes} (hh : HoldsAt pg o t)
    (hl : t.length = d.size) (ho : tAddr ps h d 0 ≤ o) (i : Nat) :
    Fixed.insertAt pg ps d i (some (.on o)) = Fixed.insert pg ps d i (some t) := by
  simp only [Fixed.insertAt, Fixed.insert, r.appendAt hh hl ho]

theorem Rep.discard_holds (r : Rep ps h d pg s) {i : Nat} (hi : i < s.length) {pg1 : Bytes}
    (h1 : Fixed.updateDiscard pg ps i = some pg1) {o : Nat} {t : Bytes} (hh : HoldsAt pg o t)
    (ho : tAddr ps h d 0 ≤ o) : HoldsAt pg1 o t := by
  have hle := r.le
  have b0 := r.base
  have hs : s[i]? = some s[i] := List.getElem?_eq_getElem hi
  have hic : i < cap ps h d := by omega
  have hbl := Base.bit_lt b0 hic
  have b1 := Base.withBit b0 i false
  simp only [Fixed.updateDiscard, offBits_eq b0, Option.bind_eq_bind, Option.bind_some, r.getBit hs]
    at h1
  split at h1
  · simp only [resetBit_eq hbl, Option.bind_some, offTomb_eq b1,
      loadVal_word b1 (show 1 < 2 by omega), storeVal_word b1 (show 1 < 2 by omega)] at h1
    cases hu : u32 (word ps h (withBit pg (wAddr ps h 2) i false) 1 + 1) with
    | none => rw [hu] at h1; cases h1
    | some v =>
      rw [hu] at h1
      cases h1
      exact holds_setWord (holds_withBit hh hic false ho) (by omega) v ho
  · cases h1; exact hh

theorem Rep.updateAt (r : Rep ps h d pg s) {o : Nat} {t : Bytes} (hh : HoldsAt pg o t)
    (hl : t.length = d.size) (ho : tAddr ps h d 0 ≤ o) (i : Nat) :
    Fixed.updateAt pg ps d i (some (.on o)) = Fixed.update pg ps d i (some t) := by
  simp only [Fixed.updateAt, Fixed.update, r.canUpdate, Option.bind_eq_bind, Option.bind_some]
  by_cases hi : i < s.length
  · rw [decide_eq_true hi]
    obtain ⟨pg1, h1, h2, h3⟩ := r.updateDiscard hi
    have hh1 := r.discard_holds hi h1 hh ho
    have hle := r.le
    have b0 := h2.base
    have hic : i < cap ps h d := by omega
    have hbl := Base.bit_lt b0 hic
    have b1 := Base.withBit b0 i true
    simp only [Bool.not_true, Bool.false_eq_true, if_false, h1, Option.bind_some]
    simp only [Fixed.updatePlaceAt, Fixed.updatePlace, offBits_eq b0, setBit_eq hbl,
      Option.bind_eq_bind, Option.bind_some, offTomb_eq b1,
      loadVal_word b1 (show 1 < 2 by omega), storeVal_word b1 (show 1 < 2 by omega)]
    cases hz : sub32 (word ps h (withBit pg1 (wAddr ps h 2) i true) 1) 1 with
    | none => rfl
    | some z =>
      have b2 := b1.setWord 1 z
      have hh2 := holds_setWord (holds_withBit hh1 hic true ho) (show 1 < 2 by omega) z ho
      have hload2 : load t 0 d.size = some t := by rw [← hl]; exact Slotted.load_all t
      have hload1 := hh2.load
      rw [hl] at hload1
      simp only [Option.bind_some, offIth_eq b2 r.pos (Nat.le_of_lt hic), hload1, hload2]
  · rw [decide_eq_false hi]
    simp

end Fixed
end TS
