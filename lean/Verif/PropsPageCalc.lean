import Verif.PageCalc
import Verif.PropsLookup
import Verif.PropsPage3
/-
C85: the figures computed for page sizes, header sizes and tuple counts of any magnitude, and `init_page` with any header size.
-/
namespace TS

variable {ps h : Nat} {d : SizeDef} {pg : Bytes}

/-! ### The second half of `init_page` -/

theorem Slotted.initMeta_rep {p1 : Bytes} (hv : d.isVar = true) (b1 : Base ps h 4 p1)
    (hb1 : hdrBytes ps h p1 = List.replicate h 0) :
    ∃ pg, Slotted.initMeta p1 ps = some (pg, true) ∧ Slotted.Rep ps h d pg [] ∧ hdrBytes ps h pg = List.replicate h 0 := by
  have hpow : 0 < 256 ^ vsz ps := Nat.pow_pos (by omega)
  have hlt := b1.lt
  have hfit := b1.fits
  have hN := vsz_pos ps
  have hge := wAddr_ge ps h 4
  have b2 := b1.setWord 0 0
  have b3 := b2.setWord 1 0
  have b4 := b3.setWord 2 0
  have b5 := b4.setWord 3 ps
  simp only [Slotted.initMeta, Option.bind_eq_bind, Option.bind_some,
    Slotted.offOcc_eq b1, storeVal_word b1 (show 0 < 4 by omega),
    Slotted.offCount_eq b2 (by omega), storeVal_word b2 (show 1 < 4 by omega),
    Slotted.offTomb_eq b3 (by omega), storeVal_word b3 (show 2 < 4 by omega),
    Slotted.offEofs_eq b4 (by omega), storeVal_word b4 (show 3 < 4 by omega)]
  refine ⟨_, rfl, ?_, ?_⟩
  · have he : Slotted.eofs ps h (setWord ps h (setWord ps h (setWord ps h (setWord ps h p1 0 0) 1 0) 2 0) 3 ps)
        = ps := Slotted.eofs_setWord b4 (by omega) (by omega) (by omega)
    refine ⟨⟨hv, b5, ?_, ?_, ?_, ?_, ?_, ?_⟩, ?_⟩
    · rw [word_setWord_ne _ (by omega), word_setWord_ne _ (by omega),
        word_setWord_ne _ (by omega), word_setWord_eq b1 (by omega) hpow]; simp
    · rw [word_setWord_ne _ (by omega), word_setWord_ne _ (by omega),
        word_setWord_eq b2 (by omega) hpow]; simp
    · rw [word_setWord_ne _ (by omega), word_setWord_eq b3 (by omega) hpow]; simp
    · rw [he]; simpa using hfit
    · rw [he]; exact Nat.le_refl _
    · exact ⟨by simp, by simp, by simp⟩
    · left; exact he
  · simp only [hdrBytes_setWord, hb1]

theorem Slotted.initMeta_fits {p1 p : Bytes} (b1 : Base ps h 0 p1) (hi : Slotted.initMeta p1 ps = some (p, true)) :
    wAddr ps h 4 ≤ ps := by
  have hlt := b1.lt
  simp only [Slotted.initMeta, Slotted.offOcc_eq b1, Option.bind_some, Option.bind_eq_bind] at hi
  cases h2 : storeVal p1 ps (wAddr ps h 0) 0 with
  | none => rw [h2] at hi; cases hi
  | some p2 =>
  rw [h2] at hi
  obtain ⟨e2, l2⟩ := storeVal_some h2
  have b2 : Base ps h 0 p2 := by rw [e2]; exact b1.wr (Nat.le_refl _)
  have a1 := wAddr_succ ps h 0
  have a2 := wAddr_succ ps h 1
  have a3 := wAddr_succ ps h 2
  have a4 := wAddr_succ ps h 3
  have bl := b1.len
  simp only [Option.bind_some, Slotted.offCount, Slotted.offOcc_eq b2, Option.bind_eq_bind] at hi
  rw [u32_eq (by omega)] at hi
  simp only [Option.bind_some] at hi
  cases h3 : storeVal p2 ps (wAddr ps h 0 + vsz ps) 0 with
  | none => rw [h3] at hi; cases hi
  | some p3 =>
  rw [h3] at hi
  obtain ⟨e3, l3⟩ := storeVal_some h3
  have b3 : Base ps h 0 p3 := by rw [e3]; exact b2.wr (by omega)
  have bl2 := b2.len
  simp only [Option.bind_some, Slotted.offTomb, Slotted.offCount, Slotted.offOcc_eq b3,
    Option.bind_eq_bind] at hi
  rw [u32_eq (by omega), Option.bind_some, u32_eq (by omega)] at hi
  simp only [Option.bind_some] at hi
  cases h4 : storeVal p3 ps (wAddr ps h 0 + vsz ps + vsz ps) 0 with
  | none => rw [h4] at hi; cases hi
  | some p4 =>
  rw [h4] at hi
  obtain ⟨e4, l4⟩ := storeVal_some h4
  have b4 : Base ps h 0 p4 := by rw [e4]; exact b3.wr (by omega)
  have bl3 := b3.len
  have bl4 := b4.len
  simp only [Option.bind_some, Slotted.offEofs, Slotted.offTomb, Slotted.offCount,
    Slotted.offOcc_eq b4, Option.bind_eq_bind] at hi
  rw [u32_eq (by omega), Option.bind_some, u32_eq (by omega), Option.bind_some,
    u32_eq (by omega)] at hi
  simp only [Option.bind_some] at hi
  cases h5 : storeVal p4 ps (wAddr ps h 0 + vsz ps + vsz ps + vsz ps) ps with
  | none => rw [h5] at hi; cases hi
  | some p5 =>
  obtain ⟨e5, l5⟩ := storeVal_some h5
  simp only [Nat.reduceAdd] at a1 a2 a3 a4
  omega

theorem Fixed.initMeta_rep {p1 : Bytes} (hv : d.isVar = false) (hpos : 1 ≤ d.size) (b1 : Base ps h 2 p1)
    (hb1 : hdrBytes ps h p1 = List.replicate h 0) :
    ∃ pg, Fixed.initMeta p1 ps d = some (pg, true) ∧ Fixed.Rep ps h d pg [] ∧ hdrBytes ps h pg = List.replicate h 0 := by
  have hpow : 0 < 256 ^ vsz ps := Nat.pow_pos (by omega)
  have b2 := b1.setWord 0 0
  have b3 := b2.setWord 1 0
  have h0 := wAddr_mono ps h (show 0 ≤ 2 by omega)
  have b4 := b3.wr (o := wAddr ps h 2) (s := List.replicate (bitmapBytes (Fixed.cap ps h d)) 0) h0
  have hz : ∀ p, p.length = ps → zeroIn p (wAddr ps h 2) (bitmapBytes (Fixed.cap ps h d)) =
      some (wr p (wAddr ps h 2) (List.replicate (bitmapBytes (Fixed.cap ps h d)) 0)) := by
    intro p hp
    unfold zeroIn
    rw [store_eq]
    have h3 := Fixed.tAddr_cap (d := d) b1.fits
    unfold Fixed.tAddr at h3
    simp; omega
  simp only [Fixed.initMeta, Option.bind_eq_bind, Option.bind_some,
    Fixed.offCount_eq b1, storeVal_word b1 (show 0 < 2 by omega),
    Fixed.offTomb_eq b2, storeVal_word b2 (show 1 < 2 by omega),
    Fixed.offBits_eq b3, Fixed.capacity_eq b3 hpos, hz _ b3.len]
  refine ⟨_, rfl, ?_, ?_⟩
  · refine ⟨hv, hpos, b4, ?_, ?_, by simp, by simp, by simp⟩
    · rw [word_wr_ge 2 _ (by omega) (by omega), word_setWord_ne _ (by omega),
        word_setWord_eq b1 (by omega) hpow]; simp
    · rw [word_wr_ge 2 _ (by omega) (by omega), word_setWord_eq b2 (by omega) hpow]; simp
  · rw [hdrBytes_wr _ h0]
    simp only [hdrBytes_setWord, hb1]

theorem Fixed.initMeta_fits {p1 p : Bytes} (b1 : Base ps h 0 p1) (hi : Fixed.initMeta p1 ps d = some (p, true)) :
    wAddr ps h 2 ≤ ps := by
  have hlt := b1.lt
  have o1 : Fixed.offCount p1 ps = some (wAddr ps h 0) := offEndHdr_eq b1
  simp only [Fixed.initMeta, o1, Option.bind_some, Option.bind_eq_bind] at hi
  cases h2 : storeVal p1 ps (wAddr ps h 0) 0 with
  | none => rw [h2] at hi; cases hi
  | some p2 =>
  rw [h2] at hi
  obtain ⟨e2, l2⟩ := storeVal_some h2
  have b2 : Base ps h 0 p2 := by rw [e2]; exact b1.wr (Nat.le_refl _)
  have a1 := wAddr_succ ps h 0
  have a2 := wAddr_succ ps h 1
  have bl := b1.len
  have bl2 := b2.len
  have o2 : Fixed.offCount p2 ps = some (wAddr ps h 0) := offEndHdr_eq b2
  simp only [Option.bind_some, Fixed.offTomb, o2, Option.bind_eq_bind] at hi
  rw [u32_eq (by omega)] at hi
  simp only [Option.bind_some] at hi
  cases h3 : storeVal p2 ps (wAddr ps h 0 + vsz ps) 0 with
  | none => rw [h3] at hi; cases hi
  | some p3 =>
  obtain ⟨e3, l3⟩ := storeVal_some h3
  simp only [Nat.reduceAdd] at a1 a2
  omega

/-- The second half returns 1 or has a fault. -/
theorem Slotted.initMeta_true {p1 p : Bytes} {b : Bool} (hi : Slotted.initMeta p1 ps = some (p, b)) : b = true := by
  simp only [Slotted.initMeta, Option.bind_eq_bind, Option.bind_eq_some_iff] at hi
  grind

theorem Fixed.initMeta_true {p1 p : Bytes} {b : Bool} (hi : Fixed.initMeta p1 ps d = some (p, b)) : b = true := by
  simp only [Fixed.initMeta, Option.bind_eq_bind, Option.bind_eq_some_iff] at hi
  grind

/-- `init_page_header` if the header fits. -/
theorem initHdr_spec {pg0 : Bytes} {K : Nat} (hlen : pg0.length = ps) (hlt : ps < 4294967296) (hfit : wAddr ps h K ≤ ps) :
    ∃ p1, initHdr pg0 ps h = some (p1, true) ∧ Base ps h K p1 ∧ hdrBytes ps h p1 = List.replicate h 0 := by
  obtain ⟨p1, h1, h2, h3⟩ := Fixed.initPageHeader_spec (K := K) hlen hlt hfit
  have hge := wAddr_ge ps h K
  have hs : hdrSpace h ps = vsz ps + h := Nat.mod_eq_of_lt (by omega)
  refine ⟨p1, ?_, h2, h3⟩
  rw [← h1]
  simp only [initHdr, initPageHeader, hs, u32_eq (show vsz ps + h < 4294967296 by omega), Option.bind_eq_bind, Option.bind_some]

namespace Props

/-! ### C85 -/

/-- The end of what a page holds before the first tuple: the size of the header, the header, and four counters on a slotted page, two
on a fixed array page, computed without wrap-around. -/
def metaEnd (ps h : Nat) (d : SizeDef) : Nat := vsz ps + h + (if d.isVar then 4 else 2) * vsz ps

/-- The bytes taken by a page of `ps` bytes with `n` tuples of the minimum size, computed without wrap-around. -/
def footprint (ps h : Nat) (d : SizeDef) (n : Nat) : Nat :=
  metaEnd ps h d + (if d.isVar then n * (vsz ps + d.size) else (n + 7) / 8 + n * d.size)

theorem footprint_need (ps h : Nat) (d : SizeDef) (n : Nat) : footprint ps h d n = need h d n (vsz ps) := by
  unfold footprint metaEnd need bitmapBytes
  cases d.isVar
  · simp only [Bool.false_eq_true, if_false]; omega
  · simp only [if_true, Nat.mul_add, Nat.add_mul]; omega

theorem minW_chain (h : Nat) (d : SizeDef) (n : Nat) : Api.minPageSizeW h d n =
    (if need h d n 1 % 4294967296 ≤ 256 then need h d n 1 % 4294967296
     else if need h d n 2 % 4294967296 ≤ 65536 then need h d n 2 % 4294967296
     else if need h d n 3 % 4294967296 ≤ 16777216 then need h d n 3 % 4294967296
     else need h d n 4 % 4294967296) := by
  unfold Api.minPageSizeW Api.slotted
  cases hv : d.isVar
  · simp only [Bool.false_eq_true, if_false, Fixed.minPageSizeW, need, hv]
  · simp only [if_true, Slotted.minPageSizeW, need, hv, minTupleSize]; rfl

/-- C85. `get_minimum_page_size` for header sizes and counts of any magnitude. If there is a page size below 2^32 on which `n` tuples of
the minimum size have room, then the result is the least such size; if there is none, the result is no such size either, but nothing
tells it from one. -/
theorem C85_minimum (h : Nat) (d : SizeDef) (n : Nat) :
    Api.minPageSizeW h d n < 4294967296 ∧
    (∀ ps, ps < 4294967296 → footprint ps h d n ≤ ps →
      footprint (Api.minPageSizeW h d n) h d n = Api.minPageSizeW h d n ∧ Api.minPageSizeW h d n ≤ ps) := by
  rw [minW_chain]
  have s1 := need_succ h d n 1
  have s2 := need_succ h d n 2
  have s3 := need_succ h d n 3
  simp only [Nat.reduceAdd] at s1 s2 s3
  refine ⟨?_, ?_⟩
  · split
    · exact Nat.mod_lt _ (by decide)
    split
    · exact Nat.mod_lt _ (by decide)
    split <;> exact Nat.mod_lt _ (by decide)
  intro ps hps hf
  rw [footprint_need] at hf
  have key : ∀ p, (p ≤ 256 ∧ vsz p = 1) ∨ (256 < p ∧ p ≤ 65536 ∧ vsz p = 2) ∨
      (65536 < p ∧ p ≤ 16777216 ∧ vsz p = 3) ∨ (16777216 < p ∧ vsz p = 4) := by
    intro p
    by_cases c1 : p ≤ 256
    · exact Or.inl ⟨c1, vsz_eq_one c1⟩
    by_cases c2 : p ≤ 65536
    · exact Or.inr (Or.inl ⟨by omega, c2, vsz_eq_two (by omega) c2⟩)
    by_cases c3 : p ≤ 16777216
    · exact Or.inr (Or.inr (Or.inl ⟨by omega, c3, vsz_eq_three (by omega) c3⟩))
    · exact Or.inr (Or.inr (Or.inr ⟨by omega, vsz_eq_four (by omega)⟩))
  have kp := key ps
  have n1 : need h d n 1 < 4294967296 := by
    rcases kp with ⟨_, e⟩ | ⟨_, _, e⟩ | ⟨_, _, e⟩ | ⟨_, e⟩ <;> rw [e] at hf <;> omega
  rw [Nat.mod_eq_of_lt n1]
  split
  · rename_i c
    refine ⟨?_, ?_⟩
    · rw [footprint_need, vsz_eq_one c]
    · rcases kp with ⟨_, e⟩ | ⟨_, _, e⟩ | ⟨_, _, e⟩ | ⟨_, e⟩ <;> rw [e] at hf <;> omega
  rename_i c1
  have n2 : need h d n 2 < 4294967296 := by
    rcases kp with ⟨_, e⟩ | ⟨_, _, e⟩ | ⟨_, _, e⟩ | ⟨_, e⟩ <;> rw [e] at hf <;> omega
  rw [Nat.mod_eq_of_lt n2]
  split
  · rename_i c
    refine ⟨?_, ?_⟩
    · rw [footprint_need, vsz_eq_two (by omega) c]
    · rcases kp with ⟨_, e⟩ | ⟨_, _, e⟩ | ⟨_, _, e⟩ | ⟨_, e⟩ <;> rw [e] at hf <;> omega
  rename_i c2
  have n3 : need h d n 3 < 4294967296 := by
    rcases kp with ⟨_, e⟩ | ⟨_, _, e⟩ | ⟨_, _, e⟩ | ⟨_, e⟩ <;> rw [e] at hf <;> omega
  rw [Nat.mod_eq_of_lt n3]
  split
  · rename_i c
    refine ⟨?_, ?_⟩
    · rw [footprint_need, vsz_eq_three (by omega) c]
    · rcases kp with ⟨_, e⟩ | ⟨_, _, e⟩ | ⟨_, _, e⟩ | ⟨_, e⟩ <;> rw [e] at hf <;> omega
  rename_i c3
  have n4 : need h d n 4 ≤ ps := by
    rcases kp with ⟨_, e⟩ | ⟨_, _, e⟩ | ⟨_, _, e⟩ | ⟨_, e⟩ <;> rw [e] at hf <;> omega
  rw [Nat.mod_eq_of_lt (by omega)]
  exact ⟨by rw [footprint_need, vsz_eq_four (by omega)], n4⟩

/-- Where nothing wraps, it is the function the theorems of C24 and C25 talk about. -/
theorem C85_minimum_agrees {n m : Nat} (hm : Api.minPageSize h d n = some m) : Api.minPageSizeW h d n = m := by
  obtain ⟨h1, h2, h3⟩ := minPageSize_need hm
  have := (C85_minimum h d n).2 m h1 (by rw [footprint_need, ← h2]; exact Nat.le_refl _)
  have h4 := h3 (Api.minPageSizeW h d n) (by rw [← footprint_need, this.1]; exact Nat.le_refl _)
  omega

/-- Sizes on both sides of a change of width; and a count for which no page has room, with a small result. -/
example : footprint 518 8 exVar 100 ≤ 518 ∧ Api.minPageSizeW 8 exVar 100 = footprint 518 8 exVar 100 ∧
    Api.minPageSizeW 0 { exFix with size := 4 } 2147483640 ≤ 2147483648 := by decide +kernel

/-- C85. `init_page` for page sizes, header sizes and definitions of any magnitude. It leaves the page alone and returns 0 if the page is
smaller than what `get_minimum_page_size` says or if `can_page_header_fit_on_page` denies it; otherwise it makes an empty page if what
the page has to hold in front of the tuples ends in the page, and writes outside of the page if not. -/
theorem C85_init {pg0 : Bytes} (hl : pg0.length = ps) (h0 : 0 < ps) (hps : ps < 4294967296) (hh : h < 4294967296) (hsz : 1 ≤ d.size) :
    if ps < Api.minPageSizeW h d 1 ∨ canHdrFit h ps = false then Api.initPageW pg0 ps h d = some (pg0, false)
    else if metaEnd ps h d ≤ ps then ∃ pg, Api.initPageW pg0 ps h d = some (pg, true) ∧ Observe ps d pg [] ∧
      Api.headerSize pg ps = some h ∧ Api.readHeader pg ps = some (List.replicate h 0) ∧
      Api.spaceAllotted pg ps d = Api.freeSpace pg ps d ∧
      ∀ ops, (∀ op ∈ ops, OpOk h d op) → ∃ pg' rs s, run ps d pg ops = some (pg', rs) ∧ SpecRun d [] ops rs s ∧ Observe ps d pg' s
    else Api.initPageW pg0 ps h d = none := by
  have ok : ∀ pg, PRep ps h d pg [] → hdrBytes ps h pg = List.replicate h 0 → Observe ps d pg [] ∧
      Api.headerSize pg ps = some h ∧ Api.readHeader pg ps = some (List.replicate h 0) ∧
      Api.spaceAllotted pg ps d = Api.freeSpace pg ps d ∧
      ∀ ops, (∀ op ∈ ops, OpOk h d op) → ∃ pg' rs s, run ps d pg ops = some (pg', rs) ∧ SpecRun d [] ops rs s ∧ Observe ps d pg' s := by
    intro pg R hb
    refine ⟨R.observe, R.headerSize, by rw [R.readHeader, hb], ?_, ?_⟩
    rotate_left
    · intro ops ho
      obtain ⟨pg', rs, s, r1, r2, r3, -⟩ := R.run ho
      exact ⟨pg', rs, s, r1, r2, r3.observe⟩
    rw [R.spaceAllotted, R.freeSpace]
    have hp := R.packed_nil
    unfold freeBytes areaStart
    split <;> rename_i hv
    · simp [Slotted.free, hp hv]
    · simp
  cases hv : d.isVar with
  | true =>
    simp only [Api.initPageW, Api.minPageSizeW, Api.slotted, hv, if_true, Slotted.initW]
    by_cases c1 : ps < Slotted.minPageSizeW h d 1
    · simp [c1]
    by_cases c2 : canHdrFit h ps = false
    · have : ps < hdrSpace h ps := by simpa [canHdrFit] using c2
      simp [c1, c2, initHdr, this]
    rw [if_neg (by simp [c1, c2])]
    simp only [if_neg c1]
    have hs : hdrSpace h ps ≤ ps := by simpa [canHdrFit] using c2
    by_cases c3 : 4294967296 ≤ vsz ps + h
    · have := (C60_wraps hl h0 hps hh c3).2
      rw [if_neg (by unfold metaEnd; omega), this]; rfl
    have hs' : vsz ps + h ≤ ps := by unfold hdrSpace at hs; rw [Nat.mod_eq_of_lt (by omega)] at hs; exact hs
    have hm : metaEnd ps h d = wAddr ps h 4 := by simp [metaEnd, hv, wAddr]
    rw [hm]
    by_cases c4 : wAddr ps h 4 ≤ ps
    · rw [if_pos c4]
      obtain ⟨p1, e1, b1, hb1⟩ := initHdr_spec hl hps c4
      obtain ⟨p2, e2, R, hb2⟩ := Slotted.initMeta_rep hv b1 hb1
      exact ⟨p2, by simp [e1, e2], ok p2 (Or.inl R) hb2⟩
    · rw [if_neg c4]
      obtain ⟨p1, e1, b1, -⟩ := initHdr_spec (K := 0) hl hps (by simp [wAddr]; omega)
      rw [e1]
      cases e2 : Slotted.initMeta p1 ps with
      | none => simp [e2]
      | some x =>
        obtain ⟨p, b⟩ := x
        have := Slotted.initMeta_true e2
        subst this
        exact absurd (Slotted.initMeta_fits b1 e2) c4
  | false =>
    simp only [Api.initPageW, Api.minPageSizeW, Api.slotted, hv, Bool.false_eq_true, if_false, Fixed.initW]
    by_cases c1 : ps < Fixed.minPageSizeW h d 1
    · simp [c1]
    by_cases c2 : canHdrFit h ps = false
    · have : ps < hdrSpace h ps := by simpa [canHdrFit] using c2
      simp [c1, c2, initHdr, this]
    rw [if_neg (by simp [c1, c2])]
    simp only [if_neg c1]
    have hs : hdrSpace h ps ≤ ps := by simpa [canHdrFit] using c2
    by_cases c3 : 4294967296 ≤ vsz ps + h
    · have := (C60_wraps hl h0 hps hh c3).2
      rw [if_neg (by unfold metaEnd; omega), this]; rfl
    have hs' : vsz ps + h ≤ ps := by unfold hdrSpace at hs; rw [Nat.mod_eq_of_lt (by omega)] at hs; exact hs
    have hm : metaEnd ps h d = wAddr ps h 2 := by simp [metaEnd, hv, wAddr]
    rw [hm]
    by_cases c4 : wAddr ps h 2 ≤ ps
    · rw [if_pos c4]
      obtain ⟨p1, e1, b1, hb1⟩ := initHdr_spec hl hps c4
      obtain ⟨p2, e2, R, hb2⟩ := Fixed.initMeta_rep hv hsz b1 hb1
      exact ⟨p2, by simp [e1, e2], ok p2 (Or.inr ⟨R, by intro x hx; cases hx⟩) hb2⟩
    · rw [if_neg c4]
      obtain ⟨p1, e1, b1, -⟩ := initHdr_spec (K := 0) hl hps (by simp [wAddr]; omega)
      rw [e1]
      cases e2 : Fixed.initMeta p1 ps d with
      | none => simp [e2]
      | some x =>
        obtain ⟨p, b⟩ := x
        have := Fixed.initMeta_true e2
        subst this
        exact absurd (Fixed.initMeta_fits b1 e2) c4

/-- Where the function the other theorems talk about has no fault, it is this one. -/
theorem C85_init_agrees {pg0 : Bytes} {r : Bytes × Bool} (hi : Api.initPage pg0 ps h d = some r) : Api.initPageW pg0 ps h d = some r := by
  have hdr : ∀ x, initPageHeader pg0 ps h = some x → initHdr pg0 ps h = some x := by
    intro x hx
    simp only [initPageHeader, Option.bind_eq_bind, Option.bind_eq_some_iff] at hx
    obtain ⟨n, hn, hx⟩ := hx
    have e := u32_some hn
    simp only [initHdr, hdrSpace, Nat.mod_eq_of_lt (show vsz ps + h < 4294967296 by omega), Option.bind_eq_bind]
    rw [← hx, show n = vsz ps + h by omega]
  have hmin : ∀ m, Api.minPageSize h d 1 = some m → Api.minPageSizeW h d 1 = m := fun m => C85_minimum_agrees
  unfold Api.initPage at hi
  unfold Api.minPageSize Api.minPageSizeW at hmin
  unfold Api.initPageW
  split <;> rename_i hv <;> simp only [hv, if_true, if_false, Bool.false_eq_true] at hi hmin
  · simp only [Slotted.init, Option.bind_eq_bind] at hi
    cases hm : Slotted.minPageSize h d 1 with
    | none => rw [hm] at hi; cases hi
    | some m =>
    rw [hm, Option.bind_some] at hi
    simp only [Slotted.initW, hmin m hm]
    by_cases c : ps < m
    · rw [if_pos c] at hi ⊢; exact hi
    rw [if_neg c] at hi ⊢
    cases hh : initPageHeader pg0 ps h with
    | none => rw [hh] at hi; cases hi
    | some x =>
      rw [hh] at hi
      rw [hdr x hh]
      exact hi
  · simp only [Fixed.init, Option.bind_eq_bind] at hi
    cases hm : Fixed.minPageSize h d 1 with
    | none => rw [hm] at hi; cases hi
    | some m =>
    rw [hm, Option.bind_some] at hi
    simp only [Fixed.initW, hmin m hm]
    by_cases c : ps < m
    · rw [if_pos c] at hi ⊢; exact hi
    rw [if_neg c] at hi ⊢
    cases hh : initPageHeader pg0 ps h with
    | none => rw [hh] at hi; cases hi
    | some x =>
      rw [hh] at hi
      rw [hdr x hh]
      exact hi

/-- Both pages of 300 bytes, and a page that is refused. -/
example : ((Api.initPageW (List.replicate 300 7) 300 100 exVar).map (·.2) = some true ∧
    (Api.initPageW (List.replicate 300 7) 300 100 exFix).map (·.2) = some true ∧
    (Api.initPageW (List.replicate 300 7) 300 290 exVar).map (·.2) = some false) := by decide +kernel

/-- C85. Where no sum wraps, `init_page` writes outside of the page on slotted pages of 257, 258 or 65537 bytes only: their size is
enough for the width of the values of a page that is a little smaller. -/
theorem C85_outside {pg0 : Bytes} (hl : pg0.length = ps) (h0 : 0 < ps) (hps : ps < 4294967296) (hsz : 1 ≤ d.size)
    (hw : h + d.size + 24 < 4294967296) (hi : Api.initPageW pg0 ps h d = none) :
    d.isVar = true ∧ (ps = 257 ∨ ps = 258 ∨ ps = 65537) := by
  have key := C85_init (d := d) hl h0 hps (show h < 4294967296 by omega) hsz
  by_cases c1 : ps < Api.minPageSizeW h d 1 ∨ canHdrFit h ps = false
  · rw [if_pos c1, hi] at key; cases key
  rw [if_neg c1] at key
  by_cases c2 : metaEnd ps h d ≤ ps
  · rw [if_pos c2] at key
    obtain ⟨pg, e, -⟩ := key
    rw [hi] at e; cases e
  have c3 : Api.minPageSizeW h d 1 ≤ ps := by omega
  rw [minW_chain] at c3
  clear key
  have kp : (ps ≤ 256 ∧ vsz ps = 1) ∨ (256 < ps ∧ ps ≤ 65536 ∧ vsz ps = 2) ∨
      (65536 < ps ∧ ps ≤ 16777216 ∧ vsz ps = 3) ∨ (16777216 < ps ∧ vsz ps = 4) := by
    by_cases c1 : ps ≤ 256
    · exact Or.inl ⟨c1, vsz_eq_one c1⟩
    by_cases c2 : ps ≤ 65536
    · exact Or.inr (Or.inl ⟨by omega, c2, vsz_eq_two (by omega) c2⟩)
    by_cases c3 : ps ≤ 16777216
    · exact Or.inr (Or.inr (Or.inl ⟨by omega, c3, vsz_eq_three (by omega) c3⟩))
    · exact Or.inr (Or.inr (Or.inr ⟨by omega, vsz_eq_four (by omega)⟩))
  unfold metaEnd at c2
  cases hv : d.isVar with
  | true =>
    simp only [need, hv, if_true] at c3 c2
    refine ⟨rfl, ?_⟩
    rw [Nat.mod_eq_of_lt (by omega), Nat.mod_eq_of_lt (by omega), Nat.mod_eq_of_lt (by omega), Nat.mod_eq_of_lt (by omega)] at c3
    rcases kp with ⟨_, e⟩ | ⟨_, _, e⟩ | ⟨_, _, e⟩ | ⟨_, e⟩ <;> rw [e] at c2 <;> split at c3 <;> (try split at c3) <;> (try split at c3) <;> omega
  | false =>
    exfalso
    simp only [need, hv, Bool.false_eq_true, if_false, bitmapBytes] at c3 c2
    rw [Nat.mod_eq_of_lt (by omega), Nat.mod_eq_of_lt (by omega), Nat.mod_eq_of_lt (by omega), Nat.mod_eq_of_lt (by omega)] at c3
    rcases kp with ⟨_, e⟩ | ⟨_, _, e⟩ | ⟨_, _, e⟩ | ⟨_, e⟩ <;> rw [e] at c2 <;> split at c3 <;> (try split at c3) <;> (try split at c3) <;> omega

/-- Tuples of at least one byte, on slotted pages. -/
def exOne : SizeDef := ⟨true, 1, 100, true, false, false, false, 0⟩

/-- The three page sizes do occur, and so does a header size that wraps; none of the four pages is refused. -/
theorem C85_outside_occurs :
    (∀ pg0 : Bytes, pg0.length = 257 → Api.initPageW pg0 257 249 exOne = none) ∧
    (∀ pg0 : Bytes, pg0.length = 258 → Api.initPageW pg0 258 249 exOne = none) ∧
    (∀ pg0 : Bytes, pg0.length = 65537 → Api.initPageW pg0 65537 65523 exOne = none) ∧
    (∀ pg0 : Bytes, pg0.length = 4096 → Api.initPageW pg0 4096 4294967295 exOne = none) := by
  have key : ∀ {ps h : Nat}, 0 < ps → ps < 4294967296 → h < 4294967296 → ¬ (ps < Api.minPageSizeW h exOne 1 ∨ canHdrFit h ps = false) →
      ¬ metaEnd ps h exOne ≤ ps → ∀ pg0 : Bytes, pg0.length = ps → Api.initPageW pg0 ps h exOne = none := by
    intro ps h a1 a2 a3 a4 a5 pg0 hl
    have := C85_init (d := exOne) hl a1 a2 a3 (by decide)
    rwa [if_neg a4, if_neg a5] at this
  exact ⟨key (by decide) (by decide) (by decide) (by decide +kernel) (by decide +kernel),
    key (by decide) (by decide) (by decide) (by decide +kernel) (by decide +kernel),
    key (by decide) (by decide) (by decide) (by decide +kernel) (by decide +kernel),
    key (by decide) (by decide) (by decide) (by decide +kernel) (by decide +kernel)⟩

/-- C85. A header of at most the page size less 20 bytes (the README allows the page size less 32) keeps `init_page` inside of the page,
whatever the page size and the definition. -/
theorem C85_inside {pg0 : Bytes} (hl : pg0.length = ps) (hps : ps < 4294967296) (hsz : 1 ≤ d.size) (hh : h + 20 ≤ ps) :
    ∃ r, Api.initPageW pg0 ps h d = some r := by
  have key := C85_init (d := d) hl (by omega) hps (show h < 4294967296 by omega) hsz
  by_cases c1 : ps < Api.minPageSizeW h d 1 ∨ canHdrFit h ps = false
  · rw [if_pos c1] at key; exact ⟨_, key⟩
  rw [if_neg c1, if_pos ?_] at key
  · obtain ⟨pg, e, -⟩ := key; exact ⟨_, e⟩
  · unfold metaEnd
    have := vsz_le ps
    split <;> omega

example : (List.replicate 257 (7 : UInt8)).length = 257 ∧ 237 + 20 ≤ 257 ∧ 1 ≤ exOne.size := by decide +kernel

theorem subW_le {a b : Nat} (ha : a < 4294967296) (hb : b ≤ a) : subW a b = a - b := by
  unfold subW
  rw [Nat.mod_eq_of_lt (show b < 4294967296 by omega), show a + (4294967296 - b) = a - b + 4294967296 by omega,
    Nat.add_mod_right, Nat.mod_eq_of_lt (by omega)]

theorem subW_gt {a b : Nat} (hb : b < 4294967296) (ha : a < b) : subW a b = a + 4294967296 - b := by
  unfold subW
  rw [Nat.mod_eq_of_lt hb, Nat.mod_eq_of_lt (by omega)]
  omega

/-- C85. `get_maximum_tuple_size_accomodatable_on_page` is what is left on the page of the room for tuples after the overhead of one; but
if the header does not leave room for the counters (on a fixed array page: and one byte more), the result has wrapped around and is larger
than the page. -/
theorem C85_largest (hps : ps ≤ 2147483520) (hh : h ≤ 2147483520) :
    (metaEnd ps h d + (if d.isVar then 0 else 1) ≤ ps →
      Api.maxTupleSizeW h ps d = ps - metaEnd ps h d - (if d.isVar then vsz ps else 1)) ∧
    (ps < metaEnd ps h d + (if d.isVar then 0 else 1) → ps < Api.maxTupleSizeW h ps d) := by
  have hv4 := vsz_le ps
  have hv1 := vsz_pos ps
  unfold metaEnd Api.maxTupleSizeW Api.slotted
  cases hv : d.isVar with
  | true =>
    simp only [if_true]
    unfold Slotted.maxTupleSizeW Slotted.overhead
    generalize hx : Slotted.spaceToBeAllottedW h ps = x
    unfold Slotted.spaceToBeAllottedW at hx
    refine ⟨fun c => ?_, fun c => ?_⟩
    · rw [subW_le (by omega) (by omega)] at hx
      by_cases g : x > vsz ps
      · rw [if_pos g, subW_le (by omega) (by omega)]; omega
      · rw [if_neg g]; omega
    · rw [subW_gt (by omega) (by omega)] at hx
      rw [if_pos (by omega), subW_le (by omega) (by omega)]; omega
  | false =>
    simp only [Bool.false_eq_true, if_false]
    unfold Fixed.maxTupleSizeW
    generalize hx : Fixed.spacePlusBitsW h ps = x
    unfold Fixed.spacePlusBitsW at hx
    refine ⟨fun c => ?_, fun c => ?_⟩
    · rw [subW_le (by omega) (by omega)] at hx
      rw [subW_le (by omega) (by omega)]; omega
    · by_cases g : ps < vsz ps + h + vsz ps * 2
      · rw [subW_gt (by omega) (by omega)] at hx
        rw [subW_le (by omega) (by omega)]; omega
      · rw [subW_le (by omega) (by omega)] at hx
        rw [subW_gt (by omega) (by omega)]; omega

/-- C85. The same for `get_maximum_tuple_count_on_page`: where the counters do not fit on the page, room for at least one tuple is announced. -/
theorem C85_count (hps : ps ≤ 2147483520) (hh : h ≤ 2147483520) (hsz : 1 ≤ d.size) (hs : d.size ≤ 2147483520) :
    (metaEnd ps h d ≤ ps → Api.maxTupleCountW h ps d =
      some (if d.isVar then (ps - metaEnd ps h d) / (d.size + vsz ps) else (ps - metaEnd ps h d) * 8 / (d.size * 8 + 1))) ∧
    (ps < metaEnd ps h d → ∃ n, Api.maxTupleCountW h ps d = some n ∧ 1 ≤ n) := by
  have hv4 := vsz_le ps
  have hv1 := vsz_pos ps
  unfold metaEnd Api.maxTupleCountW Api.slotted
  cases hv : d.isVar with
  | true =>
    simp only [if_true, Slotted.maxTupleCountW, Slotted.spaceToBeAllottedW, subW, Slotted.overhead, minTupleSize]
    simp only [Nat.mod_eq_of_lt (show d.size + vsz ps < 4294967296 by omega), show ¬ d.size + vsz ps = 0 by omega, if_false]
    refine ⟨fun c => ?_, fun c => ⟨_, rfl, ?_⟩⟩
    · congr 2; omega
    · rw [Nat.le_div_iff_mul_le (by omega)]; omega
  | false =>
    simp only [Bool.false_eq_true, if_false, Fixed.maxTupleCountW, Fixed.spacePlusBitsW, subW]
    have q : ∀ x, x < 4294967296 → x * 8 / (d.size * 8 + 1) % 4294967296 = x * 8 / (d.size * 8 + 1) := by
      intro x hx
      refine Nat.mod_eq_of_lt (Nat.lt_of_le_of_lt (m := x * 8 / 8) ?_ (by omega))
      exact Nat.div_le_div_left (by omega) (by omega)
    rw [q _ (Nat.mod_lt _ (by decide))]
    refine ⟨fun c => ?_, fun c => ⟨_, rfl, ?_⟩⟩
    · congr 2; omega
    · rw [Nat.le_div_iff_mul_le (by omega)]; omega

/-- A page of 300 bytes with a header of 100 and with one of 295 bytes. -/
example : metaEnd 300 100 exVar ≤ 300 ∧ Api.maxTupleSizeW 100 300 exVar = 188 ∧ Api.maxTupleCountW 100 300 exVar = some 47 ∧
    300 < metaEnd 300 295 exVar ∧ Api.maxTupleSizeW 295 300 exVar = 4294967289 ∧ Api.maxTupleCountW 295 300 exVar = some 1073741822 ∧
    metaEnd 300 294 exFix = 300 ∧ Api.maxTupleSizeW 294 300 exFix = 4294967295 ∧ Api.maxTupleCountW 294 300 exFix = some 0 := by decide +kernel

end Props
end TS
