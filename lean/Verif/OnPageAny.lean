import Verif.OnPageRep
/-
The same for pointers to any place of the page that is clear of the counters, the slots and the
bitmap: a tuple lying in the page header or in the free space.
-/
namespace TS

/-- The first function that can fail may be replaced by another that agrees on its results. -/
theorem bind_agree {α β : Type} {m : Option α} {f g : α → Option β}
    (hfg : ∀ x, m = some x → f x = g x) : m.bind f = m.bind g := by
  cases m with
  | none => rfl
  | some x => exact hfg x rfl

/-- The `t.length` bytes at `q` are `t`, clear of the metadata words `0 … K-1`. -/
structure Src (ps h K : Nat) (pg : Bytes) (q : Nat) (t : Bytes) : Prop where
  base : Base ps h K pg
  rd : TS.rd pg q t.length = t
  le : q + t.length ≤ ps
  clear : wAddr ps h K ≤ q ∨ q + t.length ≤ wAddr ps h 0

namespace Src

variable {ps h K : Nat} {d : SizeDef} {pg : Bytes} {q : Nat} {t : Bytes}

theorem setWord (s : Src ps h K pg q t) {k : Nat} (hk : k < K) (v : Nat) :
    Src ps h K (setWord ps h pg k v) q t := by
  refine ⟨s.base.setWord k v, ?_, s.le, s.clear⟩
  rw [rd_setWord pg k v, s.rd]
  rcases s.clear with hc | hc
  · exact .inr (Nat.le_trans (wAddr_mono ps h hk) hc)
  · exact .inl (Nat.le_trans hc (wAddr_mono ps h (Nat.zero_le k)))

theorem store (s : Src ps h K pg q t) {k : Nat} (hk : k < K) {v : Nat} {pg' : Bytes}
    (hs : storeVal pg ps (wAddr ps h k) v = some pg') : Src ps h K pg' q t := by
  rw [storeVal_word s.base hk, Option.some.injEq] at hs
  exact hs ▸ s.setWord hk v

theorem holds (s : Src ps h K pg q t) : HoldsAt pg q t :=
  ⟨by rw [s.base.len]; exact s.le, s.rd⟩

end Src

namespace Slotted

variable {ps h K : Nat} {d : SizeDef} {pg : Bytes} {q : Nat} {t : Bytes}

theorem allocate_src (s : Src ps h K pg q t) (hK : 4 ≤ K) {sz o : Nat} {pg' : Bytes}
    (ha : allocate pg ps sz = some (pg', o)) : Src ps h K pg' q t := by
  simp only [allocate, Option.bind_eq_bind, Option.bind_eq_some_iff, Option.pure_def] at ha
  obtain ⟨f, -, ha⟩ := ha
  split at ha
  · simp only [Option.some.injEq, Prod.mk.injEq] at ha
    exact ha.1 ▸ s
  · simp only [Option.bind_eq_some_iff] at ha
    obtain ⟨-, -, e, -, w, hw, p, hp, ha⟩ := ha
    rw [offEofs_eq s.base hK, Option.some.injEq] at hw
    subst hw
    simp only [Option.some.injEq, Prod.mk.injEq] at ha
    exact ha.1 ▸ s.store (by omega) hp

/-- Appending the tuple at `q` of the page itself is appending a copy of it. -/
theorem appendAny_eq (s : Src ps h (5 + n) pg q t) (hw : WellFormed d t)
    (hn : word ps h pg 1 = n) : appendAt pg ps d (some (.on q)) = append pg ps d (some t) := by
  have hn5 := lt_wAddr ps h (5 + n)
  have hfit := s.base.fits
  have hlt := s.base.lt
  have hpow := le_pow_vsz s.base.lt
  simp only [appendAt, append, canAppendAt_eq s.holds hw, Option.bind_eq_bind,
    offCount_eq s.base (show 4 ≤ 5 + n by omega), Option.bind_some,
    loadVal_word s.base (show 1 < 5 + n by omega), hn, u32_eq (show n + 1 < 4294967296 by omega),
    storeVal_word s.base (show 1 < 5 + n by omega)]
  refine bind_agree fun c _ => ?_
  split
  · rfl
  have s1 := s.setWord (show 1 < 5 + n by omega) (n + 1)
  simp only [offIth_eq s1.base (show 4 ≤ 5 + n by omega) (show 4 + (n + 1 - 1) ≤ 5 + n by omega),
    Option.bind_some, s1.holds.size hw, hw.size, Option.bind_assoc, Option.pure_def]
  refine bind_agree fun sp _ => ?_
  refine bind_agree fun ⟨p1, o⟩ h1 => ?_
  have s2 := allocate_src s1 (by omega) h1
  refine bind_agree fun p2 h2 => ?_
  have s3 := s2.store (by omega) h2
  rw [s3.holds.load, load_all]

theorem updatePlaceAny_eq (s : Src ps h K pg q t) (hw : WellFormed d t) {i old : Nat} {f : Bool}
    (hi : 4 + i < K) : updatePlaceAt pg ps d (wAddr ps h (4 + i)) old f (.on q) =
      updatePlace pg ps d (wAddr ps h (4 + i)) old f t := by
  simp only [updatePlaceAt, updatePlace, Option.bind_eq_bind, s.holds.size hw, hw.size, Option.bind_some,
    load_all]
  split
  · refine bind_agree fun ⟨p1, o⟩ h1 => ?_
    have s1 := allocate_src s (by omega) h1
    refine bind_agree fun p2 h2 => ?_
    have s2 := s1.store hi h2
    rw [s2.holds.load]
    rfl
  · refine bind_agree fun ⟨p1, o⟩ h1 => ?_
    simp only [Option.pure_def, Option.some.injEq, Prod.mk.injEq] at h1
    obtain ⟨rfl, rfl⟩ := h1
    refine bind_agree fun p2 h2 => ?_
    have s2 := s.store hi h2
    rw [s2.holds.load]
    rfl

theorem recomputeEnd_src (s : Src ps h K pg q t) (hK : 4 ≤ K) {pg' : Bytes}
    (hr : recomputeEnd pg ps = some pg') : Src ps h K pg' q t := by
  simp only [recomputeEnd, Option.bind_eq_bind, Option.bind_eq_some_iff,
    offEofs_eq s.base hK, Option.some.injEq] at hr
  obtain ⟨-, -, e, -, w, rfl, hr⟩ := hr
  exact s.store (by omega) hr

theorem updateDiscard_src (s : Src ps h K pg q t) {i old : Nat} (hi : 4 + i < K) {pg' : Bytes}
    (hu : updateDiscard pg ps d (wAddr ps h (4 + i)) old = some pg') : Src ps h K pg' q t := by
  simp only [updateDiscard, Option.bind_eq_bind, storeVal_word s.base hi, Option.bind_some] at hu
  have s1 := s.setWord hi 0
  simp only [offOcc_eq s1.base, Option.bind_some,
    storeVal_word s1.base (show 0 < K by omega), Option.bind_eq_some_iff] at hu
  obtain ⟨-, -, -, -, v, -, e, -, hu⟩ := hu
  have s2 := s1.setWord (show 0 < K by omega) v
  split at hu
  · exact recomputeEnd_src s2 (by omega) hu
  · simp only [Option.pure_def, Option.some.injEq] at hu
    exact hu ▸ s2

/-- Updating with the tuple at `q` of the page itself is updating with a copy of it. -/
theorem updateAny_eq (s : Src ps h (4 + n) pg q t) (hw : WellFormed d t)
    (hn : word ps h pg 1 = n) (i : Nat) :
    updateAt pg ps d i (some (.on q)) = update pg ps d i (some t) := by
  by_cases hi : i < n
  · simp only [updateAt, update, canUpdateAt_eq s.holds hw, Option.bind_eq_bind,
      offIth_eq s.base (show 4 ≤ 4 + n by omega) (show 4 + i ≤ 4 + n by omega), Option.bind_some,
      loadVal_word s.base (show 4 + i < 4 + n by omega)]
    refine bind_agree fun c _ => ?_
    split
    · rfl
    split
    · rw [updatePlaceAny_eq s hw (by omega)]
    · rw [s.holds.size hw, hw.size]
      refine bind_agree fun _ _ => ?_
      simp only [Option.bind_some]
      refine bind_agree fun _ _ => ?_
      refine bind_agree fun p hp => ?_
      rw [updatePlaceAny_eq (updateDiscard_src s (by omega) hp) hw (by omega)]
  · simp only [updateAt, update, canUpdateAt, canUpdate, Option.bind_eq_bind, tupleCount_eq s.base (show 4 ≤ 4 + n by omega),
      Option.bind_some, hn]
    rw [if_pos (by omega), if_pos (by omega)]
    rfl

theorem insertAny_eq {i : Nat} (ha : appendAt pg ps d (some (.on q)) = append pg ps d (some t)) :
    insertAt pg ps d i (some (.on q)) = insert pg ps d i (some t) := by
  simp only [insertAt, insert, ha]

end Slotted

namespace Fixed

variable {ps h : Nat} {d : SizeDef} {pg : Bytes} {q : Nat} {t : Bytes}

/-- The `t.length` bytes at `q` are `t`, clear of the counters and the bitmap. -/
structure Src (ps h : Nat) (d : SizeDef) (pg : Bytes) (q : Nat) (t : Bytes) : Prop where
  base : Base ps h 2 pg
  rd : TS.rd pg q t.length = t
  len : t.length = d.size
  pos : 1 ≤ d.size
  le : q + t.length ≤ ps
  clear : tAddr ps h d 0 ≤ q ∨ q + t.length ≤ wAddr ps h 0

theorem Src.toSrc (s : Src ps h d pg q t) : TS.Src ps h 2 pg q t :=
  ⟨s.base, s.rd, s.le, s.clear.imp (fun hc => Nat.le_trans (bits_le_tAddr 0) hc) id⟩

theorem Src.of (s : Src ps h d pg q t) {pg' : Bytes} (b : Base ps h 2 pg')
    (hr : TS.rd pg' q t.length = TS.rd pg q t.length) : Src ps h d pg' q t :=
  ⟨b, by rw [hr, s.rd], s.len, s.pos, s.le, s.clear⟩

theorem Src.store (s : Src ps h d pg q t) {k : Nat} (hk : k < 2) {v : Nat} {pg' : Bytes}
    (hs : storeVal pg ps (wAddr ps h k) v = some pg') : Src ps h d pg' q t := by
  have := s.toSrc.store hk hs
  exact s.of this.base (by rw [this.rd, s.rd])

theorem Src.withBit (s : Src ps h d pg q t) {i : Nat} (hi : i < cap ps h d) (v : Bool) :
    Src ps h d (withBit pg (wAddr ps h 2) i v) q t := by
  refine s.of (Base.withBit s.base i v) (rd_withBit _ _ ?_)
  have h1 := bit_in hi
  have h2 := wAddr_mono ps h (show 0 ≤ 2 by omega)
  rcases s.clear with hc | hc <;> omega

theorem Src.load (s : Src ps h d pg q t) :
    TS.load ((Ptr.on q).mem pg) 0 d.size = TS.load t 0 d.size := by
  rw [← s.len, s.toSrc.holds.load, Slotted.load_all]

theorem appendAny_eq (s : Src ps h d pg q t) :
    appendAt pg ps d (some (.on q)) = append pg ps d (some t) := by
  by_cases hc : word ps h pg 0 < cap ps h d
  · simp only [appendAt, append, Option.bind_eq_bind, offCount_eq s.base, Option.bind_some,
      loadVal_word s.base (show 0 < 2 by omega)]
    refine bind_agree fun c _ => ?_
    split
    · rfl
    refine bind_agree fun n1 hn1 => ?_
    refine bind_agree fun p1 h1 => ?_
    have s1 := s.store (by omega) h1
    have hn : n1 = word ps h pg 0 + 1 := by
      unfold u32 at hn1; split at hn1 <;> simp at hn1; omega
    subst hn
    rw [offBits_eq s1.base]
    simp only [Option.bind_some, Nat.add_sub_cancel, setBit_eq (Base.bit_lt s1.base hc)]
    have s2 := s1.withBit hc true
    rw [s2.load]
  · simp only [appendAt, append, canAppend, tupleCount, Option.bind_eq_bind, offCount_eq s.base,
      Option.bind_some, loadVal_word s.base (show 0 < 2 by omega), capacity_eq s.base s.pos, hc]
    rfl

theorem updateDiscard_src (s : Src ps h d pg q t) {i : Nat} (hi : i < cap ps h d) {pg' : Bytes}
    (hu : updateDiscard pg ps i = some pg') : Src ps h d pg' q t := by
  simp only [updateDiscard, Option.bind_eq_bind, offBits_eq s.base, Option.bind_some,
    getBit_eq (Base.bit_lt s.base hi), resetBit_eq (Base.bit_lt s.base hi)] at hu
  split at hu
  · have s1 := s.withBit hi false
    simp only [offTomb_eq s1.base, Option.bind_some, Option.bind_eq_some_iff] at hu
    obtain ⟨_, -, _, -, hu⟩ := hu
    exact s1.store (by omega) hu
  · simp at hu; exact hu ▸ s

theorem updatePlaceAny_eq (s : Src ps h d pg q t) {i : Nat} (hi : i < cap ps h d) :
    updatePlaceAt pg ps d i (.on q) = updatePlace pg ps d i t := by
  simp only [updatePlaceAt, updatePlace, Option.bind_eq_bind, offBits_eq s.base, Option.bind_some,
    setBit_eq (Base.bit_lt s.base hi)]
  have s1 := s.withBit hi true
  simp only [offTomb_eq s1.base, Option.bind_some]
  refine bind_agree fun _ _ => ?_
  refine bind_agree fun _ _ => ?_
  refine bind_agree fun _ h1 => ?_
  have s2 := s1.store (by omega) h1
  rw [s2.load]

theorem updateAny_eq (s : Src ps h d pg q t) (hle : word ps h pg 0 ≤ cap ps h d) (i : Nat) :
    updateAt pg ps d i (some (.on q)) = update pg ps d i (some t) := by
  by_cases hi : i < word ps h pg 0
  · simp only [updateAt, update, Option.bind_eq_bind]
    refine bind_agree fun c _ => ?_
    split
    · rfl
    refine bind_agree fun p h1 => ?_
    rw [updatePlaceAny_eq (updateDiscard_src s (by omega) h1) (by omega)]
  · simp only [updateAt, update, canUpdate, tupleCount, Option.bind_eq_bind, offCount_eq s.base,
      Option.bind_some, loadVal_word s.base (show 0 < 2 by omega), hi, decide_false,
      Option.pure_def, Bool.not_false, if_true]

theorem insertAny_eq {i : Nat} (ha : appendAt pg ps d (some (.on q)) = append pg ps d (some t)) :
    insertAt pg ps d i (some (.on q)) = insert pg ps d i (some t) := by
  simp only [insertAt, insert, ha]

end Fixed
end TS
