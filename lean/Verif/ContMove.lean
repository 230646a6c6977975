import Verif.ContRep
/-
Reading elements of a container; moving a variable sized element to the end of it.
-/
namespace TS
namespace Dti

theorem getSize_append {d : Dti} {b r : Bytes} {n : Nat} (h : d.getSize b = some n) :
    d.getSize (b ++ r) = some n := by
  unfold getSize at *
  split
  · rename_i hb; rw [if_pos hb] at h; exact h
  · rename_i hb
    rw [if_neg hb] at h
    split
    · rename_i hv; rw [if_pos hv] at h; exact h
    · rename_i hv
      rw [if_neg hv] at h
      split
      · rename_i hs
        rw [if_pos hs] at h
        cases hl : loadVal b d.hdr.maxSize 0 with
        | none => rw [hl] at h; cases h
        | some x => rw [loadVal_append hl]; rw [hl] at h; exact h
      · rename_i hs
        rw [if_neg hs] at h
        cases hl : loadVal b d.hdr.maxSize d.offCountP with
        | none => rw [hl] at h; cases h
        | some x => rw [loadVal_append hl]; rw [hl] at h; exact h

theorem getSize_at {d : Dti} {m b : Bytes} {o : Nat} (h : d.getSize b = some b.length)
    (hr : rd m o b.length = b) : d.getSize (m.drop o) = some b.length := by
  rw [drop_eq_append (l := b.length), hr]
  exact getSize_append h

section
variable {d : Dti} {m m' : Bytes} {S : Nat} {cs : List Elt} {o : Nat → Nat}

/-- An element is unaffected by changes elsewhere. -/
theorem EltAt.frame {S' fe oi : Nat} {p : PosInfo} {c : Elt} (e : EltAt d m S fe p oi c)
    (hv : p.ty.needsValid = true → bit m' d.offBitmap p.vbit = bit m d.offBitmap p.vbit)
    (hb : p.ty.isBit = true → ∀ x, x < p.ty.hdr.size →
      bit m' d.offBitmap (p.off + x) = bit m d.offBitmap (p.off + x))
    (hf : p.ty.isBit = false → rd m' p.off (slot d.w p.ty) = rd m p.off (slot d.w p.ty))
    (hnb : p.ty.isVar = true → p.ty.isBit = false)
    (hh : ∀ b, c = .var b → oi + b.length ≤ S' ∧ rd m' oi b.length = rd m oi b.length) :
    EltAt d m' S' fe p oi c := by
  have hword : p.ty.isVar = true → d.word m' p.off = d.word m p.off := by
    intro h
    have := hf (hnb h)
    simp only [slot, h, if_true] at this
    unfold word; rw [this]
  cases c with
  | null =>
    rcases e with ⟨h1, h2⟩ | ⟨h1, h2⟩
    · left; exact ⟨h1, by rw [hv h1]; exact h2⟩
    · right; exact ⟨h1, by rw [hword h1]; exact h2⟩
  | bits v =>
    obtain ⟨h1, h2, h3⟩ := e
    refine ⟨h1, fun h => by rw [hv h]; exact h2 h, ?_⟩
    rw [bitsVal_ext _ _ _ (hb h1)]; exact h3
  | fixd b =>
    obtain ⟨h1, h2, h3, h4⟩ := e
    have := hf h1
    simp only [slot, h2, Bool.false_eq_true, if_false] at this
    exact ⟨h1, h2, fun h => by rw [hv h]; exact h3 h, by rw [this]; exact h4⟩
  | var b =>
    obtain ⟨h1, h2, h3, h4, h5, h6, h7⟩ := e
    obtain ⟨g1, g2⟩ := hh b rfl
    exact ⟨h1, by rw [hword h1]; exact h2, h3, g1, by rw [g2]; exact h5, h6, h7⟩

/-- Everything but the elements depends on the prefix only. -/
theorem CRep.congr (h : TyOk d) (hc : d.isCont = true) (r : CRep d m S cs o) (hl : S ≤ m'.length)
    (he : ∀ x, x < S → m'[x]? = m[x]?) : CRep d m' S cs o := by
  have hlay := lay_of h hc r.countOk
  have hfe := fixedEnd_le r
  have hbm := bitmap_le_fixedEnd h hc r.countOk
  have hrd : ∀ a l, a + l ≤ S → rd m' a l = rd m a l := by
    intro a l hal; apply rd_ext; intro i hi; exact he _ (by omega)
  have hw : ∀ a, a + d.w ≤ S → d.word m' a = d.word m a := by
    intro a ha; unfold word; rw [hrd _ _ ha]
  have hbit : ∀ k, k < bitsOf d cs.length → bit m' d.offBitmap k = bit m d.offBitmap k := by
    intro k hk
    apply bit_congr
    apply he
    unfold bitmapBytes at hbm
    omega
  refine ⟨hl, r.mx, r.cntF, ?_, ?_, r.sum, ?_, r.disj⟩
  · intro hv
    rw [hw _ (by simp [offBitmap, hasCountP, hv] at hbm; omega)]; exact r.cntV hv
  · intro hs
    rw [hw _ (by simp [offBitmap, offCountP, hs] at hbm; omega)]; exact r.szP hs
  · intro i c hi
    have hlt : i < cs.length := (List.getElem?_eq_some_iff.mp hi).1
    have hok := posOf_ok h hc r.countOk hlt
    have e := r.elt i c hi
    refine e.frame ?_ ?_ ?_ (isVar_not_bit hok) ?_
    · intro hn; exact hbit _ (hlay.vb i hlt hn)
    · intro hb x hx; exact hbit _ (by have := hlay.bf i hlt hb; omega)
    · intro hb; exact hrd _ _ (by have := hlay.fx i hlt hb; omega)
    · intro b hb; subst hb
      obtain ⟨h1, h2, h3, h4, h5, h6, h7⟩ := e
      exact ⟨h4, hrd _ _ h4⟩

theorem CRep.take (h : TyOk d) (hc : d.isCont = true) (r : CRep d m S cs o) :
    CRep d (m.take S) S cs o := by
  have := r.le
  exact r.congr h hc (by simp; omega) (fun x hx => by rw [List.getElem?_take, if_pos hx])

theorem CRep.of_take (h : TyOk d) (hc : d.isCont = true) (hl : S ≤ m.length)
    (r : CRep d (m.take S) S cs o) : CRep d m S cs o :=
  r.congr h hc hl (fun x hx => by rw [List.getElem?_take, if_pos hx])

/-! ### Reading an element -/

/-- Where the data of an element is. -/
def eltPtr (d : Dti) (p : PosInfo) (o : Nat) : Elt → Option Nat
  | .null => none
  | .bits _ => some d.offBitmap
  | .fixd _ => some p.off
  | .var _ => some o

theorem bit_ok (h : TyOk d) (hc : d.isCont = true) (r : CRep d m S cs o) {k : Nat}
    (hk : k < bitsOf d cs.length) : d.offBitmap + k / 8 < m.length := by
  have hfe := fixedEnd_le r
  have hbm := bitmap_le_fixedEnd h hc r.countOk
  have := r.le
  unfold bitmapBytes at hbm
  omega

theorem slot_ok (h : TyOk d) (hc : d.isCont = true) (r : CRep d m S cs o) {i : Nat} (hi : i < cs.length)
    (hb : (posOf d cs.length i).ty.isBit = false) :
    d.offBitmap + bitmapBytes (bitsOf d cs.length) ≤ (posOf d cs.length i).off ∧
    (posOf d cs.length i).off + slot d.w (posOf d cs.length i).ty ≤ fixedEnd d cs.length ∧
    fixedEnd d cs.length ≤ S ∧ S ≤ m.length := by
  have := (lay_of h hc r.countOk).fx i hi hb
  exact ⟨this.1, this.2, fixedEnd_le r, r.le⟩

theorem elt_word (h : TyOk d) (hc : d.isCont = true) (r : CRep d m S cs o) {i : Nat} (hi : i < cs.length)
    (hv : (posOf d cs.length i).ty.isVar = true) :
    loadVal m d.hdr.maxSize (posOf d cs.length i).off = some (d.word m (posOf d cs.length i).off) := by
  have hok := posOf_ok h hc r.countOk hi
  have := slot_ok h hc r hi (isVar_not_bit hok hv)
  simp only [slot, hv, if_true] at this
  exact word_eq rfl (by omega)

theorem ptrAt_eq (h : TyOk d) (hc : d.isCont = true) (r : CRep d m S cs o) {i : Nat} {c : Elt}
    (hi : cs[i]? = some c) :
    d.ptrAt m (posOf d cs.length i) = some (eltPtr d (posOf d cs.length i) (o i) c) := by
  have hlt : i < cs.length := (List.getElem?_eq_some_iff.mp hi).1
  have hlay := lay_of h hc r.countOk
  have hok := posOf_ok h hc r.countOk hlt
  have e := r.elt i c hi
  unfold ptrAt
  have hbit : ∀ hn : (posOf d cs.length i).ty.needsValid = true,
      getBit m d.offBitmap (posOf d cs.length i).vbit = some (bit m d.offBitmap (posOf d cs.length i).vbit) :=
    fun hn => getBit_eq (bit_ok h hc r (hlay.vb i hlt hn))
  have hw := fun hv => elt_word h hc r hlt hv
  cases c with
  | null =>
    rcases e with ⟨h1, h2⟩ | ⟨h1, h2⟩
    · simp [h1, hbit h1, h2, eltPtr]
    · have hn := not_var_needs h1
      have hb := isVar_not_bit hok h1
      simp [hn, hb, h1, hw h1, h2, eltPtr]
  | bits v =>
    obtain ⟨h1, h2, h3⟩ := e
    cases hn : (posOf d cs.length i).ty.needsValid with
    | true => simp [hbit hn, h2 hn, h1, eltPtr]
    | false => simp [h1, eltPtr]
  | fixd b =>
    obtain ⟨h1, h2, h3, h4⟩ := e
    cases hn : (posOf d cs.length i).ty.needsValid with
    | true => simp [hbit hn, h3 hn, h1, h2, eltPtr]
    | false => simp [h1, h2, eltPtr]
  | var b =>
    obtain ⟨h1, h2, h3, h4, h5, h6, h7⟩ := e
    have hn := not_var_needs h1
    have hb := isVar_not_bit hok h1
    have hs := slot_ok h hc r hlt hb
    simp only [slot, h1, if_true] at hs
    have hwp : 1 ≤ d.w := vsz_pos _
    simp [hn, hb, h1, hw h1, h2, eltPtr]
    omega

theorem elt_size (r : CRep d m S cs o) {i : Nat} {b : Bytes}
    (hi : cs[i]? = some (.var b)) :
    (posOf d cs.length i).ty.getSize (m.drop (o i)) = some b.length := by
  have e := r.elt i _ hi
  obtain ⟨h1, h2, h3, h4, h5, h6, h7⟩ := e
  exact getSize_at h7 h5

/-! ### move_variable_sized_containee_to_end_of_container -/

/-- Memories that differ at most in offset words of elements. -/
structure WordsOnly (d : Dti) (n : Nat) (m m' : Bytes) : Prop where
  len : m'.length = m.length
  same : ∀ x, (∀ j, j < n → (posOf d n j).ty.isVar = true →
    x < (posOf d n j).off ∨ (posOf d n j).off + d.w ≤ x) → m'[x]? = m[x]?

theorem WordsOnly.refl (n : Nat) (m : Bytes) : WordsOnly d n m m := ⟨rfl, fun _ _ => rfl⟩

theorem WordsOnly.trans {n : Nat} {m1 m2 m3 : Bytes} (a : WordsOnly d n m1 m2)
    (b : WordsOnly d n m2 m3) : WordsOnly d n m1 m3 :=
  ⟨by rw [b.len, a.len], fun x hx => by rw [b.same x hx, a.same x hx]⟩

theorem word_wr_other {n : Nat} {bb b0 e : Nat} (hlay : Lay d.w bb b0 e n (posOf d n)) {i j : Nat}
    (hi : i < n) (hj : j < n) (hij : i ≠ j)
    (hvi : (posOf d n i).ty.isVar = true) (hvj : (posOf d n j).ty.isVar = true)
    (hbi : (posOf d n i).ty.isBit = false) (hbj : (posOf d n j).ty.isBit = false) (v : Nat) :
    d.word (wr m (posOf d n i).off (leEnc d.w v)) (posOf d n j).off = d.word m (posOf d n j).off := by
  unfold word
  rw [rd_wr_disj]
  simp only [leEnc_length]
  rcases Nat.lt_or_gt_of_ne hij with hlt | hlt
  · have := (hlay.ord i j hlt hj).ff hbi hbj
    simp only [slot, hvi, if_true] at this
    right; exact this
  · have := (hlay.ord j i hlt hi).ff hbj hbi
    simp only [slot, hvj, if_true] at this
    left; exact this

theorem word_wr_same {a v : Nat} (h : a + d.w ≤ m.length) (hv : v < 256 ^ d.w) :
    d.word (wr m a (leEnc d.w v)) a = v := by
  unfold word
  have := rd_wr_same m a (leEnc d.w v) (by simpa using h)
  rw [leEnc_length] at this
  rw [this, leDec_leEnc, Nat.mod_eq_of_lt hv]

/-- What is needed of the memory to know the positions of the elements. -/
structure Pos (d : Dti) (m : Bytes) (n e : Nat) : Prop where
  pos : ∀ m', m'.length = m.length → (∀ x, x < d.offBitmap → m'[x]? = m[x]?) →
    d.getCount m' = some n ∧ ∀ i, i < n → d.posInfo m' i = some (posOf d n i)
  lay : Lay d.w (bitsOf d n) (d.offBitmap + bitmapBytes (bitsOf d n)) e n (posOf d n)
  ok : ∀ i, i < n → TyOk (posOf d n i).ty
  le : e ≤ m.length

/-- The loop that fixes the offsets. -/
theorem moveLoop {n e : Nat} (idx ob c : Nat) (k : Nat) (hk : k ≤ n) (hp : Pos d m n e)
    (hge : ∀ j, j < n → j ≠ idx → (posOf d n j).ty.isVar = true →
      d.word m (posOf d n j).off > ob → c ≤ d.word m (posOf d n j).off) :
    ∃ m', (List.range k).foldlM (d.moveStep idx ob c) m = some m' ∧ WordsOnly d n m m' ∧
      ∀ j, j < n → (posOf d n j).ty.isVar = true → d.word m' (posOf d n j).off =
        if j < k ∧ j ≠ idx ∧ d.word m (posOf d n j).off > ob then d.word m (posOf d n j).off - c
        else d.word m (posOf d n j).off := by
  induction k with
  | zero => exact ⟨m, rfl, .refl n m, fun j _ _ => by simp⟩
  | succ k ih =>
    obtain ⟨m1, h1, h2, h3⟩ := ih (by omega)
    rw [List.range_succ, List.foldlM_append, h1]
    simp only [Option.bind_eq_bind, Option.bind_some, List.foldlM_cons, List.foldlM_nil]
    have hpre : ∀ x, x < d.offBitmap → m1[x]? = m[x]? := by
      intro x hx
      apply h2.same
      intro j hj hv
      have := (hp.lay.fx j hj (isVar_not_bit (hp.ok j hj) hv)).1
      left; omega
    obtain ⟨hc1, hpi⟩ := hp.pos m1 h2.len hpre
    unfold moveStep
    rw [hpi k (by omega)]
    simp only [Option.bind_eq_bind, Option.bind_some]
    by_cases hcase : k = idx ∨ (posOf d n k).ty.isVar = false
    · rw [if_pos (by rcases hcase with h | h <;> simp [h])]
      refine ⟨m1, rfl, h2, ?_⟩
      intro j hj hv
      rw [h3 j hj hv]
      by_cases hjk : j = k
      · subst hjk
        rcases hcase with h | h
        · subst h; simp
        · rw [hv] at h; cases h
      · have : (j < k + 1 ∧ j ≠ idx ∧ d.word m (posOf d n j).off > ob) ↔
          (j < k ∧ j ≠ idx ∧ d.word m (posOf d n j).off > ob) := by omega
        simp only [this]
    · have hki : k ≠ idx := fun h => hcase (Or.inl h)
      have hkv : (posOf d n k).ty.isVar = true := by
        cases h : (posOf d n k).ty.isVar with
        | true => rfl
        | false => exact absurd (Or.inr h) hcase
      have hkb := isVar_not_bit (hp.ok k (by omega)) hkv
      rw [if_neg (by simp [hki, hkv])]
      have hsl := hp.lay.fx k (by omega) hkb
      simp only [slot, hkv, if_true] at hsl
      have hle := hp.le
      have hlen : (posOf d n k).off + d.w ≤ m1.length := by rw [h2.len]; omega
      rw [word_eq rfl hlen]
      simp only [Option.bind_some]
      have hwk : d.word m1 (posOf d n k).off = d.word m (posOf d n k).off := by
        rw [h3 k (by omega) hkv]; simp
      rw [hwk]
      by_cases hgt : d.word m (posOf d n k).off > ob
      · rw [if_pos hgt]
        have hcle := hge k (by omega) hki hkv hgt
        rw [sub32_eq hcle]
        simp only [Option.bind_some]
        unfold storeVal
        have hww : vsz d.hdr.maxSize = d.w := rfl
        rw [hww, store_eq (by simpa using hlen)]
        simp only [Option.bind_some]
        refine ⟨_, rfl, h2.trans ⟨by simp, ?_⟩, ?_⟩
        · intro x hx
          rw [wr_getElem?, if_neg]
          have := hx k (by omega) hkv
          simp only [leEnc_length]; omega
        · intro j hj hv
          by_cases hjk : j = k
          · subst hjk
            rw [if_pos (by omega), word_wr_same hlen]
            have hlt : d.word m (posOf d n j).off < 256 ^ d.w := by
              unfold word
              have := leDec_lt (rd m (posOf d n j).off d.w)
              rw [rd_length _ _ _ (by rw [h2.len] at hlen; exact hlen)] at this
              exact this
            omega
          · rw [word_wr_other hp.lay (by omega) hj (Ne.symm hjk) hkv hv hkb (isVar_not_bit (hp.ok j hj) hv),
              h3 j hj hv]
            have : (j < k + 1 ∧ j ≠ idx ∧ d.word m (posOf d n j).off > ob) ↔
              (j < k ∧ j ≠ idx ∧ d.word m (posOf d n j).off > ob) := by omega
            simp only [this]
      · rw [if_neg hgt]
        refine ⟨m1, rfl, h2, ?_⟩
        intro j hj hv
        rw [h3 j hj hv]
        by_cases hjk : j = k
        · subst hjk; simp [hgt]
        · have : (j < k + 1 ∧ j ≠ idx ∧ d.word m (posOf d n j).off > ob) ↔
            (j < k ∧ j ≠ idx ∧ d.word m (posOf d n j).off > ob) := by omega
          simp only [this]

theorem posInfo_congr {i : Nat} (h : d.getCount m' = d.getCount m) : d.posInfo m' i = d.posInfo m i := by
  cases d with
  | prim => rfl
  | tup => rfl
  | str => rfl
  | arr hh c => simp only [posInfo, bitmapBits, h]

theorem getCount_congr (hl : m'.length = m.length) (he : ∀ x, x < d.offBitmap → m'[x]? = m[x]?) :
    d.getCount m' = d.getCount m := by
  unfold getCount
  split
  · rfl
  · split
    · rfl
    · rename_i hv
      have hv : d.isVarCount = true := by simpa using hv
      unfold loadVal load
      have hww : vsz d.hdr.maxSize = d.w := rfl
      rw [hl, hww]
      split
      · have : rd m' d.offCountP d.w = rd m d.offCountP d.w := by
          apply rd_ext
          intro i hi
          apply he
          simp [offBitmap, hasCountP, hv]; omega
        rw [this]
      · rfl

theorem pos_of (h : TyOk d) (hc : d.isCont = true) (r : CRep d m S cs o) :
    Pos d m cs.length (fixedEnd d cs.length) := by
  have hfe := fixedEnd_le r
  have hle := r.le
  refine ⟨?_, lay_of h hc r.countOk, fun i hi => posOf_ok h hc r.countOk hi, by omega⟩
  intro m' hl he
  have hcnt := getCount_congr hl he
  refine ⟨by rw [hcnt]; exact getCount_eq h hc r, ?_⟩
  intro i hi
  rw [posInfo_congr hcnt]
  exact posInfo_eq h hc r hi

/-- Where the elements other than `i` are after element `i` was moved to the end: those behind it are
moved down by its size. -/
def Shift (cs : List Elt) (i : Nat) (c : Elt) (o o' : Nat → Nat) : Prop :=
  ∀ j b, j ≠ i → cs[j]? = some (.var b) → o' j = if o i < o j then o j - c.hlen else o j

/-- Moving an element to the end keeps all elements and the size, changes nothing behind the
container, puts the element at the end and those behind it one size lower. -/
theorem moveEnd_at (h : TyOk d) (hc : d.isCont = true) (r : CRep d m S cs o) {i : Nat} {b : Bytes}
    (hi : cs[i]? = some (.var b)) :
    ∃ m' q o', d.moveEnd m i (posOf d cs.length i) = some (m', q) ∧ CRep d m' S cs o' ∧
      o' i + b.length = S ∧ m'.length = m.length ∧ (∀ x, S ≤ x → m'[x]? = m[x]?) ∧ Shift cs i (.var b) o o' := by
  have hlt : i < cs.length := (List.getElem?_eq_some_iff.mp hi).1
  have e := r.elt i _ hi
  obtain ⟨h1, h2, h3, h4, h5, h6, h7⟩ := e
  have hlim := r.lt_lim h hc
  unfold lim at hlim
  have hle := r.le
  have hptr := ptrAt_eq h hc r hi
  unfold moveEnd
  simp only [h1, Bool.not_true, Bool.false_eq_true, if_false, hptr, eltPtr, Option.bind_eq_bind,
    Option.bind_some]
  rw [elt_size r hi, getSize_eq h hc r]
  simp only [Option.bind_some]
  rw [u32_eq (by omega)]
  simp only [Option.bind_some]
  by_cases hend : o i + b.length = S
  · rw [if_pos hend]
    refine ⟨m, false, o, rfl, r, hend, rfl, fun _ _ => rfl, fun j a hj ha => ?_⟩
    have k1 := (r.elt j _ ha).2.2.2
    have k2 := r.disj j i a b hj ha hi
    rw [if_neg (by omega)]
  rw [if_neg hend, sub32_eq (by omega)]
  simp only [Option.bind_some]
  obtain ⟨m1, q1, q2, q3, q4, q5⟩ := rotLeft_spec (m := m) (off := o i) (len := S - o i) (rot := b.length)
    (by omega) (by omega)
  rw [q1]
  simp only [Option.bind_some]
  have hpos := pos_of h hc r
  have hlay := hpos.lay
  have hbm := bitmap_le_fixedEnd h hc r.countOk
  have hlow : ∀ x, x < fixedEnd d cs.length → m1[x]? = m[x]? := by
    intro x hx
    have hh := congrArg (fun l => l[0]?) (q3 x 1 (by omega))
    simpa [rd_getElem?] using hh
  have hhigh : ∀ x, S ≤ x → m1[x]? = m[x]? := by
    intro x hx
    have hh := congrArg (fun l => l[0]?) (q3 x 1 (by omega))
    simpa [rd_getElem?] using hh
  have hlowrd : ∀ a l, a + l ≤ fixedEnd d cs.length → rd m1 a l = rd m a l := by
    intro a l ha; exact q3 a l (by omega)
  obtain ⟨hcnt1, hpi1⟩ := hpos.pos m1 q2 (fun x hx => hlow x (by omega))
  rw [hcnt1]
  simp only [Option.bind_some]
  have hpos1 : Pos d m1 cs.length (fixedEnd d cs.length) := by
    refine ⟨?_, hlay, hpos.ok, by rw [q2]; exact hpos.le⟩
    intro m' hl he
    exact hpos.pos m' (by rw [hl, q2]) (fun x hx => by rw [he x hx]; exact hlow x (by omega))
  have hw1 : ∀ j, j < cs.length → (posOf d cs.length j).ty.isVar = true →
      d.word m1 (posOf d cs.length j).off = d.word m (posOf d cs.length j).off := by
    intro j hj hv
    have := (hlay.fx j hj (isVar_not_bit (hpos.ok j hj) hv)).2
    simp only [slot, hv, if_true] at this
    unfold word; rw [hlowrd _ _ this]
  have hvs := var_hasSize h hc r.countOk hlt h1
  have hmax := (h.maxSize hvs.2)
  have hmS := r.mx hvs.2
  have hpow : d.hdr.maxSize ≤ 256 ^ d.w := le_pow_vsz (by have := hmax.2; unfold lim at this; omega)
  -- offsets of the others
  have hothers : ∀ j a, j ≠ i → cs[j]? = some (.var a) → o j + a.length ≤ o i ∨ o i + b.length ≤ o j :=
    fun j a hj ha => r.disj j i a b hj ha hi
  have hwj : ∀ j c, cs[j]? = some c → (posOf d cs.length j).ty.isVar = true →
      c = .null ∧ d.word m (posOf d cs.length j).off = 0 ∨
      ∃ a, c = .var a ∧ d.word m (posOf d cs.length j).off = o j := by
    intro j c hj hv
    have ej := r.elt j c hj
    have hjl : j < cs.length := (List.getElem?_eq_some_iff.mp hj).1
    cases c with
    | null =>
      rcases ej with ⟨g1, g2⟩ | ⟨g1, g2⟩
      · rw [not_var_needs hv] at g1; cases g1
      · left; exact ⟨rfl, g2⟩
    | bits v => obtain ⟨g1, g2⟩ := ej; rw [isVar_not_bit (hpos.ok j hjl) hv] at g1; cases g1
    | fixd x => obtain ⟨g1, g2, g3⟩ := ej; rw [hv] at g2; cases g2
    | var a => right; exact ⟨a, rfl, ej.2.1⟩
  obtain ⟨m2, f1, f2, f3⟩ := moveLoop (d := d) (m := m1) i (o i) b.length cs.length (Nat.le_refl _) hpos1
    (by
      intro j hj hji hv hgt
      rw [hw1 j hj hv] at hgt ⊢
      have hjs := List.getElem?_eq_getElem hj
      rcases hwj j _ hjs hv with ⟨_, g⟩ | ⟨a, g1, g2⟩
      · rw [g] at hgt; omega
      · rw [g1] at hjs
        rw [g2] at hgt ⊢
        have := hothers j a hji hjs
        omega)
  rw [f1]
  simp only [Option.bind_some]
  rw [sub32_eq (by omega)]
  simp only [Option.bind_some]
  have hbi := isVar_not_bit (hpos.ok i hlt) h1
  have hsi := hlay.fx i hlt hbi
  simp only [slot, h1, if_true] at hsi
  have hfe := fixedEnd_le r
  have hlen2 : m2.length = m.length := by rw [f2.len, q2]
  unfold storeVal
  have hww : vsz d.hdr.maxSize = d.w := rfl
  rw [hww, store_eq (by simp; omega)]
  simp only [Option.bind_some]
  -- the final memory
  generalize hm3 : wr m2 (posOf d cs.length i).off (leEnc d.w (S - b.length)) = m3
  have hlen3 : m3.length = m.length := by rw [← hm3]; simp [hlen2]
  -- bytes outside of the words
  have hsame : ∀ x, (∀ j, j < cs.length → (posOf d cs.length j).ty.isVar = true →
      x < (posOf d cs.length j).off ∨ (posOf d cs.length j).off + d.w ≤ x) → m3[x]? = m1[x]? := by
    intro x hx
    rw [← hm3, wr_getElem?, if_neg (by have := hx i hlt h1; simp only [leEnc_length]; omega)]
    exact f2.same x hx
  have hheap : ∀ x, fixedEnd d cs.length ≤ x → m3[x]? = m1[x]? := by
    intro x hx
    apply hsame
    intro j hj hv
    have := (hlay.fx j hj (isVar_not_bit (hpos.ok j hj) hv)).2
    simp only [slot, hv, if_true] at this
    right; omega
  have hheaprd : ∀ a l, fixedEnd d cs.length ≤ a → rd m3 a l = rd m1 a l := by
    intro a l ha; apply rd_ext; intro x hx; exact hheap _ (by omega)
  have hpre : ∀ x, x < d.offBitmap + bitmapBytes (bitsOf d cs.length) → m3[x]? = m[x]? := by
    intro x hx
    rw [hsame, hlow x (by omega)]
    intro j hj hv
    have := (hlay.fx j hj (isVar_not_bit (hpos.ok j hj) hv)).1
    left; omega
  have hwi : d.word m3 (posOf d cs.length i).off = S - b.length := by
    rw [← hm3]
    exact word_wr_same (by rw [hlen2]; omega) (by omega)
  have hwj3 : ∀ j, j < cs.length → j ≠ i → (posOf d cs.length j).ty.isVar = true →
      d.word m3 (posOf d cs.length j).off =
        if d.word m (posOf d cs.length j).off > o i then d.word m (posOf d cs.length j).off - b.length
        else d.word m (posOf d cs.length j).off := by
    intro j hj hji hv
    rw [← hm3, word_wr_other hlay hlt hj (Ne.symm hji) h1 hv hbi (isVar_not_bit (hpos.ok j hj) hv),
      f3 j hj hv, hw1 j hj hv]
    simp [hj, hji]
  refine ⟨m3, true, fun j => if j = i then S - b.length else if o j > o i then o j - b.length else o j,
    rfl, ?_, by simp; omega, hlen3, ?_, fun j a hj _ => by simp only [if_neg hj, Elt.hlen, gt_iff_lt]⟩
  · have hwpre : ∀ a, a + d.w ≤ d.offBitmap → d.word m3 a = d.word m a := by
      intro a ha; unfold word; congr 1; apply rd_ext; intro x hx; exact hpre _ (by omega)
    refine ⟨by omega, r.mx, r.cntF, ?_, ?_, r.sum, ?_, ?_⟩
    · intro hv
      rw [hwpre _ (by simp [offBitmap, hasCountP, hv])]; exact r.cntV hv
    · intro hs
      rw [hwpre _ (by simp [offBitmap, offCountP, hs])]; exact r.szP hs
    · intro j c hj
      have hjl : j < cs.length := (List.getElem?_eq_some_iff.mp hj).1
      have ej := r.elt j c hj
      cases hv : (posOf d cs.length j).ty.isVar with
      | false =>
        have hne : j ≠ i := by intro hh; subst hh; rw [h1] at hv; cases hv
        have hcv : ∀ a, c ≠ .var a := by
          intro a ha; subst ha; have := ej.1; rw [hv] at this; cases this
        have : EltAt d m3 S (fixedEnd d cs.length) (posOf d cs.length j) (o j) c := by
          refine ej.frame ?_ ?_ ?_ (isVar_not_bit (hpos.ok j hjl)) ?_
          · intro hn
            apply bit_congr; apply hpre
            have := hlay.vb j hjl hn
            unfold bitmapBytes; omega
          · intro hb x hx
            apply bit_congr; apply hpre
            have := hlay.bf j hjl hb
            unfold bitmapBytes; omega
          · intro hb
            have hs := hlay.fx j hjl hb
            rw [← hlowrd _ _ hs.2]
            apply rd_ext
            intro x hx
            apply hsame
            intro k hk hkv
            have hkb := isVar_not_bit (hpos.ok k hk) hkv
            have hkj : k ≠ j := by intro hh; subst hh; rw [hv] at hkv; cases hkv
            rcases Nat.lt_or_gt_of_ne hkj with hh | hh
            · have := (hlay.ord k j hh hjl).ff hkb hb
              simp only [slot, hkv, if_true] at this
              right; omega
            · have := (hlay.ord j k hh hk).ff hb hkb
              left; omega
          · intro a ha; exact absurd ha (hcv a)
        cases c with
        | var a => exact absurd rfl (hcv a)
        | null => exact this
        | bits v => exact this
        | fixd x => exact this
      | true =>
        by_cases hji : j = i
        · subst hji
          rw [hi] at hj; cases hj
          simp only [if_true]
          refine ⟨h1, hwi, by omega, by omega, ?_, h6, h7⟩
          rw [hheaprd _ _ (by omega), q5 _ _ (by omega) (by omega)]
          have : S - b.length - (S - o j - b.length) = o j := by omega
          rw [this, h5]
        · simp only [if_neg hji]
          rcases hwj j c hj hv with ⟨g1, g2⟩ | ⟨a, g1, g2⟩
          · subst g1
            right
            refine ⟨hv, ?_⟩
            rw [hwj3 j hjl hji hv, g2]; simp
          · subst g1
            obtain ⟨k1, k2, k3, k4, k5, k6, k7⟩ := ej
            have hd := hothers j a hji hj
            by_cases hgt : o j > o i
            · rw [if_pos hgt]
              refine ⟨hv, by rw [hwj3 j hjl hji hv, g2, if_pos hgt], by omega, by omega, ?_, k6, k7⟩
              rw [hheaprd _ _ (by omega), q4 _ _ (by omega) (by omega),
                show o j - b.length + b.length = o j by omega, k5]
            · rw [if_neg hgt]
              refine ⟨hv, by rw [hwj3 j hjl hji hv, g2, if_neg hgt], k3, k4, ?_, k6, k7⟩
              rw [hheaprd _ _ (by omega), q3 _ _ (by omega), k5]
    · intro j k a a' hjk hj hk
      have hd := r.disj j k a a' hjk hj hk
      have ej := r.elt j _ hj
      have ek := r.elt k _ hk
      obtain ⟨_, _, j3, j4, _, j6, _⟩ := ej
      obtain ⟨_, _, k3, k4, _, k6, _⟩ := ek
      by_cases hji : j = i
      · subst hji
        rw [hi] at hj; cases hj
        have hki : k ≠ j := Ne.symm hjk
        simp only [if_true, if_neg hki]
        split <;> omega
      · have hdj := hothers j a hji hj
        by_cases hki : k = i
        · subst hki
          rw [hi] at hk; cases hk
          simp only [if_true, if_neg hji]
          split <;> omega
        · have hdk := hothers k a' hki hk
          simp only [if_neg hji, if_neg hki]
          split <;> split <;> omega
  · intro x hx
    rw [hheap x (by omega)]
    exact hhigh x hx

theorem moveEnd_ok (h : TyOk d) (hc : d.isCont = true) (r : CRep d m S cs o) {i : Nat} {b : Bytes}
    (hi : cs[i]? = some (.var b)) :
    ∃ m' q o', d.moveEnd m i (posOf d cs.length i) = some (m', q) ∧ CRep d m' S cs o' ∧
      o' i + b.length = S ∧ m'.length = m.length ∧ (∀ x, S ≤ x → m'[x]? = m[x]?) := by
  obtain ⟨m', q, o', h1, h2, h3, h4, h5, _⟩ := moveEnd_at h hc r hi
  exact ⟨m', q, o', h1, h2, h3, h4, h5⟩

end
end Dti
end TS
