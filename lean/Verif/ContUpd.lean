import Verif.ContEnc
/-
Replacing one element of a container.
-/
namespace TS
namespace Dti

section
variable {d : Dti} {m m' : Bytes} {S : Nat} {cs : List Elt} {o : Nat → Nat}

/-- The bits of the prefix bitmap that belong to a position. -/
def Mine (p : PosInfo) (k : Nat) : Prop :=
  (p.ty.needsValid = true ∧ k = p.vbit) ∨
    (p.ty.isBit = true ∧ p.off ≤ k ∧ k < p.off + p.ty.hdr.size)

theorem not_mine {w bb b0 e n : Nat} {pos : Nat → PosInfo} (hlay : Lay w bb b0 e n pos) {i j k : Nat}
    (hi : i < n) (hj : j < n) (hij : j ≠ i) (hk : Mine (pos j) k) : ¬ Mine (pos i) k := by
  rintro (⟨a1, a2⟩ | ⟨a1, a2, a3⟩) <;> rcases hk with ⟨b1, b2⟩ | ⟨b1, b2, b3⟩
  all_goals rcases Nat.lt_or_gt_of_ne hij with hlt | hlt
  · have := (hlay.ord j i hlt hi).vv b1 a1; omega
  · have := (hlay.ord i j hlt hj).vv a1 b1; omega
  · have := (hlay.ord j i hlt hi).bv b1 a1; omega
  · have := (hlay.ord i j hlt hj).vb a1 b1; omega
  · have := (hlay.ord j i hlt hi).vb b1 a1; omega
  · have := (hlay.ord i j hlt hj).bv a1 b1; omega
  · have := (hlay.ord j i hlt hi).bb b1 a1; omega
  · have := (hlay.ord i j hlt hj).bb a1 b1; omega

theorem slot_disj {w bb b0 e n : Nat} {pos : Nat → PosInfo} (hlay : Lay w bb b0 e n pos) {i j : Nat}
    (hi : i < n) (hj : j < n) (hij : j ≠ i) (h1 : (pos i).ty.isBit = false) (h2 : (pos j).ty.isBit = false) :
    (pos i).off + slot w (pos i).ty ≤ (pos j).off ∨ (pos j).off + slot w (pos j).ty ≤ (pos i).off := by
  rcases Nat.lt_or_gt_of_ne hij with hlt | hlt
  · right; exact (hlay.ord j i hlt hi).ff h2 h1
  · left; exact (hlay.ord i j hlt hj).ff h1 h2

/-- Replacing an element that has no bytes behind the fixed part by another such. -/
theorem CRep.updFixed (h : TyOk d) (hc : d.isCont = true) (r : CRep d m S cs o) {i : Nat} {c c' : Elt}
    (hi : cs[i]? = some c) (hz : c.hlen = 0) (hz' : c'.hlen = 0) (hnv' : ∀ b, c' ≠ .var b)
    (hl : m'.length = m.length)
    (hbits : ∀ k, k < bitsOf d cs.length → ¬ Mine (posOf d cs.length i) k →
      bit m' d.offBitmap k = bit m d.offBitmap k)
    (hbytes : ∀ x, x < d.offBitmap ∨ d.offBitmap + bitmapBytes (bitsOf d cs.length) ≤ x →
      ¬ ((posOf d cs.length i).ty.isBit = false ∧ (posOf d cs.length i).off ≤ x ∧
        x < (posOf d cs.length i).off + slot d.w (posOf d cs.length i).ty) → m'[x]? = m[x]?)
    (he : EltAt d m' S (fixedEnd d cs.length) (posOf d cs.length i) (o i) c') :
    CRep d m' S (cs.set i c') o := by
  have hlt : i < cs.length := (List.getElem?_eq_some_iff.mp hi).1
  have hlay := lay_of h hc r.countOk
  have hfe := fixedEnd_le r
  have hbm := bitmap_le_fixedEnd h hc r.countOk
  have hlow : ∀ x, x < d.offBitmap → m'[x]? = m[x]? := by
    intro x hx
    refine hbytes x (Or.inl hx) ?_
    rintro ⟨hb, h1, h2⟩
    have := hlay.fx i hlt hb
    omega
  have hw : ∀ a, a + d.w ≤ d.offBitmap → d.word m' a = d.word m a := by
    intro a ha; unfold word; congr 1; apply rd_ext; intro x hx; exact hlow _ (by omega)
  have hheap : heap (cs.set i c') = heap cs := by
    have := heap_set (c' := c') hi; omega
  refine ⟨by rw [hl]; exact r.le, r.mx, by simpa using r.cntF, ?_, ?_, ?_, ?_, ?_⟩
  · intro hv
    rw [hw _ (by simp [offBitmap, hasCountP, hv]), List.length_set]
    exact r.cntV hv
  · intro hs
    rw [hw _ (by simp [offBitmap, offCountP, hs])]
    exact r.szP hs
  · rw [List.length_set, hheap]; exact r.sum
  · intro j c2 hj
    rw [List.length_set]
    rw [List.getElem?_set] at hj
    by_cases hij : i = j
    · subst hij
      rw [if_pos rfl, if_pos hlt] at hj
      cases hj; exact he
    · rw [if_neg hij] at hj
      have hjl : j < cs.length := (List.getElem?_eq_some_iff.mp hj).1
      have hok := posOf_ok h hc r.countOk hjl
      have ej := r.elt j c2 hj
      refine ej.frame ?_ ?_ ?_ (isVar_not_bit hok) ?_
      · intro hn
        exact hbits _ (hlay.vb j hjl hn) (not_mine hlay hlt hjl (Ne.symm hij) (Or.inl ⟨hn, rfl⟩))
      · intro hb x hx
        exact hbits _ (by have := hlay.bf j hjl hb; omega)
          (not_mine hlay hlt hjl (Ne.symm hij) (Or.inr ⟨hb, by omega, by omega⟩))
      · intro hb
        apply rd_ext
        intro x hx
        have := hlay.fx j hjl hb
        refine hbytes _ (Or.inr (by omega)) ?_
        rintro ⟨g1, g2, g3⟩
        have := slot_disj hlay hlt hjl (Ne.symm hij) g1 hb
        omega
      · intro b hb; subst hb
        obtain ⟨h1, h2, h3, h4, h5, h6, h7⟩ := ej
        refine ⟨h4, ?_⟩
        apply rd_ext
        intro x hx
        refine hbytes _ (Or.inr (by omega)) ?_
        rintro ⟨g1, g2, g3⟩
        have := hlay.fx i hlt g1
        omega
  · intro j k a b hjk hj hk
    rw [List.getElem?_set] at hj hk
    split at hj
    · cases hj; exact absurd rfl (hnv' _)
    · split at hk
      · cases hk; exact absurd rfl (hnv' _)
      · exact r.disj j k a b hjk hj hk

/-- The content of a variable sized position is NULL or variable sized. -/
theorem var_elt (h : TyOk d) (hc : d.isCont = true) (r : CRep d m S cs o) {i : Nat} {c : Elt}
    (hi : cs[i]? = some c) (hv : (posOf d cs.length i).ty.isVar = true) : c = .null ∨ ∃ b, c = .var b := by
  have hlt : i < cs.length := (List.getElem?_eq_some_iff.mp hi).1
  have hok := posOf_ok h hc r.countOk hlt
  have e := r.elt i c hi
  cases c with
  | null => left; rfl
  | bits v => have := isVar_not_bit hok hv; rw [e.1] at this; cases this
  | fixd b => have := e.2.1; rw [hv] at this; cases this
  | var b => right; exact ⟨b, rfl⟩

/-- The content of a fixed sized position takes no bytes behind the fixed part. -/
theorem fix_elt (r : CRep d m S cs o) {i : Nat} {c : Elt}
    (hi : cs[i]? = some c) (hv : (posOf d cs.length i).ty.isVar = false) :
    c.hlen = 0 ∧ ∀ b, c ≠ .var b := by
  have e := r.elt i c hi
  cases c with
  | var b => have := e.1; rw [hv] at this; cases this
  | _ => exact ⟨rfl, by intro b hb; cases hb⟩

/-- Replacing a variable sized element that is NULL or at the end of the container by another one
that is NULL or at the end of the container. -/
theorem CRep.updEnd (h : TyOk d) (hc : d.isCont = true) (r : CRep d m S cs o) {i : Nat} {c c' : Elt}
    {T S' : Nat} (hi : cs[i]? = some c) (hv : (posOf d cs.length i).ty.isVar = true)
    (hT : T + c.hlen = S) (hend : ∀ b, c = .var b → o i = T)
    (hS' : S' = T + c'.hlen) (hmx : S' ≤ d.hdr.maxSize)
    (hl : m'.length = m.length) (hle : S' ≤ m.length)
    (hpre : d.word m' 0 = S' % 256 ^ d.w)
    (hsame : ∀ x, x < T → d.w ≤ x → ¬ ((posOf d cs.length i).off ≤ x ∧
        x < (posOf d cs.length i).off + d.w) → m'[x]? = m[x]?)
    (he : EltAt d m' S' (fixedEnd d cs.length) (posOf d cs.length i) T c') :
    CRep d m' S' (cs.set i c') (fun j => if j = i then T else o j) := by
  have hlt : i < cs.length := (List.getElem?_eq_some_iff.mp hi).1
  have hlay := lay_of h hc r.countOk
  have hbm := bitmap_le_fixedEnd h hc r.countOk
  have hok := posOf_ok h hc r.countOk hlt
  have hvs := var_hasSize h hc r.countOk hlt hv
  have hbi := isVar_not_bit hok hv
  have hsi := hlay.fx i hlt hbi
  simp only [slot, hv, if_true] at hsi
  have hob : d.w ≤ d.offBitmap := by simp [offBitmap, offCountP, hvs.1]
  have hfe : fixedEnd d cs.length ≤ T := by
    have h1 := r.sum
    have h2 := hlen_le_heap hi
    omega
  have hbit : ∀ k, k < bitsOf d cs.length → bit m' d.offBitmap k = bit m d.offBitmap k := by
    intro k hk
    apply bit_congr
    unfold bitmapBytes at hbm hsi
    apply hsame <;> omega
  have hbelow : ∀ j a, j ≠ i → cs[j]? = some (.var a) → o j + a.length ≤ T := by
    intro j a hji hj
    have hj4 := (r.elt j _ hj).2.2.2.1
    rcases var_elt h hc r hi hv with hn | ⟨b, hb⟩
    · subst hn; simp [Elt.hlen] at hT; omega
    · subst hb
      have := r.disj j i a b hji hj hi
      rw [hend b rfl] at this
      have h6 := (r.elt j _ hj).2.2.2.2.2.1
      have h6' := (r.elt i _ hi).2.2.2.2.2.1
      simp only [Elt.hlen] at hT
      omega
  refine ⟨by rw [hl]; exact hle, fun _ => hmx, by simpa using r.cntF, ?_, fun _ => hpre, ?_, ?_, ?_⟩
  · intro hvc
    have : d.word m' d.offCountP = d.word m d.offCountP := by
      unfold word; congr 1; apply rd_ext; intro x hx
      have h1 : d.offCountP = d.w := by simp [offCountP, hvs.1]
      have h2 : d.offBitmap = d.w + d.w := by simp [offBitmap, h1, hasCountP, hvc]
      apply hsame <;> omega
    rw [this, List.length_set]; exact r.cntV hvc
  · have h1 := r.sum
    have h2 := heap_set (c' := c') hi
    have h3 := hlen_le_heap hi
    rw [List.length_set]; omega
  · intro j c2 hj
    rw [List.length_set]
    rw [List.getElem?_set] at hj
    by_cases hij : i = j
    · subst hij
      rw [if_pos rfl, if_pos hlt] at hj
      cases hj; simpa using he
    · rw [if_neg hij] at hj
      have hjl : j < cs.length := (List.getElem?_eq_some_iff.mp hj).1
      have hokj := posOf_ok h hc r.countOk hjl
      have ej := r.elt j c2 hj
      simp only [if_neg (Ne.symm hij)]
      refine ej.frame ?_ ?_ ?_ (isVar_not_bit hokj) ?_
      · intro hn; exact hbit _ (hlay.vb j hjl hn)
      · intro hb x hx; exact hbit _ (by have := hlay.bf j hjl hb; omega)
      · intro hb
        apply rd_ext
        intro x hx
        have h1 := hlay.fx j hjl hb
        have h2 := slot_disj hlay hlt hjl (Ne.symm hij) hbi hb
        simp only [slot, hv, if_true] at h2
        simp only [slot] at hx h1
        apply hsame
        · omega
        · omega
        · omega
      · intro b hb; subst hb
        obtain ⟨h1, h2, h3, h4, h5, h6, h7⟩ := ej
        have := hbelow j b (Ne.symm hij) hj
        refine ⟨by omega, ?_⟩
        apply rd_ext
        intro x hx
        apply hsame <;> omega
  · intro j k a b hjk hj hk
    rw [List.getElem?_set] at hj hk
    split at hj
    · rename_i hij
      subst hij
      rw [if_neg hjk] at hk
      rw [if_pos rfl, if_neg (Ne.symm hjk)]
      right; exact hbelow k b (Ne.symm hjk) hk
    · rename_i hij
      rw [if_neg (Ne.symm hij)]
      split at hk
      · rename_i hik
        subst hik
        rw [if_pos rfl]
        left; exact hbelow j a hjk hj
      · rename_i hik
        rw [if_neg (Ne.symm hik)]
        exact r.disj j k a b hjk hj hk

/-! ### Setting an element to NULL -/

theorem isNullAt_eq (h : TyOk d) (hc : d.isCont = true) (r : CRep d m S cs o) {i : Nat} {c : Elt}
    (hi : cs[i]? = some c) :
    d.isNullAt m (posOf d cs.length i) = some (decide (c = .null)) ∧
      ((posOf d cs.length i).ty.isNullable = false → c ≠ .null) := by
  have hlt : i < cs.length := (List.getElem?_eq_some_iff.mp hi).1
  have hlay := lay_of h hc r.countOk
  have hok := posOf_ok h hc r.countOk hlt
  have e := r.elt i c hi
  have hfe : 1 ≤ fixedEnd d cs.length ∨ (posOf d cs.length i).ty.isVar = false := by
    cases hv : (posOf d cs.length i).ty.isVar with
    | false => right; rfl
    | true =>
      left
      have := hlay.fx i hlt (isVar_not_bit hok hv)
      simp only [slot, hv, if_true] at this
      have := vsz_pos d.hdr.maxSize
      unfold w at *
      omega
  unfold isNullAt
  cases hn : (posOf d cs.length i).ty.isNullable with
  | false =>
    have : c ≠ .null := by
      intro hcn; subst hcn
      rcases e with ⟨h1, h2⟩ | ⟨h1, h2⟩
      · simp [isNullable, needsValid] at hn h1; rw [hn.2] at h1; exact absurd h1.2 (by decide)
      · simp [isNullable, h1] at hn
    exact ⟨by simp [this], fun _ => this⟩
  | true =>
    refine ⟨?_, by intro hh; cases hh⟩
    simp only [Bool.not_true, Bool.false_eq_true, if_false]
    cases hv : (posOf d cs.length i).ty.isVar with
    | false =>
      have hnv : (posOf d cs.length i).ty.needsValid = true := by
        simp [needsValid, hv]; simp [isNullable, hv] at hn; exact hn
      simp only [Bool.not_false, if_true]
      rw [getBit_eq (bit_ok h hc r (hlay.vb i hlt hnv))]
      simp only [Option.bind_eq_bind, Option.bind_some, Option.pure_def]
      cases c with
      | null =>
        rcases e with ⟨h1, h2⟩ | ⟨h1, h2⟩
        · rw [h2]; rfl
        · rw [hv] at h1; cases h1
      | bits v => rw [e.2.1 hnv]; rfl
      | fixd b => rw [e.2.2.1 hnv]; rfl
      | var b => have := e.1; rw [hv] at this; cases this
    | true =>
      simp only [Bool.not_true, Bool.false_eq_true, if_false]
      rw [elt_word h hc r hlt hv]
      simp only [Option.bind_eq_bind, Option.bind_some, Option.pure_def]
      rcases var_elt h hc r hi hv with hh | ⟨b, hh⟩
      · subst hh
        rcases e with ⟨h1, h2⟩ | ⟨h1, h2⟩
        · rw [not_var_needs hv] at h1; cases h1
        · simp [h2]
      · subst hh
        obtain ⟨h1, h2, h3, h4⟩ := e
        rw [hv] at hfe
        simp at hfe
        simp [h2]; omega

theorem moveEnd_null (h : TyOk d) (hc : d.isCont = true) (r : CRep d m S cs o) {i : Nat}
    (hi : cs[i]? = some .null) : d.moveEnd m i (posOf d cs.length i) = some (m, false) := by
  unfold moveEnd
  cases hv : (posOf d cs.length i).ty.isVar with
  | false => rfl
  | true =>
    rw [ptrAt_eq h hc r hi]
    rfl

/-- Moving an element to the end, whatever it is. -/
theorem moveEnd_any (h : TyOk d) (hc : d.isCont = true) (r : CRep d m S cs o) {i : Nat} {c : Elt}
    (hi : cs[i]? = some c) :
    ∃ m' q o', d.moveEnd m i (posOf d cs.length i) = some (m', q) ∧ CRep d m' S cs o' ∧
      (∀ b, c = .var b → o' i + b.length = S) ∧ m'.length = m.length ∧
      (∀ x, S ≤ x → m'[x]? = m[x]?) ∧ Shift cs i c o o' := by
  have same : c.hlen = 0 → Shift cs i c o o := fun hz j b _ _ => by rw [hz, Nat.sub_zero, ite_self]
  cases c with
  | null => exact ⟨m, false, o, moveEnd_null h hc r hi, r, (by intro b hb; cases hb), rfl, fun _ _ => rfl, same rfl⟩
  | var b =>
    obtain ⟨m', q, o', h1, h2, h3, h4, h5, h6⟩ := moveEnd_at h hc r hi
    exact ⟨m', q, o', h1, h2, (by intro b' hb; cases hb; exact h3), h4, h5, h6⟩
  | bits v =>
    have hlt : i < cs.length := (List.getElem?_eq_some_iff.mp hi).1
    have hv : (posOf d cs.length i).ty.isVar = false := by
      cases hv : (posOf d cs.length i).ty.isVar with
      | false => rfl
      | true => rcases var_elt h hc r hi hv with hh | ⟨b, hh⟩ <;> cases hh
    exact ⟨m, false, o, by simp [moveEnd, hv], r, (by intro b hb; cases hb), rfl, fun _ _ => rfl, same rfl⟩
  | fixd v =>
    have hv : (posOf d cs.length i).ty.isVar = false := (r.elt i _ hi).2.1
    exact ⟨m, false, o, by simp [moveEnd, hv], r, (by intro b hb; cases hb), rfl, fun _ _ => rfl, same rfl⟩

/-- A stored size is cut to the width of the word. -/
theorem size_word {s a : Nat} (ha : a + d.w ≤ m.length) :
    d.word (wr m a (leEnc d.w s)) a = s % 256 ^ d.w := by
  unfold word
  have := rd_wr_same m a (leEnc d.w s) (by simpa using ha)
  rw [leEnc_length] at this
  rw [this, leDec_leEnc]

/-- A stored size is read back, 0 standing for the maximum size. -/
theorem size_read (h : TyOk d) (hv : d.isVar = true) {s a : Nat} (h1 : 1 ≤ s) (hs : s ≤ d.hdr.maxSize)
    (ha : a + d.w ≤ m.length) :
    (if d.word (wr m a (leEnc d.w s)) a = 0 then d.hdr.maxSize else d.word (wr m a (leEnc d.w s)) a) = s := by
  have hpow : d.hdr.maxSize ≤ 256 ^ d.w := le_pow_vsz (by have := (h.maxSize hv).2; unfold lim at this; omega)
  rw [size_word ha]
  by_cases hlt : s < 256 ^ d.w
  · rw [Nat.mod_eq_of_lt hlt, if_neg (by omega)]
  · have : s = 256 ^ d.w := by omega
    rw [← this, Nat.mod_self, if_pos rfl]
    omega

theorem fixedEnd_pos (h : TyOk d) (hc : d.isCont = true) {n i : Nat} (hn : CountOk d n) (hi : i < n)
    (hv : (posOf d n i).ty.isVar = true) : 1 ≤ fixedEnd d n := by
  have hok := posOf_ok h hc hn hi
  have := (lay_of h hc hn).fx i hi (isVar_not_bit hok hv)
  simp only [slot, hv, if_true] at this
  have := vsz_pos d.hdr.maxSize
  unfold w at *
  omega

/-- Setting to NULL: fails, changing nothing, exactly if the element is not nullable. -/
theorem setNull_at (h : TyOk d) (hc : d.isCont = true) (r : CRep d m S cs o) {i : Nat} {c : Elt}
    (hi : cs[i]? = some c) :
    ∃ m', d.setNull m i (posOf d cs.length i) = some (m', (posOf d cs.length i).ty.isNullable) ∧
      m'.length = m.length ∧ (∀ x, S ≤ x → m'[x]? = m[x]?) ∧
      ((posOf d cs.length i).ty.isNullable = false → m' = m) ∧
      ((posOf d cs.length i).ty.isNullable = true →
        ∃ o', CRep d m' (S - c.hlen) (cs.set i .null) o' ∧ Shift cs i c o o') := by
  have hlt : i < cs.length := (List.getElem?_eq_some_iff.mp hi).1
  have hlay := lay_of h hc r.countOk
  have hok := posOf_ok h hc r.countOk hlt
  obtain ⟨g1, g2⟩ := isNullAt_eq h hc r hi
  unfold setNull
  rw [g1]
  simp only [Option.bind_eq_bind, Option.bind_some]
  by_cases hcn : c = .null
  · subst hcn
    have hnb : (posOf d cs.length i).ty.isNullable = true := by
      cases hh : (posOf d cs.length i).ty.isNullable with
      | true => rfl
      | false => exact absurd rfl (g2 hh)
    refine ⟨m, by simp [hnb], rfl, fun _ _ => rfl, fun _ => rfl, fun _ => ⟨o, ?_, fun j b _ _ => by simp only [Elt.hlen, Nat.sub_zero, ite_self]⟩⟩
    have : cs.set i .null = cs := by
      apply List.ext_getElem?
      intro j
      rw [List.getElem?_set]
      split
      · rename_i hij; subst hij; rw [hi]
      · rfl
    rw [this]
    simpa [Elt.hlen] using r
  · simp only [hcn, decide_false, Bool.false_eq_true, if_false]
    cases hn : (posOf d cs.length i).ty.isNullable with
    | false => exact ⟨m, rfl, rfl, fun _ _ => rfl, fun _ => rfl, by intro hh; cases hh⟩
    | true =>
      simp only [Bool.not_true, Bool.false_eq_true, if_false]
      cases hnv : (posOf d cs.length i).ty.needsValid with
      | true =>
        have hv : (posOf d cs.length i).ty.isVar = false := by
          simp [needsValid] at hnv; exact hnv.1
        have hb := hlay.vb i hlt hnv
        simp only [if_true]
        rw [resetBit_eq (bit_ok h hc r hb)]
        have hbm := bitmap_le_fixedEnd h hc r.countOk
        have hfe := fixedEnd_le r
        have hx : ∀ x, x < d.offBitmap ∨ d.offBitmap + bitmapBytes (bitsOf d cs.length) ≤ x →
            (withBit m d.offBitmap (posOf d cs.length i).vbit false)[x]? = m[x]? := by
          intro x hx
          unfold withBit
          rw [wr_getElem?, if_neg]
          unfold bitmapBytes at hx
          simp
          omega
        refine ⟨_, rfl, by simp, ?_, (by intro hh; cases hh),
          fun _ => ⟨o, ?_, fun j b _ _ => by rw [(fix_elt r hi hv).1, Nat.sub_zero, ite_self]⟩⟩
        · intro x hxS; exact hx x (Or.inr (by omega))
        · rw [(fix_elt r hi hv).1, Nat.sub_zero]
          refine r.updFixed h hc hi (fix_elt r hi hv).1 rfl (by intro b hb; cases hb) (by simp) ?_ ?_ ?_
          · intro k hk hm
            rw [bit_withBit (bit_ok h hc r hb), if_neg]
            intro hk; exact hm (Or.inl ⟨hnv, hk⟩)
          · intro x hx' _; exact hx x hx'
          · left; exact ⟨hnv, by rw [bit_withBit (bit_ok h hc r hb), if_pos rfl]⟩
      | false =>
        have hv : (posOf d cs.length i).ty.isVar = true := by
          cases hh : (posOf d cs.length i).ty.isVar with
          | true => rfl
          | false => simp [needsValid, isNullable, hh] at hn hnv; rw [hn] at hnv; cases hnv
        obtain ⟨b, rfl⟩ : ∃ b, c = .var b := by
          rcases var_elt h hc r hi hv with hh | hh
          · exact absurd hh hcn
          · exact hh
        have hvs := var_hasSize h hc r.countOk hlt hv
        simp only [Bool.false_eq_true, if_false]
        rw [getSize_eq h hc r, ptrAt_eq h hc r hi]
        simp only [Option.bind_some, eltPtr]
        rw [elt_size r hi]
        obtain ⟨m1, q, o1, e1, r1, e2, e3, e4, e5⟩ := moveEnd_at h hc r hi
        simp only [Option.bind_some, e1]
        have hsi := slot_ok h hc r1 hlt (isVar_not_bit hok hv)
        simp only [slot, hv, if_true] at hsi
        have hb1 := (r1.elt i _ hi)
        obtain ⟨k1, k2, k3, k4, k5, k6, k7⟩ := hb1
        have hob : d.w ≤ d.offBitmap := by simp [offBitmap, offCountP, hvs.1]
        have hww : vsz d.hdr.maxSize = d.w := rfl
        unfold storeVal
        rw [hww, store_eq (by simp; omega), sub32_eq (by omega)]
        simp only [Option.bind_some, hvs.1, if_true]
        rw [store_eq (by simp; omega)]
        have hfp := fixedEnd_pos h hc r.countOk hlt hv
        refine ⟨_, rfl, by simp [e3], ?_, (by intro hh; cases hh), fun _ =>
          ⟨fun j => if j = i then S - b.length else o1 j, ?_, fun j a hj ha => by simp only [if_neg hj]; exact e5 j a hj ha⟩⟩
        · intro x hx
          rw [wr_getElem?, if_neg (by simp; omega), wr_getElem?, if_neg (by simp; omega)]
          exact e4 x hx
        · refine r1.updEnd h hc (c := .var b) (T := S - b.length) hi hv (by simp [Elt.hlen]; omega)
            (by intro b' hb'; cases hb'; omega) (by simp [Elt.hlen]) ?_ (by simp) ?_ ?_ ?_ ?_
          · have := r1.mx hvs.2; simp only [Elt.hlen]; omega
          · simp only [Elt.hlen]; omega
          · have := r1.mx hvs.2
            exact size_word (by simp; omega)
          · intro x hx1 hx2 hx3
            rw [wr_getElem?, if_neg (by simp; omega), wr_getElem?, if_neg (by simp; omega)]
          · right
            refine ⟨hv, ?_⟩
            unfold word
            rw [rd_wr_disj _ _ _ _ _ (by simp; omega)]
            have := rd_wr_same m1 (posOf d cs.length i).off (leEnc d.w 0) (by simp; omega)
            rw [leEnc_length] at this
            rw [this, leDec_leEnc, Nat.zero_mod]

theorem setNull_ok (h : TyOk d) (hc : d.isCont = true) (r : CRep d m S cs o) {i : Nat} {c : Elt}
    (hi : cs[i]? = some c) :
    ∃ m', d.setNull m i (posOf d cs.length i) = some (m', (posOf d cs.length i).ty.isNullable) ∧
      m'.length = m.length ∧ (∀ x, S ≤ x → m'[x]? = m[x]?) ∧
      ((posOf d cs.length i).ty.isNullable = false → m' = m) ∧
      ((posOf d cs.length i).ty.isNullable = true →
        ∃ o', CRep d m' (S - c.hlen) (cs.set i .null) o') := by
  obtain ⟨m', h1, h2, h3, h4, h5⟩ := setNull_at h hc r hi
  exact ⟨m', h1, h2, h3, h4, fun hh => ⟨_, (h5 hh).choose_spec.1⟩⟩

end
end Dti
end TS
