import Verif.ContExpand
/-
`can_discard_from_container` and `discard_from_container` on a well formed container.
-/
namespace TS
namespace Dti

/-- The list without `s` elements from element `i` on. -/
def removeAt {α : Type} (l : List α) (i s : Nat) : List α := l.take i ++ l.drop (i + s)

theorem removeAt_length {α : Type} (l : List α) {i s : Nat} (h : i + s ≤ l.length) :
    (removeAt l i s).length = l.length - s := by simp [removeAt]; omega

theorem removeAt_get {α : Type} (l : List α) {i s : Nat} (j : Nat) (h : i + s ≤ l.length) :
    (removeAt l i s)[j]? = l[insIdx i s j]? := by
  unfold removeAt insIdx
  split
  · rw [List.getElem?_append_left (by simp; omega), List.getElem?_take_of_lt (by omega)]
  · rw [List.getElem?_append_right (by simp; omega), List.getElem?_drop]
    congr 1; simp; omega

theorem removeAt_congr {α : Type} {l k : List α} {i s : Nat} (hl : k.length = l.length)
    (h : i + s ≤ l.length) (he : ∀ j, ¬ (i ≤ j ∧ j < i + s) → k[j]? = l[j]?) : removeAt k i s = removeAt l i s := by
  apply List.ext_getElem?
  intro j
  rw [removeAt_get _ _ (by omega), removeAt_get _ _ h]
  apply he
  unfold insIdx
  split <;> omega

theorem removeAt_zero {α : Type} (l : List α) (i : Nat) : removeAt l i 0 = l := by simp [removeAt]

section
variable {d c : Dti} {m m' : Bytes} {S : Nat} {cs : List Elt} {o : Nat → Nat}

theorem heap_removeAt {i s : Nat} (h : ∀ j x, i ≤ j → j < i + s → cs[j]? = some x → x.hlen = 0) :
    heap (removeAt cs i s) = heap cs := by
  have h1 : heap ((cs.drop i).take s) = 0 := by
    apply heap_zero
    intro j x hj
    rw [List.getElem?_take] at hj
    split at hj
    · rw [List.getElem?_drop] at hj
      exact h _ x (by omega) (by omega) hj
    · cases hj
  have h2 : heap cs = heap (cs.take i) + (heap ((cs.drop i).take s) + heap ((cs.drop i).drop s)) := by
    rw [← heap_append, ← heap_append, List.take_append_drop, List.take_append_drop]
  unfold removeAt
  rw [h2, h1, heap_append, List.drop_drop]
  omega

/-- What removing `slots` slots at `index` from a container of `n` elements must do to the memory
behind the prefix; `S` is the old size. -/
structure Shrunk (d c : Dti) (m m' : Bytes) (n index slots S : Nat) : Prop where
  len : m'.length = m.length
  out : ∀ x l, S ≤ x → rd m' x l = rd m x l
  old : ∀ j, j < n - slots → Moved d c m m' n (n - slots) (insIdx index slots j) j (· - d.w * slots)
  heap : c.isVar = true → ∀ x l, fixedEnd d n ≤ x → x + l ≤ S → rd m' (x - d.w * slots) l = rd m x l

theorem shrinkBit_ok {n index slots : Nat} (hc : d.cont = some c) (hok : TyOk c) (hb : c.isBit = true)
    (hpb : c.eltBits ≤ 64) (hi : index + slots ≤ n) (hS : S = fixedEnd d n) (hS32 : S < 4294967296)
    (hl : S ≤ m.length) :
    ∃ m', d.shrinkBit c m n index slots = some (m', fixedEnd d (n - slots)) ∧
      Shrunk d c m m' n index slots S := by
  have hv := bit_not_var hok hb
  have hmono := fixedEnd_mono hc (show n - slots ≤ n by omega)
  rw [cont_fixedEnd_bit hc hb] at hmono ⊢
  rw [cont_fixedEnd_bit hc hb] at hS hmono
  have hsz : c.needsValid.toNat + c.hdr.size = c.eltBits := rfl
  obtain ⟨m1, e1, p1⟩ := copyDown (off := d.offBitmap) (pb := c.eltBits) (m := m) (n := n) (index := index)
    (slots := slots) (k := n - (index + slots)) hpb (by omega) (by omega)
  unfold shrinkBit
  simp only [Option.bind_eq_bind]
  rw [Nat.mul_comm c.eltBits (n - slots), u32_eq (by omega)]
  simp only [e1, Option.bind_eq_bind, Option.bind_some]
  have hold : ∀ j t, j < n - slots → t < c.eltBits →
      bit m1 d.offBitmap (j * c.eltBits + t) = bit m d.offBitmap (insIdx index slots j * c.eltBits + t) := by
    intro j t hj ht
    rw [p1.bits j t (by omega) ht]
    unfold insIdx
    by_cases hlt : j < index
    · rw [if_pos hlt, if_neg (by omega)]
    · rw [if_neg hlt, if_pos (by omega)]
  refine ⟨m1, rfl, p1.len, fun x l hx => p1.out x l (Or.inr (by omega)), ?_, by rw [hv]; intro hh; cases hh⟩
  intro j hj
  obtain ⟨q1, q2, q3⟩ := cont_posOf_bit hc hb (n - slots) j
  obtain ⟨r1, r2, r3⟩ := cont_posOf_bit hc hb n (insIdx index slots j)
  refine ⟨?_, ?_, by simp [hb], by simp [hv]⟩
  · intro hn
    rw [q3 hn, r3 hn]
    have := hold j 0 hj (by rw [← hsz, hn]; simp only [Bool.toNat_true]; omega)
    simpa using this
  · intro _ x hx
    rw [q2, r2, Nat.add_assoc, Nat.add_assoc]
    exact hold j _ hj (by omega)

/-- Moving the data behind a shrinking bitmap. -/
theorem shiftDown_ok {off bo bn len : Nat} (hle : bn ≤ bo) (hl : off + bo + len ≤ m.length) :
    ∃ m', shiftData off (off + bo + len) bo bn m = some m' ∧ m'.length = m.length ∧
      (∀ x l, x + l ≤ off + bn ∨ off + bo + len ≤ x → rd m' x l = rd m x l) ∧
      (∀ x l, x + l ≤ len → rd m' (off + bn + x) l = rd m (off + bo + x) l) := by
  unfold shiftData
  by_cases he : bo ≠ bn
  · rw [if_pos he, sub32_eq (by omega)]
    simp only [Option.bind_eq_bind, Option.bind_some]
    obtain ⟨m', h1, h2, h3, h4⟩ := moveIn_ok (m := m) (dst := off + bn) (src := off + bo)
      (len := off + bo + len - (off + bo)) (by omega) (by omega)
    refine ⟨m', h1, h2, ?_, ?_⟩
    · intro x l hx; exact h3 x l (by omega)
    · intro x l hx; exact h4 x l (by omega)
  · rw [if_neg he]
    have : bo = bn := by omega
    subst this
    exact ⟨m, rfl, rfl, fun _ _ _ => rfl, fun _ _ _ => rfl⟩

theorem shrinkFixed_ok {n index slots : Nat} (hc : d.cont = some c) (hb : c.isBit = false)
    (hv : c.isVar = false) (hi : index + slots ≤ n) (hS : S = fixedEnd d n) (hS32 : S < 4294967296)
    (hl : S ≤ m.length) :
    ∃ m', d.shrinkFixed c m S n index slots = some (m', fixedEnd d (n - slots)) ∧
      Shrunk d c m m' n index slots S := by
  have hslot : slot d.w c = c.hdr.size := by simp [slot, hv]
  have hmono := fixedEnd_mono hc (show n - slots ≤ n by omega)
  rw [cont_fixedEnd hc hb, hslot] at hmono ⊢
  rw [cont_fixedEnd hc hb, hslot] at hS hmono
  have hpos : ∀ n i, posOf d n i = ⟨d.offBitmap + bitmapBytes (n * c.needsValid.toNat) + c.hdr.size * i,
      i * c.needsValid.toNat, c⟩ := by
    intro n i; rw [cont_posOf hc hb, hslot]
  generalize hz : c.hdr.size = z at *
  have hble : bitmapBytes ((n - slots) * c.needsValid.toNat) ≤ bitmapBytes (n * c.needsValid.toNat) :=
    bitmapBytes_mono (Nat.mul_le_mul_right _ (by omega))
  have hsplit : n * z = index * z + slots * z + (n - (index + slots)) * z := by
    rw [← Nat.add_mul, ← Nat.add_mul]; congr 1; omega
  have hsn : (n - slots) * z = index * z + (n - (index + slots)) * z := by
    rw [← Nat.add_mul]; congr 1; omega
  have his : (index + slots) * z = index * z + slots * z := Nat.add_mul _ _ _
  unfold shrinkFixed
  simp only [hz]
  rw [Nat.mul_comm z (n - slots), u32_eq (by omega), his]
  generalize hbn : bitmapBytes ((n - slots) * c.needsValid.toNat) = bn at *
  generalize hbo : bitmapBytes (n * c.needsValid.toNat) = bo at *
  generalize hO : d.offBitmap = O at *
  rw [hS]
  have hbits : ∃ m1, whenB c.needsValid (fun m => d.shrinkValid m n index slots) m = some m1 ∧
      m1.length = m.length ∧
      (c.needsValid = true → ∀ j, j < n - slots → bit m1 O j = bit m O (insIdx index slots j)) ∧
      (∀ x l, x + l ≤ O ∨ O + bo ≤ x → rd m1 x l = rd m x l) := by
    cases hn : c.needsValid with
    | false => exact ⟨m, rfl, rfl, by simp, fun _ _ _ => rfl⟩
    | true =>
      rw [hn] at hbo
      simp only [Bool.toNat_true, Nat.mul_one] at hbo
      obtain ⟨m1, e1, p1⟩ := copyDown (off := O) (pb := 1) (m := m) (n := n) (index := index)
        (slots := slots) (k := n - (index + slots)) (by omega) (by omega) (by rw [Nat.mul_one]; omega)
      simp only [Nat.mul_one] at e1
      refine ⟨m1, by simp only [whenB, if_true, shrinkValid, hO]; exact e1, p1.len, ?_, ?_⟩
      · intro _ j hj
        have := p1.bits j 0 (by omega) (by omega)
        simp only [Nat.mul_one, Nat.add_zero] at this
        rw [this]
        unfold insIdx
        by_cases hlt : j < index
        · rw [if_pos hlt, if_neg (by omega)]
        · rw [if_neg hlt, if_pos (by omega)]
      · intro x l hx
        exact p1.out x l (by rw [Nat.mul_one, hbo]; exact hx)
  obtain ⟨m1, e1, l1, b1, o1⟩ := hbits
  obtain ⟨m2, e2, l2, a2, s2⟩ := shiftDown_ok (m := m1) (off := O) (bo := bo) (bn := bn) (len := n * z) hble (by omega)
  obtain ⟨m3, e3, l3, a3, s3⟩ := moveIn_ok (m := m2) (dst := O + bn + index * z)
    (src := O + bn + (index * z + slots * z)) (len := (n - (index + slots)) * z) (by omega) (by omega)
  simp only [e1, e2, e3, Option.bind_eq_bind, Option.bind_some]
  refine ⟨m3, rfl, by omega, ?_, ?_, by rw [hv]; intro hh; cases hh⟩
  · intro x l hx
    rw [a3 x l (by omega), a2 x l (by omega), o1 x l (by omega)]
  · intro j hj
    refine ⟨?_, by simp [hb], ?_, by simp [hv]⟩
    · intro hn
      simp only [hpos, hn, Bool.toNat_true, Nat.mul_one, hO]
      rw [← b1 hn j hj]
      have hjb : j / 8 < bn := by
        rw [hn] at hbn
        simp only [Bool.toNat_true, Nat.mul_one] at hbn
        rw [← hbn]; unfold bitmapBytes; omega
      rw [bit_of_rd (a3 O bn (Or.inl (by omega))) (by omega) (by omega)]
      exact bit_of_rd (a2 O bn (Or.inl (by omega))) (by omega) (by omega)
    · intro _ _
      simp only [hpos, hbn, hbo, hz]
      rw [Nat.mul_comm z j, Nat.mul_comm z _]
      have hj' := cell_le (pb := z) hj
      unfold insIdx
      by_cases hlt : j < index
      · have hlt' := cell_le (pb := z) hlt
        rw [if_pos hlt, a3 _ _ (by omega), s2 _ _ (by omega), o1 _ _ (by omega)]
      · have hge : j * z = index * z + (j - index) * z := by rw [← Nat.add_mul]; congr 1; omega
        have hx : (j - index) * z + z ≤ (n - (index + slots)) * z := cell_le (by omega)
        rw [if_neg hlt, Nat.add_mul, show O + bn + j * z = O + bn + index * z + (j - index) * z by omega,
          s3 _ _ hx, show O + bn + (index * z + slots * z) + (j - index) * z =
            O + bn + (index * z + slots * z + (j - index) * z) by omega, s2 _ _ (by omega), o1 _ _ (by omega)]
        congr 1; omega

/-! ### variable sized elements -/

theorem nullAll_append (l r : List Nat) (m : Bytes) :
    d.nullAll m (l ++ r) = (d.nullAll m l).bind (fun m => d.nullAll m r) := by
  induction l generalizing m with
  | nil => rfl
  | cons x l ih =>
    simp only [List.cons_append, nullAll, Option.bind_eq_bind]
    cases d.posInfo m x with
    | none => rfl
    | some p =>
      simp only [Option.bind_some]
      cases d.setNull m x p with
      | none => rfl
      | some q => simp only [Option.bind_some]; exact ih q.1

theorem nullAll_ok (h : TyOk d) (hvc : d.isVarCount = true) (hcd : d.cont = some c) (hv : c.isVar = true)
    (r : CRep d m S cs o) {index k : Nat} (hk : index + k ≤ cs.length) :
    ∃ m1 S1 cs1 o1, d.nullAll m ((List.range k).map (fun i => index + i)) = some m1 ∧
      CRep d m1 S1 cs1 o1 ∧ m1.length = m.length ∧ (∀ x, S ≤ x → m1[x]? = m[x]?) ∧ S1 ≤ S ∧
      cs1.length = cs.length ∧
      (∀ j, cs1[j]? = if index ≤ j ∧ j < index + k then some .null else cs[j]?) := by
  obtain ⟨hc, _⟩ := varCount_cont h hvc
  induction k with
  | zero =>
    refine ⟨m, S, cs, o, rfl, r, rfl, fun _ _ => rfl, Nat.le_refl _, rfl, ?_⟩
    intro j; rw [if_neg (by omega)]
  | succ k ih =>
    obtain ⟨m1, S1, cs1, o1, e1, r1, l1, u1, s1, n1, g1⟩ := ih (by omega)
    have hlt : index + k < cs1.length := by omega
    have hx := List.getElem?_eq_getElem hlt
    obtain ⟨m2, e2, l2, u2, _, r2⟩ := setNull_ok h hc r1 hx
    have hnb : (posOf d cs1.length (index + k)).ty.isNullable = true := by
      rw [cont_ty hcd]; simp [isNullable, hv]
    obtain ⟨o2, r2⟩ := r2 hnb
    refine ⟨m2, _, _, o2, ?_, r2, by omega, ?_, by omega, by simp [n1], ?_⟩
    · rw [List.range_succ, List.map_append, nullAll_append, e1]
      simp only [Option.bind_some, List.map_cons, List.map_nil, nullAll, Option.bind_eq_bind]
      rw [posInfo_eq h hc r1 hlt]
      simp only [Option.bind_some, e2]
    · intro x hx; rw [u2 x (by omega), u1 x hx]
    · intro j
      rw [List.getElem?_set]
      by_cases hj : index + k = j
      · subst hj; rw [if_pos rfl, if_pos hlt, if_pos (by omega)]
      · rw [if_neg hj, g1 j]
        by_cases h2 : index ≤ j ∧ j < index + k
        · rw [if_pos h2, if_pos (by omega)]
        · rw [if_neg h2, if_neg (by omega)]

/-- The part of `shrinkVar` behind the loop that sets elements to NULL. -/
theorem closeGap_ok (h : TyOk d) (hvc : d.isVarCount = true) (hcd : d.cont = some c) (hok : TyOk c)
    (hv : c.isVar = true) (r : CRep d m S cs o) {index slots : Nat} (hi : index + slots ≤ cs.length) :
    ∃ m', (do
        let old ← d.getSize m
        let s ← sub32 old (d.w * slots)
        let src := d.offBitmap + d.w * (index + slots)
        let dst := d.offBitmap + d.w * index
        let m ← moveIn m dst src (← sub32 old src)
        let m ← d.fixOffs (fun o => sub32 o (src - dst)) m (List.range (cs.length - slots))
        pure (m, s) : Option (Bytes × Nat)) = some (m', fixedEnd d (cs.length - slots) + heap cs) ∧
      Shrunk d c m m' cs.length index slots S := by
  obtain ⟨hc, hdv, _⟩ := varCount_cont h hvc
  have hb := isVar_not_bit hok hv
  have hslot : slot d.w c = d.w := by simp [slot, hv]
  have hnv : c.needsValid = false := by simp [needsValid, hv]
  have hfe : ∀ n, fixedEnd d n = d.offBitmap + n * d.w := by
    intro n; rw [cont_fixedEnd hcd hb, hslot, hnv]; simp [bitmapBytes]
  have hpos : ∀ n i, (posOf d n i).off = d.offBitmap + i * d.w := by
    intro n i; rw [cont_posOf hcd hb, hslot, hnv]; simp [bitmapBytes, Nat.mul_comm]
  have hsum := r.sum
  have hle := r.le
  have hpow : d.hdr.maxSize ≤ 256 ^ d.w :=
    le_pow_vsz (by have := (h.maxSize hdv).2; unfold lim at this; omega)
  have hmx := r.mx hdv
  generalize hn : cs.length = n at *
  have hword : ∀ i, i < n → d.word m (d.offBitmap + i * d.w) = 0 ∨
      (d.offBitmap + n * d.w ≤ d.word m (d.offBitmap + i * d.w) ∧ d.word m (d.offBitmap + i * d.w) < S) := by
    intro i hi
    have hlt : i < cs.length := by omega
    have hw := word_lt_size h hvc hcd r hv hlt
    have hx := List.getElem?_eq_getElem hlt
    have e := r.elt i _ hx
    rw [hn] at e hw
    rw [hpos] at hw
    rcases var_elt h hc r hx (by rw [cont_ty hcd]; exact hv) with hh | ⟨b, hh⟩
    · rw [hh] at e
      rcases e with ⟨h1, _⟩ | ⟨_, h2⟩
      · rw [cont_ty hcd, hnv] at h1; cases h1
      · rw [hpos] at h2; exact Or.inl h2
    · rw [hh] at e
      have e2 := e.2.1; have e3 := e.2.2.1
      rw [hpos] at e2
      rw [hfe] at e3
      right; exact ⟨by omega, hw⟩
  rw [hfe] at hsum
  have hS : d.offBitmap + n * d.w ≤ S := by omega
  have hsn : n * d.w = (n - slots) * d.w + slots * d.w := by rw [← Nat.add_mul]; congr 1; omega
  have hns : (n - slots) * d.w = index * d.w + (n - (index + slots)) * d.w := by
    rw [← Nat.add_mul]; congr 1; omega
  have his : (index + slots) * d.w = index * d.w + slots * d.w := Nat.add_mul _ _ _
  rw [getSize_eq h hc r, Nat.mul_comm d.w index, Nat.mul_comm d.w (index + slots), Nat.mul_comm d.w slots, his]
  simp only [Option.bind_eq_bind, Option.bind_some]
  rw [sub32_eq (by omega), sub32_eq (by omega)]
  have hdel : d.offBitmap + (index * d.w + slots * d.w) - (d.offBitmap + index * d.w) = slots * d.w := by omega
  simp only [Option.bind_some, hdel]
  obtain ⟨m1, e1, l1, a1, s1⟩ := moveIn_ok (m := m) (dst := d.offBitmap + index * d.w)
    (src := d.offBitmap + (index * d.w + slots * d.w)) (len := S - (d.offBitmap + (index * d.w + slots * d.w)))
    (by omega) (by omega)
  have hold : ∀ j, j < n - slots → d.word m1 (d.offBitmap + j * d.w) =
      d.word m (d.offBitmap + insIdx index slots j * d.w) := by
    intro j hj
    have hj' := cell_le (pb := d.w) hj
    unfold insIdx word
    by_cases hlt : j < index
    · have hlt' := cell_le (pb := d.w) hlt
      rw [if_pos hlt, a1 _ _ (by omega)]
    · have hge : j * d.w = index * d.w + (j - index) * d.w := by rw [← Nat.add_mul]; congr 1; omega
      rw [if_neg hlt, Nat.add_mul,
        show d.offBitmap + j * d.w = d.offBitmap + index * d.w + (j - index) * d.w by omega, s1 _ _ (by omega)]
      congr 2; omega
  have hlt : ∀ j, j < n - slots → insIdx index slots j < n := by
    intro j hj; unfold insIdx; split <;> omega
  obtain ⟨m2, e2, l2, o2, w2⟩ := fixOffs_ok (d := d) (m := m1) (g := fun o => sub32 o (slots * d.w))
    (G := fun o => o - slots * d.w) (k := n - slots) (by omega) (by
      intro j hj hne
      rw [hold j hj] at hne ⊢
      rcases hword _ (hlt j hj) with hh | ⟨hh, hh2⟩
      · exact absurd hh hne
      · refine ⟨sub32_eq (by omega), ?_⟩
        generalize 256 ^ d.w = P at *
        omega)
  simp only [e1, e2, Option.bind_some]
  refine ⟨m2, ?_, by omega, ?_, ?_, ?_⟩
  · rw [hfe]
    show some (m2, _) = some (m2, _)
    congr 2; omega
  · intro x l hx
    rw [o2 _ _ (by omega), a1 _ _ (by omega)]
  · intro j hj
    refine ⟨by simp [hnv], by simp [hb], by simp [hv], ?_⟩
    intro _
    simp only [hpos]
    rw [w2 j hj, hold j hj, Nat.mul_comm d.w slots]
  · intro _ x l hx1 hx2
    rw [hfe] at hx1
    rw [Nat.mul_comm d.w slots, o2 _ _ (by omega),
      show x - slots * d.w = d.offBitmap + index * d.w + (x - slots * d.w - (d.offBitmap + index * d.w)) by omega,
      s1 _ _ (by omega)]
    congr 1; omega

/-- The three branches of `discard_from_container`. -/
theorem shrinkBody_ok (h : TyOk d) (hvc : d.isVarCount = true) (hcd : d.cont = some c) (hok : TyOk c)
    (r : CRep d m S cs o) {index slots : Nat} (hi : index + slots ≤ cs.length)
    (hbits : c.isBit = true → c.eltBits ≤ 64) :
    ∃ m1 S1 cs1 o1 m', CRep d m1 S1 cs1 o1 ∧ S1 ≤ S ∧ m1.length = m.length ∧ (∀ x, S ≤ x → m1[x]? = m[x]?) ∧
      cs1.length = cs.length ∧ removeAt cs1 index slots = removeAt cs index slots ∧
      heap (removeAt cs1 index slots) = heap cs1 ∧
      d.shrinkBody c m S cs.length index slots = some (m', fixedEnd d (cs.length - slots) + heap cs1) ∧
      Shrunk d c m1 m' cs.length index slots S1 := by
  obtain ⟨hc, _⟩ := varCount_cont h hvc
  have hlim := r.lt_lim h hc
  unfold lim at hlim
  have hz : c.isVar = false → ∀ j x, index ≤ j → j < index + slots → cs[j]? = some x → x.hlen = 0 := by
    intro hv j x _ _ hj
    have e := r.elt j x hj
    cases x with
    | var b => have := e.1; rw [cont_ty hcd, hv] at this; cases this
    | _ => rfl
  unfold shrinkBody
  cases hb : c.isBit with
  | true =>
    have hv := bit_not_var hok hb
    have h0 := heap_fixed hcd r hv
    obtain ⟨m', e, s⟩ := shrinkBit_ok hcd hok hb (hbits hb) hi (S := S) (m := m)
      (by have := r.sum; omega) (by omega) r.le
    refine ⟨m, S, cs, o, m', r, Nat.le_refl _, rfl, fun _ _ => rfl, rfl, rfl, heap_removeAt (hz hv), ?_, s⟩
    simp only [if_true, h0, Nat.add_zero]
    exact e
  | false =>
    simp only [Bool.false_eq_true, if_false]
    cases hv : c.isVar with
    | false =>
      have h0 := heap_fixed hcd r hv
      obtain ⟨m', e, s⟩ := shrinkFixed_ok hcd hb hv hi (S := S) (m := m)
        (by have := r.sum; omega) (by omega) r.le
      refine ⟨m, S, cs, o, m', r, Nat.le_refl _, rfl, fun _ _ => rfl, rfl, rfl, heap_removeAt (hz hv), ?_, s⟩
      simp only [Bool.not_false, if_true, h0, Nat.add_zero]
      exact e
    | true =>
      simp only [Bool.not_true, Bool.false_eq_true, if_false]
      obtain ⟨m1, S1, cs1, o1, e1, r1, l1, u1, s1, n1, g1⟩ := nullAll_ok h hvc hcd hv r hi
      obtain ⟨m', e2, sh⟩ := closeGap_ok h hvc hcd hok hv r1 (index := index) (slots := slots) (by omega)
      refine ⟨m1, S1, cs1, o1, m', r1, s1, l1, u1, n1, ?_, ?_, ?_, ?_⟩
      · exact removeAt_congr n1 hi (fun j hj => by rw [g1 j, if_neg hj])
      · apply heap_removeAt
        intro j x h1 h2 hj
        rw [g1 j, if_pos ⟨h1, h2⟩] at hj
        cases hj; rfl
      · unfold shrinkVar
        rw [e1]
        rw [n1] at e2
        exact e2
      · rw [n1] at sh; exact sh

/-- `discard_from_container` and `can_discard_from_container`. -/
theorem discard_ok (h : TyOk d) (hvc : d.isVarCount = true) (hcd : d.cont = some c) (r : CRep d m S cs o)
    {index slots : Nat} (hbits : c.isBit = true → c.eltBits ≤ 64) :
    ∃ m' q, d.discard m index slots = some (m', q) ∧
      (∀ m2 o2, CRep d m2 S cs o2 → d.canDiscard m2 index slots = some q) ∧
      m'.length = m.length ∧ (q = false → m' = m) ∧
      (q = true ↔ index < cs.length ∧ index + slots ≤ cs.length) ∧
      (q = true → (∃ N o', N ≤ S ∧ CRep d m' N (removeAt cs index slots) o') ∧
        ∀ x, S ≤ x → m'[x]? = m[x]?) := by
  obtain ⟨hc, hdv, c', hcd', hok, hps⟩ := varCount_cont h hvc
  rw [hcd] at hcd'
  cases hcd'
  have hcnt := getCount_eq h hc r
  have hsz := getSize_eq h hc r
  have hmxS := r.mx hdv
  unfold discard canDiscard
  simp only [hvc, Bool.not_true, Bool.false_eq_true, if_false, hcnt, Option.bind_eq_bind, Option.bind_some]
  have hcan : ∀ q : Bool, (q = true ↔ index < cs.length ∧ index + slots ≤ cs.length) →
      ∀ m2 o2, CRep d m2 S cs o2 →
        ((d.getCount m2).bind fun n => if index ≥ n then pure false
          else pure (decide (slots ≤ n - index))) = some q := by
    intro q hq m2 o2 r2
    rw [getCount_eq h hc r2]
    simp only [Option.bind_some]
    cases q with
    | true =>
      have := hq.mp rfl
      rw [if_neg (by omega)]
      simp; omega
    | false =>
      split
      · rfl
      · have : ¬ (index < cs.length ∧ index + slots ≤ cs.length) := by rw [← hq]; simp
        simp; omega
  by_cases hidx : index ≥ cs.length
  · rw [if_pos hidx]
    have hq : (false = true) ↔ index < cs.length ∧ index + slots ≤ cs.length := by simp; omega
    exact ⟨m, false, rfl, hcan _ hq, rfl, fun _ => rfl, hq, by simp⟩
  · rw [if_neg hidx]
    by_cases hsl : cs.length - index < slots
    · rw [if_pos hsl]
      have hq : (false = true) ↔ index < cs.length ∧ index + slots ≤ cs.length := by simp; omega
      exact ⟨m, false, rfl, hcan _ hq, rfl, fun _ => rfl, hq, by simp⟩
    · rw [if_neg hsl]
      have hq : (true = true) ↔ index < cs.length ∧ index + slots ≤ cs.length := by simp; omega
      by_cases hs0 : slots = 0
      · subst hs0
        rw [if_pos rfl]
        refine ⟨m, true, rfl, hcan _ hq, rfl, by simp, hq, fun _ => ⟨⟨S, o, Nat.le_refl _, ?_⟩, fun _ _ => rfl⟩⟩
        rw [removeAt_zero]; exact r
      · rw [if_neg hs0]
        obtain ⟨m1, S1, cs1, o1, m2, r1, s1, l1, u1, n1, hre, hhp, e2, sh⟩ :=
          shrinkBody_ok h hvc hcd hok r (index := index) (slots := slots) (by omega) hbits
        simp only [hcd, hsz, Option.bind_some, e2]
        have hmono := fixedEnd_mono hcd (show cs.length - slots ≤ cs.length by omega)
        have hsum1 := r1.sum
        rw [n1] at hsum1
        have hofe := bitmap_le_fixedEnd h hc (n := cs.length - slots) (by intro hh; rw [hvc] at hh; cases hh)
        have hob : d.w ≤ d.offBitmap := by simp [offBitmap, hasCountP, hvc]
        have hw1 : 1 ≤ d.w := vsz_pos d.hdr.maxSize
        have hnw : cs.length - slots < 256 ^ d.w := by
          have h1 := r.cntV hvc
          have h2 := leDec_lt (rd m d.offCountP d.w)
          have h3 : (rd m d.offCountP d.w).length ≤ d.w := by simp [rd]; omega
          have h4 := Nat.pow_le_pow_right (show 0 < 256 by omega) h3
          unfold word at h1
          omega
        have hle1 := r1.le
        obtain ⟨m3, e3, l3, o3, w3, z3⟩ := putPrefix_ok (m := m2) h hvc (s := fixedEnd d (cs.length - slots) + heap cs1)
          (n := cs.length - slots) (by omega) (by omega) hnw (by rw [sh.len]; omega)
        simp only [e3, Option.bind_some]
        have hlen : (removeAt cs1 index slots).length = cs.length - slots := by
          rw [removeAt_length _ (by omega), n1]
        have hlt : ∀ j, j < cs.length - slots → insIdx index slots j < cs.length := by
          intro j hj; unfold insIdx; split <;> omega
        refine ⟨m3, true, rfl, hcan _ hq, by rw [l3, sh.len, l1], by simp, hq,
          fun _ => ⟨⟨fixedEnd d (cs.length - slots) + heap cs1,
            fun j => o1 (insIdx index slots j) - d.w * slots, by omega, ?_⟩, ?_⟩⟩
        · rw [← hre]
          refine r1.regroup h hvc hcd (m' := m3) (f := insIdx index slots) (g := (· - d.w * slots))
            (by rw [l3, sh.len]; omega) (by omega) (by rw [w3, hlen]) z3 (by rw [hlen, hhp]) ?_ ?_ ?_ ?_
          · intro j y hj
            have hjl : j < cs.length - slots := by rw [← hlen]; exact (List.getElem?_eq_some_iff.mp hj).1
            right
            rw [removeAt_get _ _ (by omega)] at hj
            rw [hlen, n1]
            exact ⟨hj, (sh.old j hjl).after hcd hok o3⟩
          · intro j k a b _ _ hjk
            unfold insIdx
            split <;> split <;> omega
          · intro i b hi _
            have e := r1.elt i _ hi
            rw [n1] at e
            have hcv : c.isVar = true := by have := e.1; rw [cont_ty hcd] at this; exact this
            have hb := isVar_not_bit hok hcv
            have hslot : slot d.w c = d.w := by simp [slot, hcv]
            have hnv : c.needsValid = false := by simp [needsValid, hcv]
            have hfe1 := cont_fixedEnd hcd hb cs.length
            have hfe2 := cont_fixedEnd hcd hb (cs.length - slots)
            rw [hslot, hnv] at hfe1 hfe2
            simp only [Bool.toNat_false, Nat.mul_zero] at hfe1 hfe2
            have : cs.length * d.w = (cs.length - slots) * d.w + slots * d.w := by
              rw [← Nat.add_mul]; congr 1; omega
            have hmc : d.w * slots = slots * d.w := Nat.mul_comm _ _
            have e3 := e.2.2.1
            have e4 := e.2.2.2.1
            rw [hlen]
            refine ⟨by omega, by omega, ?_⟩
            rw [o3 _ _ (by omega)]
            exact sh.heap hcv _ _ e3 e4
          · intro hcv x y l hx hy hxy
            have hb := isVar_not_bit hok hcv
            have hslot : slot d.w c = d.w := by simp [slot, hcv]
            have hnv : c.needsValid = false := by simp [needsValid, hcv]
            have hfe1 := cont_fixedEnd hcd hb cs1.length
            rw [hslot, hnv, n1] at hfe1
            simp only [Bool.toNat_false, Nat.mul_zero] at hfe1
            have : cs.length * d.w = (cs.length - slots) * d.w + slots * d.w := by
              rw [← Nat.add_mul]; congr 1; omega
            have hmc : d.w * slots = slots * d.w := Nat.mul_comm _ _
            rw [n1] at hx hy
            omega
        · intro x hx
          have hfo : d.offBitmap ≤ x := by omega
          have h3 := congrArg (fun b => b[0]?) (o3 x 1 hfo)
          have h2 := congrArg (fun b => b[0]?) (sh.out x 1 (by omega))
          simp only [rd_getElem?] at h2 h3
          simp at h2 h3
          rw [h3, h2, u1 x hx]

end
end Dti
end TS
