import Verif.ContShift
/-
Inserting slots into a container with a variable number of elements.
-/
namespace TS
namespace Dti

section
variable {d c : Dti} {m m' : Bytes} {S : Nat} {cs : List Elt} {o : Nat → Nat}

/-- Where element `i` goes. -/
def insIdx (index slots i : Nat) : Nat := if i < index then i else i + slots

/-- What inserting `slots` slots at `index` into a container of `n` elements must do to the memory
behind the prefix; `S` is the old size, `N` the new one. -/
structure Grown (d c : Dti) (m m' : Bytes) (n index slots S N : Nat) : Prop where
  len : m'.length = m.length
  pre : ∀ x l, x + l ≤ d.offBitmap → rd m' x l = rd m x l
  out : ∀ x l, N ≤ x → rd m' x l = rd m x l
  old : ∀ i, i < n → Moved d c m m' n (n + slots) i (insIdx index slots i) (· + d.w * slots)
  new : ∀ k, k < slots → Zeroed d c m' (n + slots) (index + k)
  heap : c.isVar = true → ∀ x l, fixedEnd d n ≤ x → x + l ≤ S → rd m' (x + d.w * slots) l = rd m x l

theorem insIdx_lt {n index slots i : Nat} (hi : i < n) : insIdx index slots i < n + slots := by
  unfold insIdx; split <;> omega

theorem bit_not_var (hok : TyOk c) (hb : c.isBit = true) : c.isVar = false := by
  cases hv : c.isVar with
  | false => rfl
  | true => rw [isVar_not_bit hok hv] at hb; cases hb

theorem growBit_ok {n index slots N : Nat} (hc : d.cont = some c) (hok : TyOk c) (hb : c.isBit = true)
    (hpb : c.eltBits ≤ 64) (hi : index ≤ n) (hN : N = fixedEnd d (n + slots)) (hl : N ≤ m.length) :
    ∃ m', d.growBit c m n index slots = some m' ∧ Grown d c m m' n index slots S N := by
  rw [cont_fixedEnd_bit hc hb] at hN
  have hv := bit_not_var hok hb
  have hsz : c.needsValid.toNat + c.hdr.size = c.eltBits := rfl
  unfold growBit
  obtain ⟨m1, e1, p1⟩ := copyUp (off := d.offBitmap) (pb := c.eltBits) (m := m) (n := n) (slots := slots)
    (k := n - index) hpb (by omega) (by omega)
  obtain ⟨m2, e2, p2⟩ := zeroRange (off := d.offBitmap) (pb := c.eltBits) (m := m1) (n := n + slots)
    (index := index) (k := slots) hpb (by omega) (by rw [p1.len]; omega)
  obtain ⟨m3, e3, l3, b3, _, o3⟩ := zeroTail_ok (off := d.offBitmap) (total := (n + slots) * c.eltBits) (m := m2)
    (by rw [p2.len, p1.len]; omega)
  simp only [e1, Option.bind_eq_bind, Option.bind_some, e2, e3]
  have hbit : ∀ e t, e < n + slots → t < c.eltBits → bit m3 d.offBitmap (e * c.eltBits + t) =
      if index ≤ e ∧ e < index + slots then false
      else if index + slots ≤ e then bit m d.offBitmap ((e - slots) * c.eltBits + t)
      else bit m d.offBitmap (e * c.eltBits + t) := by
    intro e t he ht
    have := cell_le (pb := c.eltBits) he
    rw [b3 _ (by omega), p2.bits e t he ht, p1.bits e t he ht,
      show n + slots - (n - index) = index + slots by omega]
  have hrd : ∀ x l, x + l ≤ d.offBitmap ∨ d.offBitmap + bitmapBytes ((n + slots) * c.eltBits) ≤ x →
      rd m3 x l = rd m x l := by
    intro x l hx
    rw [o3 x l hx, p2.out x l hx, p1.out x l hx]
  have hold : ∀ i t, i < n → t < c.eltBits →
      bit m3 d.offBitmap (insIdx index slots i * c.eltBits + t) = bit m d.offBitmap (i * c.eltBits + t) := by
    intro i t hin ht
    rw [hbit _ _ (insIdx_lt hin) ht]
    unfold insIdx
    by_cases hlt : i < index
    · rw [if_pos hlt, if_neg (by omega), if_neg (by omega)]
    · rw [if_neg hlt, if_neg (by omega), if_pos (by omega), show i + slots - slots = i by omega]
  have hnew : ∀ k t, k < slots → t < c.eltBits →
      bit m3 d.offBitmap ((index + k) * c.eltBits + t) = false := by
    intro k t hk ht
    rw [hbit _ _ (by omega) ht, if_pos (by omega)]
  refine ⟨m3, rfl, by rw [l3, p2.len, p1.len], fun x l hx => hrd x l (Or.inl hx),
    fun x l hx => hrd x l (Or.inr (by omega)), ?_, ?_, (by rw [hv]; intro hh; cases hh)⟩
  · intro i hin
    obtain ⟨q1, q2, q3⟩ := cont_posOf_bit hc hb n i
    obtain ⟨r1, r2, r3⟩ := cont_posOf_bit hc hb (n + slots) (insIdx index slots i)
    refine ⟨?_, ?_, by simp [hb], by simp [hv]⟩
    · intro hn
      rw [q3 hn, r3 hn]
      have := hold i 0 hin (by rw [← hsz, hn]; simp only [Bool.toNat_true]; omega)
      simpa using this
    · intro _ x hx
      rw [q2, r2, Nat.add_assoc, Nat.add_assoc]
      exact hold i _ hin (by omega)
  · intro k hk
    obtain ⟨r1, r2, r3⟩ := cont_posOf_bit hc hb (n + slots) (index + k)
    refine ⟨?_, ?_, by simp [hb], by simp [hv]⟩
    · intro hn
      rw [r3 hn]
      have := hnew k 0 hk (by rw [← hsz, hn]; simp only [Bool.toNat_true]; omega)
      simpa using this
    · intro _ x hx
      rw [r2, Nat.add_assoc]
      exact hnew k _ hk (by omega)

/-- Moving the data behind a growing bitmap. -/
theorem shiftUp_ok {off bo bn len : Nat} (hle : bo ≤ bn) (hl : off + bn + len ≤ m.length) :
    ∃ m', shiftData off (off + bo + len) bo bn m = some m' ∧ m'.length = m.length ∧
      (∀ x l, x + l ≤ off + bo ∨ off + bn + len ≤ x → rd m' x l = rd m x l) ∧
      (∀ x l, x + l ≤ len → rd m' (off + bn + x) l = rd m (off + bo + x) l) := by
  unfold shiftData
  by_cases he : bo ≠ bn
  · rw [if_pos he, sub32_eq (by omega)]
    simp only [Option.bind_eq_bind, Option.bind_some]
    obtain ⟨m', h1, h2, h3, h4⟩ := moveIn_ok (m := m) (dst := off + bn) (src := off + bo)
      (len := off + bo + len - (off + bo)) (by omega) (by omega)
    refine ⟨m', h1, h2, ?_, ?_⟩
    · intro x l hx; exact h3 x l (by omega)
    · intro x l hx; exact h4 x l (by omega)
  · rw [if_neg he]
    have : bo = bn := by omega
    subst this
    exact ⟨m, rfl, rfl, fun _ _ _ => rfl, fun _ _ _ => rfl⟩

/-- The is-valid bits after slots were inserted. -/
theorem growValid_ok {off n index slots : Nat} (hi : index ≤ n)
    (hl : off + bitmapBytes (n + slots) ≤ m.length) :
    ∃ m', growValid off m n index slots = some m' ∧ m'.length = m.length ∧
      (∀ i, i < n → bit m' off (insIdx index slots i) = bit m off i) ∧
      (∀ k, k < slots → bit m' off (index + k) = false) ∧
      (∀ x l, x + l ≤ off ∨ off + bitmapBytes (n + slots) ≤ x → rd m' x l = rd m x l) := by
  obtain ⟨m1, e1, p1⟩ := copyUp (off := off) (pb := 1) (m := m) (n := n) (slots := slots)
    (k := n - index) (by omega) (by omega) (by rw [Nat.mul_one]; omega)
  obtain ⟨m2, e2, p2⟩ := zeroRange (off := off) (pb := 1) (m := m1) (n := n + slots)
    (index := index) (k := slots) (by omega) (by omega) (by rw [p1.len, Nat.mul_one]; omega)
  simp only [Nat.mul_one] at e1 e2
  unfold growValid
  simp only [e1, Option.bind_eq_bind, Option.bind_some, resetBits_eq, e2]
  have hbit : ∀ e, e < n + slots → bit m2 off e =
      if index ≤ e ∧ e < index + slots then false
      else if index + slots ≤ e then bit m off (e - slots) else bit m off e := by
    intro e he
    have h2 := p2.bits e 0 he (by omega)
    have h1 := p1.bits e 0 he (by omega)
    simp only [Nat.mul_one, Nat.add_zero] at h1 h2
    rw [h2, h1, show n + slots - (n - index) = index + slots by omega]
  refine ⟨m2, rfl, by rw [p2.len, p1.len], ?_, ?_, ?_⟩
  · intro i hin
    rw [hbit _ (insIdx_lt hin)]
    unfold insIdx
    by_cases hlt : i < index
    · rw [if_pos hlt, if_neg (by omega), if_neg (by omega)]
    · rw [if_neg hlt, if_neg (by omega), if_pos (by omega), show i + slots - slots = i by omega]
  · intro k hk
    rw [hbit _ (by omega), if_pos (by omega)]
  · intro x l hx
    rw [p2.out x l (by rw [Nat.mul_one]; exact hx), p1.out x l (by rw [Nat.mul_one]; exact hx)]

theorem growFixed_ok {n index slots N : Nat} (hc : d.cont = some c) (hok : TyOk c) (hb : c.isBit = false)
    (hv : c.isVar = false) (hi : index ≤ n) (hS : S = fixedEnd d n)
    (hN : N = fixedEnd d (n + slots)) (hN32 : N < 4294967296) (hl : N ≤ m.length) :
    ∃ m', d.growFixed c m S n index slots = some m' ∧ Grown d c m m' n index slots S N := by
  have hslot : slot d.w c = c.hdr.size := by simp [slot, hv]
  have hz1 := hok.size_pos
  rw [cont_fixedEnd hc hb, hslot] at hN hS
  have hpos : ∀ n i, posOf d n i = ⟨d.offBitmap + bitmapBytes (n * c.needsValid.toNat) + c.hdr.size * i,
      i * c.needsValid.toNat, c⟩ := by
    intro n i; rw [cont_posOf hc hb, hslot]
  generalize hz : c.hdr.size = z at *
  have hnz : n + slots ≤ (n + slots) * z := Nat.le_mul_of_pos_right _ (by omega)
  have hbb : (n + slots) * c.needsValid.toNat ≤ n + slots := by
    cases c.needsValid <;> simp
  have hbb2 : n * c.needsValid.toNat ≤ n := by
    cases c.needsValid <;> simp
  have hble : bitmapBytes (n * c.needsValid.toNat) ≤ bitmapBytes ((n + slots) * c.needsValid.toNat) :=
    bitmapBytes_mono (Nat.mul_le_mul_right _ (by omega))
  have hsplit : (n + slots) * z = index * z + slots * z + (n - index) * z := by
    rw [← Nat.add_mul, ← Nat.add_mul]; congr 1; omega
  have hsn : n * z = index * z + (n - index) * z := by rw [← Nat.add_mul]; congr 1; omega
  have his : (index + slots) * z = index * z + slots * z := Nat.add_mul _ _ _
  unfold growFixed
  simp only [hz]
  rw [w32_eq (x := (n + slots) * c.needsValid.toNat) (by omega), w32_eq (x := n * c.needsValid.toNat) (by omega),
    w32_eq (x := (index + slots) * z) (by omega), w32_eq (x := index * z) (by omega),
    w32_eq (x := (n - index) * z) (by omega), w32_eq (x := slots * z) (by omega), his]
  generalize hbn : bitmapBytes ((n + slots) * c.needsValid.toNat) = bn at *
  generalize hbo : bitmapBytes (n * c.needsValid.toNat) = bo at *
  generalize hO : d.offBitmap = O at *
  rw [hS]
  obtain ⟨m1, e1, l1, a1, s1⟩ := shiftUp_ok (m := m) (off := O) (bo := bo) (bn := bn) (len := n * z) hble (by omega)
  -- the bits
  have hbits : ∃ m2, whenB c.needsValid (fun m => growValid O m n index slots) m1 = some m2 ∧
      m2.length = m.length ∧
      (c.needsValid = true → ∀ i, i < n → bit m2 O (insIdx index slots i) = bit m O i) ∧
      (c.needsValid = true → ∀ k, k < slots → bit m2 O (index + k) = false) ∧
      (∀ x l, x + l ≤ O ∨ O + bn ≤ x → rd m2 x l = rd m1 x l) := by
    cases hn : c.needsValid with
    | false => exact ⟨m1, rfl, l1, by simp, by simp, fun _ _ _ => rfl⟩
    | true =>
      rw [hn] at hbn hbo
      simp only [Bool.toNat_true, Nat.mul_one] at hbn hbo
      obtain ⟨m2, g1, g2, g3, g4, g5⟩ := growValid_ok (m := m1) (off := O) (n := n) (index := index)
        (slots := slots) hi (by rw [l1]; omega)
      refine ⟨m2, by simp [whenB, g1], by rw [g2, l1], ?_, fun _ => g4, ?_⟩
      · intro _ i hin
        rw [g3 i hin]
        have hib : i / 8 < bo := by rw [← hbo]; unfold bitmapBytes; omega
        exact bit_of_rd (a1 O bo (Or.inl (by omega))) (by omega) (by omega)
      · rw [hbn] at g5; exact g5
  obtain ⟨m2, e2, l2, b2, c2, o2⟩ := hbits
  obtain ⟨m3, e3, l3, a3, s3⟩ := moveIn_ok (m := m2) (dst := O + bn + (index * z + slots * z))
    (src := O + bn + index * z) (len := (n - index) * z) (by omega) (by omega)
  obtain ⟨m4, e4, l4, a4, s4⟩ := zeroIn_ok (m := m3) (a := O + bn + index * z) (len := slots * z) (by omega)
  have htail : ∃ m5, whenB c.needsValid (fun m => zeroTail m O (n + slots)) m4 = some m5 ∧
      m5.length = m.length ∧
      (c.needsValid = true → ∀ j, j < n + slots → bit m5 O j = bit m4 O j) ∧
      (∀ x l, x + l ≤ O ∨ O + bn ≤ x → rd m5 x l = rd m4 x l) := by
    cases hn : c.needsValid with
    | false => exact ⟨m4, rfl, by omega, by simp, fun _ _ _ => rfl⟩
    | true =>
      rw [hn] at hbn
      simp only [Bool.toNat_true, Nat.mul_one] at hbn
      obtain ⟨m5, g1, g2, g3, _, g5⟩ := zeroTail_ok (m := m4) (off := O) (total := n + slots) (by rw [hbn]; omega)
      exact ⟨m5, by simp [whenB, g1], by omega, fun _ => g3, by rw [hbn] at g5; exact g5⟩
  obtain ⟨m5, e5, l5, b5, o5⟩ := htail
  simp only [e1, e2, e3, e4, e5, Option.bind_eq_bind, Option.bind_some]
  -- what is where
  have hbit : c.needsValid = true → ∀ j, j < n + slots → bit m5 O j = bit m2 O j := by
    intro hn j hj
    rw [b5 hn j hj]
    have hjb : j / 8 < bn := by
      rw [hn] at hbn
      simp only [Bool.toNat_true, Nat.mul_one] at hbn
      rw [← hbn]; unfold bitmapBytes; omega
    rw [bit_of_rd (a4 O bn (Or.inl (by omega))) (by omega) (by omega)]
    exact bit_of_rd (a3 O bn (Or.inl (by omega))) (by omega) (by omega)
  refine ⟨m5, rfl, l5, ?_, ?_, ?_, ?_, by rw [hv]; intro hh; cases hh⟩
  · intro x l hx
    rw [hO] at hx
    rw [o5 x l (by omega), a4 x l (by omega), a3 x l (by omega), o2 x l (by omega), a1 x l (by omega)]
  · intro x l hx
    rw [o5 x l (by omega), a4 x l (by omega), a3 x l (by omega), o2 x l (by omega), a1 x l (by omega)]
  · intro i hin
    refine ⟨?_, by simp [hb], ?_, by simp [hv]⟩
    · intro hn
      simp only [hpos, hn, Bool.toNat_true, Nat.mul_one, hO]
      rw [hbit hn _ (insIdx_lt hin)]
      exact b2 hn i hin
    · intro _ _
      simp only [hpos, hbn, hbo, hz]
      rw [Nat.mul_comm z i, Nat.mul_comm z _]
      have hin' := cell_le (pb := z) hin
      unfold insIdx
      by_cases hlt : i < index
      · have hlt' := cell_le (pb := z) hlt
        rw [if_pos hlt, o5 _ _ (by omega), a4 _ _ (by omega), a3 _ _ (by omega), o2 _ _ (by omega),
          s1 _ _ (by omega)]
      · have hge : i * z = index * z + (i - index) * z := by rw [← Nat.add_mul]; congr 1; omega
        have hx : (i - index) * z + z ≤ (n - index) * z := cell_le (by omega)
        rw [if_neg hlt, Nat.add_mul, o5 _ _ (by omega), a4 _ _ (by omega),
          show O + bn + (i * z + slots * z) = O + bn + (index * z + slots * z) + (i - index) * z by omega,
          s3 _ _ hx, o2 _ _ (by omega),
          show O + bn + index * z + (i - index) * z = O + bn + i * z by omega, s1 _ _ (by omega)]
  · intro k hk
    refine ⟨?_, by simp [hb], ?_, by simp [hv]⟩
    · intro hn
      simp only [hpos, hn, Bool.toNat_true, Nat.mul_one, hO]
      rw [hbit hn _ (by omega)]
      exact c2 hn k hk
    · intro _ _
      have hx : k * z + z ≤ slots * z := cell_le hk
      simp only [hpos, hbn, hz]
      rw [Nat.mul_comm z _, Nat.add_mul, o5 _ _ (by omega), ← Nat.add_assoc]
      exact s4 _ _ hx

/-! ### variable sized elements -/

/-- Adjusting the offsets. -/
theorem fixOffs_ok {g : Nat → Option Nat} {G : Nat → Nat} {k : Nat}
    (hl : d.offBitmap + k * d.w ≤ m.length)
    (hg : ∀ i, i < k → d.word m (d.offBitmap + i * d.w) ≠ 0 →
      g (d.word m (d.offBitmap + i * d.w)) = some (G (d.word m (d.offBitmap + i * d.w))) ∧
      G (d.word m (d.offBitmap + i * d.w)) < 256 ^ d.w) :
    ∃ m', d.fixOffs g m (List.range k) = some m' ∧ m'.length = m.length ∧
      (∀ x l, x + l ≤ d.offBitmap ∨ d.offBitmap + k * d.w ≤ x → rd m' x l = rd m x l) ∧
      (∀ i, i < k → d.word m' (d.offBitmap + i * d.w) =
        if d.word m (d.offBitmap + i * d.w) = 0 then 0 else G (d.word m (d.offBitmap + i * d.w))) := by
  have happ : ∀ (l r : List Nat) (m : Bytes),
      d.fixOffs g m (l ++ r) = (d.fixOffs g m l).bind (fun m => d.fixOffs g m r) := by
    intro l
    induction l with
    | nil => intro r m; rfl
    | cons x l ih =>
      intro r m
      simp only [List.cons_append, fixOffs, Option.bind_eq_bind]
      cases d.fixOff g m x with
      | none => rfl
      | some m => simp only [Option.bind_some]; exact ih r m
  induction k with
  | zero => exact ⟨m, rfl, rfl, fun _ _ _ => rfl, by intro i hi; omega⟩
  | succ k ih =>
    rw [Nat.succ_mul] at hl
    obtain ⟨m1, e1, l1, o1, w1⟩ := ih (by omega) (fun i hi => hg i (by omega))
    have hwk : d.word m1 (d.offBitmap + k * d.w) = d.word m (d.offBitmap + k * d.w) := by
      unfold word; rw [o1 _ _ (Or.inr (Nat.le_refl _))]
    rw [List.range_succ, happ, e1]
    simp only [Option.bind_some, fixOffs, fixOff, Option.bind_eq_bind, Option.bind_fun_some]
    rw [word_eq rfl (by omega)]
    simp only [Option.bind_some, hwk]
    by_cases h0 : d.word m (d.offBitmap + k * d.w) = 0
    · simp only [h0, ne_eq, not_true, if_false]
      refine ⟨m1, rfl, l1, ?_, ?_⟩
      · intro x l hx; rw [Nat.succ_mul] at hx; exact o1 x l (by omega)
      · intro i hi
        by_cases hik : i = k
        · subst hik; rw [hwk, h0]; rfl
        · exact w1 i (by omega)
    · obtain ⟨g1, g2⟩ := hg k (by omega) h0
      simp only [ne_eq, h0, not_false_eq_true, if_true, g1, Option.bind_some]
      unfold storeVal
      have hww : vsz d.hdr.maxSize = d.w := rfl
      rw [hww, store_eq (by simp; omega)]
      refine ⟨_, rfl, by simp [l1], ?_, ?_⟩
      · intro x l hx
        rw [Nat.succ_mul] at hx
        rw [rd_wr_disj _ _ _ _ _ (by simp; omega)]
        exact o1 x l (by omega)
      · intro i hi
        by_cases hik : i = k
        · subst hik
          rw [if_neg h0]
          have := rd_wr_same m1 (d.offBitmap + i * d.w) (leEnc d.w (G (d.word m (d.offBitmap + i * d.w)))) (by simp; omega)
          rw [leEnc_length] at this
          refine Eq.trans (congrArg leDec this) ?_
          rw [leDec_leEnc, Nat.mod_eq_of_lt g2]
        · have hlt : i < k := by omega
          rw [← w1 i hlt]
          have := cell_le (pb := d.w) hlt
          unfold word
          rw [rd_wr_disj _ _ _ _ _ (by simp; omega)]

theorem growVar_ok {n index slots N : Nat} (hc : d.cont = some c) (hok : TyOk c)
    (hv : c.isVar = true) (hi : index ≤ n) (hS : fixedEnd d n ≤ S)
    (hN : N = S + slots * d.w) (hN32 : N < 4294967296) (hl : N ≤ m.length)
    (hw : ∀ i, i < n → d.word m (posOf d n i).off < S) (hNw : N ≤ 256 ^ d.w) :
    ∃ m', d.growVar m S n index slots = some m' ∧ Grown d c m m' n index slots S N := by
  have hb := isVar_not_bit hok hv
  have hslot : slot d.w c = d.w := by simp [slot, hv]
  have hnv : c.needsValid = false := by simp [needsValid, hv]
  have hfe : fixedEnd d n = d.offBitmap + n * d.w := by
    rw [cont_fixedEnd hc hb, hslot, hnv]; simp [bitmapBytes]
  have hpos : ∀ n i, (posOf d n i).off = d.offBitmap + i * d.w := by
    intro n i; rw [cont_posOf hc hb, hslot, hnv]; simp [bitmapBytes, Nat.mul_comm]
  rw [hfe] at hS
  simp only [hpos] at hw
  have hsn : n * d.w = index * d.w + (n - index) * d.w := by rw [← Nat.add_mul]; congr 1; omega
  have his : (index + slots) * d.w = index * d.w + slots * d.w := Nat.add_mul _ _ _
  unfold growVar
  rw [Nat.mul_comm d.w index, Nat.mul_comm d.w (index + slots), his]
  rw [w32_eq (x := index * d.w) (by omega), w32_eq (x := index * d.w + slots * d.w) (by omega),
    w32_eq (x := d.offBitmap + index * d.w) (by omega),
    w32_eq (x := d.offBitmap + (index * d.w + slots * d.w)) (by omega)]
  have hdel : d.offBitmap + (index * d.w + slots * d.w) - (d.offBitmap + index * d.w) = slots * d.w := by omega
  simp only [Option.bind_eq_bind]
  rw [sub32_eq (by omega), sub32_eq (by omega)]
  simp only [Option.bind_some, hdel]
  obtain ⟨m1, e1, l1, a1, s1⟩ := moveIn_ok (m := m) (dst := d.offBitmap + (index * d.w + slots * d.w))
    (src := d.offBitmap + index * d.w) (len := S - (d.offBitmap + index * d.w)) (by omega) (by omega)
  obtain ⟨m2, e2, l2, a2, s2⟩ := zeroIn_ok (m := m1) (a := d.offBitmap + index * d.w) (len := slots * d.w) (by omega)
  -- the words before they are adjusted
  have hold : ∀ i, i < n → d.word m2 (d.offBitmap + insIdx index slots i * d.w) =
      d.word m (d.offBitmap + i * d.w) := by
    intro i hin
    have hin' := cell_le (pb := d.w) hin
    unfold insIdx word
    by_cases hlt : i < index
    · have hlt' := cell_le (pb := d.w) hlt
      rw [if_pos hlt, a2 _ _ (by omega), a1 _ _ (by omega)]
    · have hge : i * d.w = index * d.w + (i - index) * d.w := by rw [← Nat.add_mul]; congr 1; omega
      rw [if_neg hlt, Nat.add_mul, a2 _ _ (by omega),
        show d.offBitmap + (i * d.w + slots * d.w) =
          d.offBitmap + (index * d.w + slots * d.w) + (i - index) * d.w by omega, s1 _ _ (by omega)]
      congr 2; omega
  have hnew : ∀ k, k < slots → d.word m2 (d.offBitmap + (index + k) * d.w) = 0 := by
    intro k hk
    have hx : k * d.w + d.w ≤ slots * d.w := cell_le hk
    unfold word
    rw [Nat.add_mul, ← Nat.add_assoc, s2 _ _ hx, leDec_replicate_zero]
  have hcase : ∀ j, j < n + slots → (∃ k, k < slots ∧ j = index + k) ∨ (∃ i, i < n ∧ j = insIdx index slots i) := by
    intro j hj
    by_cases h1 : j < index
    · right; exact ⟨j, by omega, by simp [insIdx, h1]⟩
    · by_cases h2 : j < index + slots
      · left; exact ⟨j - index, by omega, by omega⟩
      · right; exact ⟨j - slots, by omega, by unfold insIdx; rw [if_neg (by omega)]; omega⟩
  have hnsw : (n + slots) * d.w = n * d.w + slots * d.w := Nat.add_mul _ _ _
  have hG : ∀ j, j < n + slots → d.word m2 (d.offBitmap + j * d.w) ≠ 0 →
      some (w32 (d.word m2 (d.offBitmap + j * d.w) + slots * d.w)) =
        some (d.word m2 (d.offBitmap + j * d.w) + slots * d.w) ∧
      d.word m2 (d.offBitmap + j * d.w) + slots * d.w < 256 ^ d.w := by
    intro j hj hne
    rcases hcase j hj with ⟨k, hk, rfl⟩ | ⟨i, hin, rfl⟩
    · exact absurd (hnew k hk) hne
    · rw [hold i hin]
      have := hw i hin
      refine ⟨by rw [w32_eq (by omega)], ?_⟩
      generalize 256 ^ d.w = P at *
      omega
  obtain ⟨m3, e3, l3, o3, w3⟩ := fixOffs_ok (d := d) (m := m2) (g := fun o => some (w32 (o + slots * d.w)))
    (G := fun o => o + slots * d.w) (k := n + slots) (by omega) hG
  simp only [e1, e2, e3, Option.bind_some]
  refine ⟨m3, rfl, by omega, ?_, ?_, ?_, ?_, ?_⟩
  · intro x l hx
    rw [o3 _ _ (by omega), a2 _ _ (by omega), a1 _ _ (by omega)]
  · intro x l hx
    rw [o3 _ _ (by omega), a2 _ _ (by omega), a1 _ _ (by omega)]
  · intro i hin
    refine ⟨by simp [hnv], by simp [hb], by simp [hv], ?_⟩
    intro _
    simp only [hpos]
    rw [w3 _ (insIdx_lt hin), hold i hin, Nat.mul_comm d.w slots]
  · intro k hk
    refine ⟨by simp [hnv], by simp [hb], by simp [hv], ?_⟩
    intro _
    simp only [hpos]
    rw [w3 _ (by omega), hnew k hk, if_pos rfl]
  · intro _ x l hx1 hx2
    rw [hfe] at hx1
    rw [Nat.mul_comm d.w slots, o3 _ _ (by omega), a2 _ _ (by omega),
      show x + slots * d.w = d.offBitmap + (index * d.w + slots * d.w) + (x - (d.offBitmap + index * d.w)) by omega,
      s1 _ _ (by omega)]
    congr 1; omega

end
end Dti
end TS
