import Verif.Bits
import Verif.Expand
/-
What the loops over the prefix bitmap do when slots are inserted into or removed from an array.
-/
namespace TS

/-- Bits `t < pb` of different elements are different bits. -/
theorem cell_inj {pb e e' t t' : Nat} (ht : t < pb) (ht' : t' < pb) (h : e * pb + t = e' * pb + t') :
    e = e' ∧ t = t' := by
  have h1 : (e * pb + t) / pb = e := by
    rw [Nat.add_comm, Nat.add_mul_div_right _ _ (by omega), Nat.div_eq_of_lt ht]; omega
  have h2 : (e' * pb + t') / pb = e' := by
    rw [Nat.add_comm, Nat.add_mul_div_right _ _ (by omega), Nat.div_eq_of_lt ht']; omega
  have : e = e' := by rw [← h1, ← h2, h]
  subst this
  exact ⟨rfl, by omega⟩

theorem cell_le {pb e n : Nat} (h : e < n) : e * pb + pb ≤ n * pb := by
  have := Nat.mul_le_mul_right pb (Nat.succ_le_of_lt h)
  rw [Nat.succ_mul] at this; exact this

/-- Element `e` of `pb` bits begins at `e * pb`: writing it changes its bits only. -/
theorem bit_withCell {off pb : Nat} (m : Bytes) (a v e t : Nat) (ht : t < pb)
    (h : off + bitmapBytes (a * pb + pb) ≤ m.length) :
    bit (withBits off m (a * pb) pb v) off (e * pb + t) =
      if e = a then v.testBit t else bit m off (e * pb + t) := by
  rw [bit_withBits _ _ _ _ _ h]
  by_cases he : e = a
  · subst he
    rw [if_pos (by omega), if_pos rfl]
    congr 1; omega
  · rw [if_neg, if_neg he]
    rintro ⟨h1, h2⟩
    have : e * pb + t = a * pb + (e * pb + t - a * pb) := by omega
    exact he (cell_inj ht (by omega) this).1

theorem bitmapBytes_mono {a b : Nat} (h : a ≤ b) : bitmapBytes a ≤ bitmapBytes b := by
  unfold bitmapBytes; omega

/-- One step of the copying loops. -/
theorem copyBits_cons {off pb : Nat} {m : Bytes} {a b n : Nat} {r : List (Nat × Nat)} (hpb : pb ≤ 64)
    (ha : a < n) (hb : b < n) (h : off + bitmapBytes (n * pb) ≤ m.length) :
    copyBits off pb m ((a * pb, b * pb) :: r) =
      copyBits off pb (withBits off m (b * pb) pb (bitsVal m off (a * pb) pb)) r := by
  have h1 := bitmapBytes_mono (cell_le (pb := pb) ha)
  have h2 := bitmapBytes_mono (cell_le (pb := pb) hb)
  conv => lhs; unfold copyBits
  simp only [getBits, setBits, if_pos hpb]
  rw [getBitsN_eq _ _ (by omega)]
  simp only [Option.bind_eq_bind, Option.bind_some]
  rw [setBitsN_eq _ _ _ _ (by omega)]
  rfl

theorem copyBits_append {off pb : Nat} (l r : List (Nat × Nat)) (m : Bytes) :
    copyBits off pb m (l ++ r) = (copyBits off pb m l).bind (fun m => copyBits off pb m r) := by
  induction l generalizing m with
  | nil => rfl
  | cons x l ih =>
    obtain ⟨a, b⟩ := x
    simp only [List.cons_append, copyBits, Option.bind_eq_bind]
    cases getBits m off a pb with
    | none => rfl
    | some v =>
      simp only [Option.bind_some]
      cases setBits m off b pb v with
      | none => rfl
      | some m => simp only [Option.bind_some]; exact ih m

/-- What a pass over the bitmap of `n` elements of `pb` bits leaves: bit `t` of element `e` is
given by `f`, no other byte changes. -/
structure BitPass (off pb n : Nat) (m m' : Bytes) (f : Nat → Nat → Bool) : Prop where
  len : m'.length = m.length
  bits : ∀ e t, e < n → t < pb → bit m' off (e * pb + t) = f e t
  out : ∀ x l, x + l ≤ off ∨ off + bitmapBytes (n * pb) ≤ x → rd m' x l = rd m x l

theorem BitPass.refl (off pb n : Nat) (m : Bytes) :
    BitPass off pb n m m (fun e t => bit m off (e * pb + t)) := ⟨rfl, fun _ _ _ _ => rfl, fun _ _ _ => rfl⟩

theorem BitPass.cell {off pb n : Nat} {m m' : Bytes} {f : Nat → Nat → Bool} (h : BitPass off pb n m m' f)
    {a : Nat} (ha : a < n) (v : Nat) (hl : off + bitmapBytes (n * pb) ≤ m.length) :
    BitPass off pb n m (withBits off m' (a * pb) pb v) (fun e t => if e = a then v.testBit t else f e t) := by
  have h1 := bitmapBytes_mono (cell_le (pb := pb) ha)
  refine ⟨by rw [withBits_length]; exact h.len, ?_, ?_⟩
  · intro e t he ht
    rw [bit_withCell _ _ _ _ _ ht (by rw [h.len]; omega), h.bits e t he ht]
  · intro x l hx
    rw [rd_withBits _ _ _ _ (by omega)]
    exact h.out x l hx

/-- The loop that makes room: the last `k` elements go up by `slots` elements. -/
theorem copyUp {off pb : Nat} {m : Bytes} {n slots k : Nat} (hpb : pb ≤ 64) (hk : k ≤ n)
    (h : off + bitmapBytes ((n + slots) * pb) ≤ m.length) :
    ∃ m', copyBits off pb m
        ((List.range k).map (fun i => ((n - 1 - i) * pb, (n + slots - 1 - i) * pb))) = some m' ∧
      BitPass off pb (n + slots) m m' (fun e t =>
        if n + slots - k ≤ e then bit m off ((e - slots) * pb + t) else bit m off (e * pb + t)) := by
  induction k with
  | zero =>
    refine ⟨m, rfl, rfl, ?_, fun _ _ _ => rfl⟩
    intro e t he ht
    rw [if_neg (by omega)]
  | succ k ih =>
    obtain ⟨m1, e1, p1⟩ := ih (by omega)
    rw [List.range_succ, List.map_append, copyBits_append, e1]
    simp only [List.map_cons, List.map_nil, Option.bind_some]
    rw [copyBits_cons hpb (n := n + slots) (by omega) (by omega) (by rw [p1.len]; exact h)]
    refine ⟨_, rfl, ?_⟩
    have p2 := p1.cell (a := n + slots - 1 - k) (by omega) (bitsVal m1 off ((n - 1 - k) * pb) pb) h
    refine ⟨p2.len, ?_, p2.out⟩
    intro e t he ht
    rw [p2.bits e t he ht]
    by_cases hh : e = n + slots - 1 - k
    · subst hh
      rw [if_pos rfl, if_pos (by omega), testBit_bitsVal, decide_eq_true ht, Bool.true_and,
        p1.bits _ _ (by omega) ht]
      have : n + slots - 1 - k - slots = n - 1 - k := by omega
      rw [this]
      by_cases hs : slots = 0
      · subst hs; simp
      · rw [if_neg (by omega)]
    · rw [if_neg hh]
      by_cases h2 : n + slots - k ≤ e
      · rw [if_pos h2, if_pos (by omega)]
      · rw [if_neg h2, if_neg (by omega)]

/-- The loop that closes a gap: `k` elements from `index + slots` on go down by `slots`. -/
theorem copyDown {off pb : Nat} {m : Bytes} {n index slots k : Nat} (hpb : pb ≤ 64)
    (hk : index + slots + k ≤ n) (h : off + bitmapBytes (n * pb) ≤ m.length) :
    ∃ m', copyBits off pb m
        ((List.range k).map (fun i => ((index + slots + i) * pb, (index + i) * pb))) = some m' ∧
      BitPass off pb n m m' (fun e t =>
        if index ≤ e ∧ e < index + k then bit m off ((e + slots) * pb + t)
        else bit m off (e * pb + t)) := by
  induction k with
  | zero =>
    refine ⟨m, rfl, rfl, ?_, fun _ _ _ => rfl⟩
    intro e t he ht
    rw [if_neg (by omega)]
  | succ k ih =>
    obtain ⟨m1, e1, p1⟩ := ih (by omega)
    rw [List.range_succ, List.map_append, copyBits_append, e1]
    simp only [List.map_cons, List.map_nil, Option.bind_some]
    rw [copyBits_cons hpb (n := n) (by omega) (by omega) (by rw [p1.len]; exact h)]
    refine ⟨_, rfl, ?_⟩
    have p2 := p1.cell (a := index + k) (by omega) (bitsVal m1 off ((index + slots + k) * pb) pb) h
    refine ⟨p2.len, ?_, p2.out⟩
    intro e t he ht
    rw [p2.bits e t he ht]
    by_cases hh : e = index + k
    · subst hh
      rw [if_pos rfl, if_pos (by omega), testBit_bitsVal, decide_eq_true ht, Bool.true_and,
        p1.bits _ _ (by omega) ht]
      rw [if_neg (by omega)]
      have : index + slots + k = index + k + slots := by omega
      rw [this]
    · rw [if_neg hh]
      by_cases h2 : index ≤ e ∧ e < index + k
      · rw [if_pos h2, if_pos (by omega)]
      · rw [if_neg h2, if_neg (by omega)]

theorem zeroBits_append {off pb : Nat} (l r : List Nat) (m : Bytes) :
    zeroBits off pb m (l ++ r) = (zeroBits off pb m l).bind (fun m => zeroBits off pb m r) := by
  induction l generalizing m with
  | nil => rfl
  | cons x l ih =>
    simp only [List.cons_append, zeroBits, Option.bind_eq_bind]
    cases setBits m off x pb 0 with
    | none => rfl
    | some m => simp only [Option.bind_some]; exact ih m

theorem resetBits_eq (off : Nat) (l : List Nat) (m : Bytes) : resetBits off m l = zeroBits off 1 m l := by
  induction l generalizing m with
  | nil => rfl
  | cons x l ih =>
    simp only [resetBits, zeroBits, Option.bind_eq_bind]
    have : setBits m off x 1 0 = resetBit m off x := by
      simp [setBits, setBitsN, putBit]
    rw [this]
    cases resetBit m off x with
    | none => rfl
    | some m => simp only [Option.bind_some]; exact ih m

/-- The loop that zeroes `k` elements. -/
theorem zeroRange {off pb : Nat} {m : Bytes} {n index k : Nat} (hpb : pb ≤ 64)
    (hk : index + k ≤ n) (h : off + bitmapBytes (n * pb) ≤ m.length) :
    ∃ m', zeroBits off pb m ((List.range k).map (fun i => (index + i) * pb)) = some m' ∧
      BitPass off pb n m m' (fun e t =>
        if index ≤ e ∧ e < index + k then false else bit m off (e * pb + t)) := by
  induction k with
  | zero =>
    refine ⟨m, rfl, rfl, ?_, fun _ _ _ => rfl⟩
    intro e t he ht
    rw [if_neg (by omega)]
  | succ k ih =>
    obtain ⟨m1, e1, p1⟩ := ih (by omega)
    have h1 := bitmapBytes_mono (cell_le (pb := pb) (show index + k < n by omega))
    rw [List.range_succ, List.map_append, zeroBits_append, e1]
    simp only [List.map_cons, List.map_nil, Option.bind_some, zeroBits, setBits, if_pos hpb]
    rw [setBitsN_eq _ _ _ _ (by rw [p1.len]; omega)]
    refine ⟨_, rfl, ?_⟩
    have p2 := p1.cell (a := index + k) (by omega) 0 h
    refine ⟨p2.len, ?_, p2.out⟩
    intro e t he ht
    rw [p2.bits e t he ht]
    by_cases hh : e = index + k
    · subst hh
      rw [if_pos rfl, if_pos (by omega), Nat.zero_testBit]
    · rw [if_neg hh]
      by_cases h2 : index ≤ e ∧ e < index + k
      · rw [if_pos h2, if_pos (by omega)]
      · rw [if_neg h2, if_neg (by omega)]

/-- Zeroing the unused bits keeps the used ones. -/
theorem zeroTail_ok {off total : Nat} {m : Bytes} (h : off + bitmapBytes total ≤ m.length) :
    ∃ m', zeroTail m off total = some m' ∧ m'.length = m.length ∧
      (∀ j, j < total → bit m' off j = bit m off j) ∧
      (∀ j, total ≤ j → j < bitmapBytes total * 8 → bit m' off j = false) ∧
      (∀ x l, x + l ≤ off ∨ off + bitmapBytes total ≤ x → rd m' x l = rd m x l) := by
  unfold zeroTail
  by_cases hc : bitmapBytes total * 8 > total
  · rw [if_pos hc]
    have he : total + (bitmapBytes total * 8 - total) = bitmapBytes total * 8 := by omega
    have hb : bitmapBytes (bitmapBytes total * 8) = bitmapBytes total := by
      unfold bitmapBytes; omega
    simp only [setBits]
    rw [if_pos (by unfold bitmapBytes; omega), setBitsN_eq _ _ _ _ (by rw [he, hb]; exact h)]
    refine ⟨_, rfl, by rw [withBits_length], ?_, ?_, ?_⟩
    · intro j hj
      rw [bit_withBits _ _ _ _ _ (by rw [he, hb]; exact h), if_neg (by omega)]
    · intro j hj hj2
      rw [bit_withBits _ _ _ _ _ (by rw [he, hb]; exact h), if_pos (by omega), Nat.zero_testBit]
    · intro x l hx
      rw [rd_withBits _ _ _ _ (by rw [he, hb]; exact hx)]
  · rw [if_neg hc]
    exact ⟨m, rfl, rfl, fun _ _ => rfl, fun j h1 h2 => absurd h2 (by omega), fun _ _ _ => rfl⟩

end TS
