import Verif.FixedRep
import Verif.Container
/-
Laws of bit ranges in a byte string, and of rotation.
-/
namespace TS

/-- The `k` bits from bit `a` on of the bitmap at `off`, as a number. -/
def bitsVal (m : Bytes) (off : Nat) : Nat → Nat → Nat
  | _, 0 => 0
  | a, k + 1 => (bit m off a).toNat + 2 * bitsVal m off (a + 1) k

/-- The byte string with these bits replaced. -/
def withBits (off : Nat) : Bytes → Nat → Nat → Nat → Bytes
  | m, _, 0, _ => m
  | m, a, k + 1, v => withBits off (withBit m off a (v % 2 = 1)) (a + 1) k (v / 2)

theorem getBitsN_eq {m : Bytes} {off : Nat} (k a : Nat) (h : off + bitmapBytes (a + k) ≤ m.length) :
    getBitsN m off a k = some (bitsVal m off a k) := by
  induction k generalizing a with
  | zero => rfl
  | succ k ih =>
    unfold bitmapBytes at h
    simp only [getBitsN, bitsVal]
    rw [getBit_eq (by omega), ih (a + 1) (by unfold bitmapBytes; omega)]
    rfl

theorem setBitsN_eq {off : Nat} (k : Nat) (m : Bytes) (a v : Nat)
    (h : off + bitmapBytes (a + k) ≤ m.length) :
    setBitsN off m a k v = some (withBits off m a k v) := by
  induction k generalizing m a v with
  | zero => rfl
  | succ k ih =>
    unfold bitmapBytes at h
    simp only [setBitsN, withBits]
    rw [putBit_eq (by omega)]
    simp only [Option.bind_eq_bind, Option.bind_some]
    rw [ih _ (a + 1) _ (by unfold bitmapBytes; simp; omega)]

@[simp] theorem withBits_length (off : Nat) (k : Nat) (m : Bytes) (a v : Nat) :
    (withBits off m a k v).length = m.length := by
  induction k generalizing m a v with
  | zero => rfl
  | succ k ih => simp [withBits, ih]

theorem bit_withBits {off : Nat} (k : Nat) (m : Bytes) (a v j : Nat)
    (h : off + bitmapBytes (a + k) ≤ m.length) :
    bit (withBits off m a k v) off j =
      if a ≤ j ∧ j < a + k then v.testBit (j - a) else bit m off j := by
  induction k generalizing m a v with
  | zero => rw [if_neg (by omega)]; rfl
  | succ k ih =>
    unfold bitmapBytes at h
    simp only [withBits]
    rw [ih _ _ _ (by unfold bitmapBytes; simp; omega), bit_withBit (by omega)]
    by_cases h1 : a + 1 ≤ j ∧ j < a + 1 + k
    · rw [if_pos h1, if_pos (by omega), show j - a = (j - (a + 1)) + 1 by omega, Nat.testBit_succ]
    · rw [if_neg h1]
      by_cases h2 : j = a
      · subst h2
        rw [if_pos rfl, if_pos (by omega), Nat.sub_self, Nat.testBit_zero]
      · rw [if_neg h2, if_neg (by omega)]

theorem rd_withBits {off : Nat} (k : Nat) (m : Bytes) (a v : Nat) {x l : Nat}
    (hd : x + l ≤ off ∨ off + bitmapBytes (a + k) ≤ x) :
    rd (withBits off m a k v) x l = rd m x l := by
  induction k generalizing m a v with
  | zero => rfl
  | succ k ih =>
    unfold bitmapBytes at hd
    simp only [withBits]
    rw [ih _ _ _ (by unfold bitmapBytes; omega), rd_withBit _ _ (by omega)]

theorem bitsVal_ext {m m' : Bytes} {off off' : Nat} (k a a' : Nat)
    (h : ∀ x, x < k → bit m' off' (a' + x) = bit m off (a + x)) :
    bitsVal m' off' a' k = bitsVal m off a k := by
  induction k generalizing a a' with
  | zero => rfl
  | succ k ih =>
    simp only [bitsVal]
    have h0 := h 0 (by omega)
    simp only [Nat.add_zero] at h0
    rw [h0, ih (a + 1) (a' + 1) (fun x hx => by
      have := h (x + 1) (by omega)
      rw [show a' + 1 + x = a' + (x + 1) by omega, this]; congr 1; omega)]

theorem bitsVal_lt (m : Bytes) (off : Nat) (k a : Nat) : bitsVal m off a k < 2 ^ k := by
  induction k generalizing a with
  | zero => simp [bitsVal]
  | succ k ih =>
    simp only [bitsVal, Nat.pow_succ]
    have := ih (a + 1)
    cases bit m off a <;> simp <;> omega

theorem testBit_bitsVal (m : Bytes) (off : Nat) (k a x : Nat) :
    (bitsVal m off a k).testBit x = (decide (x < k) && bit m off (a + x)) := by
  induction k generalizing a x with
  | zero => simp [bitsVal]
  | succ k ih =>
    simp only [bitsVal]
    cases x with
    | zero =>
      simp [Nat.testBit_zero]
      cases bit m off a <;> simp <;> omega
    | succ x =>
      rw [Nat.testBit_succ]
      have : ((bit m off a).toNat + 2 * bitsVal m off (a + 1) k) / 2 = bitsVal m off (a + 1) k := by
        cases bit m off a <;> simp <;> omega
      rw [this, ih]
      rw [show a + 1 + x = a + (x + 1) by omega]
      simp

theorem bitsVal_withBits {off : Nat} (k : Nat) (m : Bytes) (a v : Nat)
    (h : off + bitmapBytes (a + k) ≤ m.length) :
    bitsVal (withBits off m a k v) off a k = v % 2 ^ k := by
  apply Nat.eq_of_testBit_eq
  intro x
  rw [testBit_bitsVal, Nat.testBit_mod_two_pow, bit_withBits _ _ _ _ _ h]
  by_cases hx : x < k
  · rw [if_pos (by omega)]; simp
  · simp [hx]

/-- Bits only depend on the byte that holds them. -/
theorem bit_congr {m m' : Bytes} {off j : Nat} (h : m'[off + j / 8]? = m[off + j / 8]?) :
    bit m' off j = bit m off j := by
  unfold bit; rw [h]

theorem rd_take {m : Bytes} {S a l : Nat} (h : a + l ≤ S) : rd (m.take S) a l = rd m a l := by
  apply rd_ext
  intro i hi
  rw [List.getElem?_take, if_pos (by omega)]

theorem rd_drop (m : Bytes) (o a l : Nat) : rd (m.drop o) a l = rd m (o + a) l := by
  apply rd_ext
  intro i hi
  rw [List.getElem?_drop]; congr 1; omega

theorem rd_zero_eq_take (m : Bytes) (l : Nat) : rd m 0 l = m.take l := by simp [rd]

/-- What a left rotation leaves at each place. -/
theorem rotLeft_spec {m : Bytes} {off len rot : Nat} (h : off + len ≤ m.length) (hr : rot ≤ len) :
    ∃ m', rotLeft m off len rot = some m' ∧ m'.length = m.length ∧
      (∀ a l, a + l ≤ off ∨ off + len ≤ a → rd m' a l = rd m a l) ∧
      (∀ a l, off ≤ a → a + l ≤ off + (len - rot) → rd m' a l = rd m (a + rot) l) ∧
      (∀ a l, off + (len - rot) ≤ a → a + l ≤ off + len →
        rd m' a l = rd m (a - (len - rot)) l) := by
  unfold rotLeft
  rw [load_eq h]
  simp only [Option.bind_eq_bind, Option.bind_some, if_pos hr]
  have hl := rd_length m off len h
  have hb : ((rd m off len).drop rot ++ (rd m off len).take rot).length = len := by
    simp [hl]; omega
  rw [store_eq (by rw [hb]; exact h)]
  refine ⟨_, rfl, by simp, ?_, ?_, ?_⟩
  · intro a l hd
    exact rd_wr_disj _ _ _ _ _ (by rw [hb]; exact hd)
  · intro a l h1 h2
    rw [rd_wr_sub _ _ _ (by rw [hb]; exact h) _ _ h1 (by rw [hb]; omega)]
    apply rd_ext
    intro i hi
    rw [List.getElem?_append_left (by simp [hl]; omega), List.getElem?_drop, rd_getElem?,
      if_pos (by omega)]
    congr 1; omega
  · intro a l h1 h2
    rw [rd_wr_sub _ _ _ (by rw [hb]; exact h) _ _ (by omega) (by rw [hb]; omega)]
    apply rd_ext
    intro i hi
    rw [List.getElem?_append_right (by simp [hl]; omega), List.getElem?_take, if_pos (by simp [hl]; omega),
      rd_getElem?, if_pos (by simp [hl]; omega)]
    congr 1; simp [hl]; omega

end TS
