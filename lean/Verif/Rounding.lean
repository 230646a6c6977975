import Verif.Numeral
import Verif.CmpSpec
/-
Rounding to the nearest floating point number: conversions that satisfy `Conv.Ok`, and what follows
from `Rounds`.
-/
namespace TS

/-! ### Bit patterns without the sign -/

/-- Bits of the fraction, largest exponent field and scale of the smallest numbers of the `float`
(n = 4) and `double` (n = 8) formats. -/
def fracBits (n : Nat) : Nat := if n = 4 then 23 else 52
def expMax (n : Nat) : Nat := if n = 4 then 255 else 2047
def expScale (n : Nat) : Nat := if n = 4 then 925 else 0

/-- The pattern of infinity. -/
def infPat (n : Nat) : Nat := expMax n * 2 ^ fracBits n

/-- The magnitude with exponent field `e` and fraction field `f`, in units of 2^-1074. -/
def magEF (F sh e f : Nat) : Nat := if e = 0 then f * 2 ^ sh else (f + F) * 2 ^ (e - 1 + sh)

/-- The magnitude of a pattern. -/
def mag (n p : Nat) : Nat := magEF (2 ^ fracBits n) (expScale n) (p / 2 ^ fracBits n) (p % 2 ^ fracBits n)

theorem magEF_frac {F sh e f : Nat} : magEF F sh e f < magEF F sh e (f + 1) := by
  have h1 : 0 < 2 ^ sh := Nat.pow_pos (by decide)
  have h2 : 0 < 2 ^ (e - 1 + sh) := Nat.pow_pos (by decide)
  unfold magEF
  split
  · rw [Nat.add_mul]; omega
  · exact (Nat.mul_lt_mul_right h2).mpr (by omega)

theorem magEF_exp {F sh e f : Nat} (hf : f + 1 = F) : magEF F sh e f < magEF F sh (e + 1) 0 := by
  subst hf
  have h1 : 0 < 2 ^ sh := Nat.pow_pos (by decide)
  unfold magEF
  by_cases he : e = 0
  · subst he
    rw [if_pos rfl, if_neg (by omega)]
    simp only [Nat.zero_add, Nat.sub_self, Nat.add_mul]
    omega
  · rw [if_neg he, if_neg (by omega), show e + 1 - 1 + sh = (e - 1 + sh) + 1 by omega, Nat.pow_succ]
    have h2 : 0 < 2 ^ (e - 1 + sh) := Nat.pow_pos (by decide)
    generalize 2 ^ (e - 1 + sh) = P at *
    simp only [Nat.zero_add, Nat.add_mul, ← Nat.mul_assoc]
    omega

theorem mag_step (n p : Nat) : mag n p < mag n (p + 1) := by
  unfold mag
  have hF : 0 < 2 ^ fracBits n := Nat.pow_pos (by decide)
  generalize 2 ^ fracBits n = F at *
  have h0 := Nat.div_add_mod p F
  have h1 := Nat.mod_lt p hF
  by_cases hf : p % F + 1 = F
  · have hp : p + 1 = F * (p / F + 1) := by rw [Nat.mul_add]; omega
    have e1 : (p + 1) / F = p / F + 1 := by rw [hp, Nat.mul_div_cancel_left _ hF]
    have e2 : (p + 1) % F = 0 := by rw [hp, Nat.mul_mod_right]
    rw [e1, e2]
    exact magEF_exp hf
  · have e1 : (p + 1) / F = p / F := by
      rw [Nat.div_eq_iff hF]
      have : p / F * F = F * (p / F) := Nat.mul_comm _ _
      omega
    have e2 : (p + 1) % F = p % F + 1 := by
      have := Nat.div_add_mod (p + 1) F
      rw [e1] at this
      omega
    rw [e1, e2]
    exact magEF_frac

theorem mag_lt {n p q : Nat} (h : p < q) : mag n p < mag n q := by
  induction q with
  | zero => omega
  | succ q ih =>
    have := mag_step n q
    by_cases hq : p = q
    · rw [hq]; exact this
    · have := ih (by omega); omega

theorem mag_le {n p q : Nat} (h : p ≤ q) : mag n p ≤ mag n q := by
  by_cases he : p = q
  · rw [he]; omega
  · have := mag_lt (n := n) (show p < q by omega); omega

theorem mag_inj {n p q : Nat} (h : mag n p = mag n q) : p = q := by
  rcases Nat.lt_trichotomy p q with h1 | h1 | h1
  · have := mag_lt (n := n) h1; omega
  · exact h1
  · have := mag_lt (n := n) h1; omega

theorem mag_zero (n : Nat) : mag n 0 = 0 := by simp [mag, magEF]

theorem mag_inf {n : Nat} (hn : n = 4 ∨ n = 8) : (mag n (infPat n) : Int) = Num.past n := by
  have hF : 0 < 2 ^ fracBits n := Nat.pow_pos (by decide)
  have h1 : infPat n / 2 ^ fracBits n = expMax n := by unfold infPat; rw [Nat.mul_div_cancel _ hF]
  have h2 : infPat n % 2 ^ fracBits n = 0 := by unfold infPat; rw [Nat.mul_mod_left]
  have h3 : expMax n ≠ 0 := by unfold expMax; split <;> decide
  unfold mag magEF
  rw [h1, h2, if_neg h3, Nat.zero_add, ← Nat.pow_add]
  rcases hn with rfl | rfl <;> simp [Num.past, expMax, expScale, fracBits, -Nat.reducePow, -Int.reducePow]

theorem past_pos (n : Nat) : 0 < Num.past n := Int.pow_pos (by decide)

/-! ### What the bytes stand for -/

/-- The sign bit and the pattern of a floating point number. -/
def signOf (b : Bytes) : Nat := leDec b / 2 ^ (8 * b.length - 1)
def patOf (b : Bytes) : Nat := leDec b % 2 ^ (8 * b.length - 1)

/-- The magnitude with a sign. -/
def signed (s a : Nat) : Int := if s = 0 then a else -(a : Int)

theorem signOf_lt {b : Bytes} {n : Nat} (hn : n = 4 ∨ n = 8) (hb : b.length = n) : signOf b < 2 := by
  have := leDec_lt b
  unfold signOf
  rw [hb] at this ⊢
  rcases hn with rfl | rfl <;> simp at this ⊢ <;> omega

theorem ofBits_eq {b : Bytes} {n : Nat} (hn : n = 4 ∨ n = 8) (hb : b.length = n) :
    Num.ofBits b = if patOf b < infPat n then .fin (signed (signOf b) (mag n (patOf b)))
      else if patOf b = infPat n then (if signOf b = 0 then .pinf else .ninf) else .nan := by
  have hlt := leDec_lt b
  unfold Num.ofBits Num.ofFields signOf patOf signed mag magEF infPat
  rw [hb] at hlt ⊢
  generalize leDec b = N at *
  rcases hn with rfl | rfl
  · have e1 : N % 2 ^ (8 * 4 - 1) / 2 ^ 23 = N / 2 ^ 23 % 2 ^ 8 := by omega
    have e2 : N % 2 ^ (8 * 4 - 1) % 2 ^ 23 = N % 2 ^ 23 := by omega
    simp only [fracBits, expMax, expScale, if_true, e1, e2]
    by_cases h1 : N / 2 ^ 23 % 2 ^ 8 = 255
    · rw [if_pos h1, if_neg (show ¬ N % 2 ^ (8 * 4 - 1) < 255 * 2 ^ 23 by omega)]
      by_cases h2 : N % 2 ^ 23 = 0
      · rw [if_pos h2, if_pos (show N % 2 ^ (8 * 4 - 1) = 255 * 2 ^ 23 by omega)]
      · rw [if_neg h2, if_neg (show ¬ N % 2 ^ (8 * 4 - 1) = 255 * 2 ^ 23 by omega)]
    · rw [if_neg h1, if_pos (show N % 2 ^ (8 * 4 - 1) < 255 * 2 ^ 23 by omega)]
      have c2 : ((2 : Nat) : Int) = 2 := rfl
      by_cases h3 : N / 2 ^ 23 % 2 ^ 8 = 0 <;> by_cases h4 : N / 2 ^ (8 * 4 - 1) = 0 <;>
        simp only [h3, h4, if_true, if_false, Int.natCast_mul, Int.natCast_add, Int.natCast_pow, c2]
  · have e1 : N % 2 ^ (8 * 8 - 1) / 2 ^ 52 = N / 2 ^ 52 % 2 ^ 11 := by omega
    have e2 : N % 2 ^ (8 * 8 - 1) % 2 ^ 52 = N % 2 ^ 52 := by omega
    simp only [fracBits, expMax, expScale, show ¬ (8 = 4) by decide, if_false, e1, e2]
    by_cases h1 : N / 2 ^ 52 % 2 ^ 11 = 2047
    · rw [if_pos h1, if_neg (show ¬ N % 2 ^ (8 * 8 - 1) < 2047 * 2 ^ 52 by omega)]
      by_cases h2 : N % 2 ^ 52 = 0
      · rw [if_pos h2, if_pos (show N % 2 ^ (8 * 8 - 1) = 2047 * 2 ^ 52 by omega)]
      · rw [if_neg h2, if_neg (show ¬ N % 2 ^ (8 * 8 - 1) = 2047 * 2 ^ 52 by omega)]
    · rw [if_neg h1, if_pos (show N % 2 ^ (8 * 8 - 1) < 2047 * 2 ^ 52 by omega)]
      have c2 : ((2 : Nat) : Int) = 2 := rfl
      by_cases h3 : N / 2 ^ 52 % 2 ^ 11 = 0 <;> by_cases h4 : N / 2 ^ (8 * 8 - 1) = 0 <;>
        simp only [h3, h4, if_true, if_false, Int.natCast_mul, Int.natCast_add, Int.natCast_pow, c2]

/-- A floating point number that is not NaN. -/
theorem ofBits_num {b : Bytes} {n : Nat} (hn : n = 4 ∨ n = 8) (hb : b.length = n) :
    (Num.ofBits b ≠ .nan ↔ patOf b ≤ infPat n) ∧
    (patOf b ≤ infPat n → (Num.ofBits b).ext n = signed (signOf b) (mag n (patOf b))) := by
  rw [ofBits_eq hn hb]
  by_cases h1 : patOf b < infPat n
  · rw [if_pos h1]; exact ⟨by simp; omega, fun _ => rfl⟩
  · rw [if_neg h1]
    by_cases h2 : patOf b = infPat n
    · rw [if_pos h2]
      refine ⟨by constructor; · omega
                 · intro _; split <;> nofun, fun _ => ?_⟩
      rw [h2]
      unfold signed
      split <;> simp [Num.ext, mag_inf hn]
    · rw [if_neg h2]
      exact ⟨by simp; omega, by omega⟩

/-- Numbers other than NaN are determined by their value. -/
theorem ext_inj {b c : Bytes} {n : Nat} (hn : n = 4 ∨ n = 8) (hb : b.length = n) (hc : c.length = n)
    (hb' : Num.ofBits b ≠ .nan) (hc' : Num.ofBits c ≠ .nan) (h : (Num.ofBits b).ext n = (Num.ofBits c).ext n) :
    Num.ofBits b = Num.ofBits c := by
  have pb := (ofBits_num hn hb).1.mp hb'
  have pc := (ofBits_num hn hc).1.mp hc'
  rw [(ofBits_num hn hb).2 pb, (ofBits_num hn hc).2 pc] at h
  have hm : mag n (patOf b) = mag n (patOf c) := by unfold signed at h; split at h <;> split at h <;> omega
  have hp := mag_inj hm
  have hi := mag_inf hn
  have hpos := past_pos n
  rw [ofBits_eq hn hb, ofBits_eq hn hc, hp]
  by_cases h1 : patOf c < infPat n
  · rw [if_pos h1, if_pos h1, ← h, hp]
  · rw [if_neg h1, if_neg h1]
    by_cases h2 : patOf c = infPat n
    · rw [if_pos h2, if_pos h2]
      rw [hp, h2] at h
      unfold signed at h
      split <;> split at h <;> split at h <;> first | (split <;> first | rfl | omega) | omega
    · omega

theorem finite_ext {b : Bytes} {n : Nat} {x : Int} (hn : n = 4 ∨ n = 8) (hb : b.length = n) (h : Num.ofBits b = .fin x) :
    -Num.past n < x ∧ x < Num.past n := by
  rw [ofBits_eq hn hb] at h
  have hi := mag_inf hn
  by_cases h1 : patOf b < infPat n
  · rw [if_pos h1] at h
    have := mag_lt (n := n) h1
    cases h
    unfold signed; split <;> omega
  · rw [if_neg h1] at h
    split at h
    · split at h <;> cases h
    · cases h

/-! ### Rounding -/

/-- The largest pattern whose magnitude is at most `a`, by one comparison per bit. -/
def floorPat (g : Nat → Nat) (a : Nat) : Nat → Nat → Nat
  | 0, p => p
  | k + 1, p => if g (p + 2 ^ k) ≤ a then floorPat g a k (p + 2 ^ k) else floorPat g a k p

theorem floorPat_ok (g : Nat → Nat) (a : Nat) : ∀ k p, g p ≤ a → a < g (p + 2 ^ k) →
    g (floorPat g a k p) ≤ a ∧ a < g (floorPat g a k p + 1)
  | 0, p, h1, h2 => ⟨h1, h2⟩
  | k + 1, p, h1, h2 => by
    unfold floorPat
    split
    · rename_i h3
      refine floorPat_ok g a k _ h3 ?_
      rw [Nat.add_assoc, show 2 ^ k + 2 ^ k = 2 ^ (k + 1) by rw [Nat.pow_succ]; omega]
      exact h2
    · rename_i h3
      exact floorPat_ok g a k _ h1 (by omega)

/-- The pattern of the number of `n` bytes nearest to `a`, the even one of two. -/
def roundPat (n a : Nat) : Nat :=
  if mag n (infPat n) ≤ a then infPat n
  else
    let p := floorPat (mag n) a (8 * n - 1) 0
    if 2 * a < mag n p + mag n (p + 1) then p
    else if mag n p + mag n (p + 1) < 2 * a then p + 1
    else if p % 2 = 0 then p else p + 1

theorem infPat_even (n : Nat) : infPat n % 2 = 0 := by
  unfold infPat fracBits; split <;> omega

/-- The distance of two numbers. -/
def dist (a b : Nat) : Nat := (a - b) + (b - a)

theorem roundPat_ok {n a : Nat} (hn : n = 4 ∨ n = 8) : roundPat n a ≤ infPat n ∧
    (∀ r, r ≤ infPat n → dist (mag n (roundPat n a)) a ≤ dist (mag n r) a) ∧
    (∀ r, r ≤ infPat n → r ≠ roundPat n a → dist (mag n (roundPat n a)) a = dist (mag n r) a → roundPat n a % 2 = 0) := by
  unfold roundPat
  by_cases h0 : mag n (infPat n) ≤ a
  · rw [if_pos h0]
    refine ⟨Nat.le_refl _, fun r hr => ?_, fun _ _ _ _ => infPat_even n⟩
    have := mag_le (n := n) hr
    unfold dist; omega
  · rw [if_neg h0]
    have hlt : infPat n ≤ 2 ^ (8 * n - 1) := by
      unfold infPat expMax fracBits; rcases hn with rfl | rfl <;> decide
    have h1 : a < mag n (0 + 2 ^ (8 * n - 1)) := by
      have := mag_le (n := n) hlt
      rw [Nat.zero_add]; omega
    obtain ⟨g1, g2⟩ := floorPat_ok (mag n) a (8 * n - 1) 0 (by rw [mag_zero]; omega) h1
    generalize floorPat (mag n) a (8 * n - 1) 0 = p at *
    have hp : p < infPat n := by
      by_cases hh : p < infPat n
      · exact hh
      · have := mag_le (n := n) (Nat.not_lt.mp hh); omega
    have side : ∀ r, (r ≤ p ∧ mag n r ≤ mag n p) ∨ (p + 1 ≤ r ∧ mag n (p + 1) ≤ mag n r) := by
      intro r
      by_cases hr : r ≤ p
      · exact .inl ⟨hr, mag_le hr⟩
      · exact .inr ⟨by omega, mag_le (by omega)⟩
    have strict : ∀ r, (r < p → mag n r < mag n p) ∧ (p + 1 < r → mag n (p + 1) < mag n r) :=
      fun r => ⟨fun h => mag_lt h, fun h => mag_lt h⟩
    simp only []
    split
    · refine ⟨by omega, fun r _ => ?_, fun r _ hr he => ?_⟩
      · have := side r; unfold dist; omega
      · have := side r; have := strict r; unfold dist at he; omega
    · split
      · refine ⟨by omega, fun r _ => ?_, fun r _ hr he => ?_⟩
        · have := side r; unfold dist; omega
        · have := side r; have := strict r; unfold dist at he; omega
      · split
        · refine ⟨by omega, fun r _ => ?_, fun r _ hr he => by omega⟩
          have := side r; unfold dist; omega
        · refine ⟨by omega, fun r _ => ?_, fun r _ hr he => by omega⟩
          have := side r; unfold dist; omega

/-- A floating point number of a sign and a pattern. -/
def encFlt (n s p : Nat) : Bytes := leEnc n (s * 2 ^ (8 * n - 1) + p)

theorem encFlt_ok {n s p : Nat} (hn : n = 4 ∨ n = 8) (hs : s < 2) (hp : p ≤ infPat n) :
    (encFlt n s p).length = n ∧ signOf (encFlt n s p) = s ∧ patOf (encFlt n s p) = p ∧ leDec (encFlt n s p) % 2 = p % 2 := by
  have hlt : p < 2 ^ (8 * n - 1) := by
    refine Nat.lt_of_le_of_lt hp ?_
    unfold infPat expMax fracBits; rcases hn with rfl | rfl <;> decide
  have hl : (encFlt n s p).length = n := leEnc_length _ _
  have hd : leDec (encFlt n s p) = s * 2 ^ (8 * n - 1) + p := by
    unfold encFlt
    rw [leDec_leEnc, Nat.mod_eq_of_lt]
    rcases hn with rfl | rfl <;> simp at hlt ⊢ <;> omega
  unfold signOf patOf
  rw [hl, hd]
  rcases hn with rfl | rfl <;> simp at hlt ⊢ <;> omega

/-- Rounding of a number with a sign. -/
theorem rounds_enc {n s a : Nat} (hn : n = 4 ∨ n = 8) (hs : s < 2) : Rounds n (signed s a) (encFlt n s (roundPat n a)) := by
  obtain ⟨h1, h2, h3⟩ := roundPat_ok (a := a) hn
  obtain ⟨e1, e2, e3, e4⟩ := encFlt_ok hn hs h1
  have he := ofBits_num hn e1
  rw [e2, e3] at he
  have hle : dist (mag n (roundPat n a)) a ≤ a := by
    have := h2 0 (Nat.zero_le _)
    rw [mag_zero] at this
    unfold dist at *; omega
  have hb := he.2 h1
  generalize roundPat n a = q at *
  have hdist : ((Num.ofBits (encFlt n s q)).ext n - signed s a).natAbs = dist (mag n q) a := by
    rw [hb]; unfold signed dist; split <;> omega
  refine ⟨e1, he.1.mpr h1, fun c hc hc' => ?_, fun c hc hc' hne heq => ?_⟩
  · have pc := (ofBits_num hn hc).1.mp hc'
    have := h2 (patOf c) pc
    rw [hdist, (ofBits_num hn hc).2 pc]
    unfold signed dist at *
    split <;> split <;> omega
  · have pc := (ofBits_num hn hc).1.mp hc'
    have hv := (ofBits_num hn hc).2 pc
    rw [hdist, hv] at heq
    rw [e4]
    by_cases hsame : signed (signOf c) (mag n (patOf c)) = signed s (mag n (patOf c))
    · rw [hsame] at heq
      refine h3 (patOf c) pc (fun hq => ?_) ?_
      · apply hne
        refine ext_inj hn hc e1 hc' (he.1.mpr h1) ?_
        rw [hv, hb, hsame, hq]
      · rw [heq]; unfold signed dist; split <;> omega
    · have hz : mag n (patOf c) = 0 := by
        unfold signed dist at *
        by_cases k1 : signOf c = 0 <;> by_cases k2 : s = 0 <;> simp only [k1, k2, if_true, if_false] at hsame heq <;>
          first | exact absurd trivial hsame | omega
      exfalso
      apply hsame
      rw [hz]
      unfold signed
      split <;> split <;> rfl

/-! ### What follows from rounding -/

theorem Rounds.exact {n : Nat} {x : Int} {b c : Bytes} (hn : n = 4 ∨ n = 8) (h : Rounds n x b) (hc : c.length = n)
    (hx : Num.ofBits c = .fin x) : Num.ofBits b = .fin x := by
  have h1 := h.near c hc (by rw [hx]; nofun)
  rw [← hx]
  refine ext_inj hn h.len hc h.num (by rw [hx]; nofun) ?_
  rw [hx] at h1 ⊢
  simp only [Num.ext] at h1 ⊢
  omega

theorem pat_parity {b : Bytes} {n : Nat} (hn : n = 4 ∨ n = 8) (hb : b.length = n) : leDec b % 2 = patOf b % 2 := by
  unfold patOf
  rw [hb]
  rcases hn with rfl | rfl <;> simp <;> omega

/-- Neighbours are not both even. -/
theorem neighbours_parity {n : Nat} {b c : Bytes} (hn : n = 4 ∨ n = 8) (hb : b.length = n) (hc : c.length = n)
    (hb' : Num.ofBits b ≠ .nan) (hc' : Num.ofBits c ≠ .nan) (hlt : (Num.ofBits c).ext n < (Num.ofBits b).ext n)
    (hno : ∀ d : Bytes, d.length = n → Num.ofBits d ≠ .nan →
      ¬ ((Num.ofBits c).ext n < (Num.ofBits d).ext n ∧ (Num.ofBits d).ext n < (Num.ofBits b).ext n)) :
    leDec b % 2 ≠ leDec c % 2 := by
  rw [pat_parity hn hb, pat_parity hn hc]
  have pb := (ofBits_num hn hb).1.mp hb'
  have pc := (ofBits_num hn hc).1.mp hc'
  rw [(ofBits_num hn hb).2 pb, (ofBits_num hn hc).2 pc] at hno hlt
  have no : ∀ s p, s < 2 → p ≤ infPat n →
      ¬ (signed (signOf c) (mag n (patOf c)) < signed s (mag n p) ∧ signed s (mag n p) < signed (signOf b) (mag n (patOf b))) := by
    intro s p hs hp
    obtain ⟨e1, e2, e3, _⟩ := encFlt_ok hn hs hp
    have := ofBits_num hn e1
    rw [e2, e3] at this
    have h2 := hno _ e1 (this.1.mpr hp)
    rwa [this.2 hp] at h2
  generalize patOf b = p at *
  generalize patOf c = q at *
  generalize signOf b = s at *
  generalize signOf c = t at *
  have hz := mag_zero n
  have h00 := no 0 0 (by decide) (Nat.zero_le _)
  have hpz : mag n p = 0 → p = 0 := fun h => mag_inj (h.trans hz.symm)
  have hqz : mag n q = 0 → q = 0 := fun h => mag_inj (h.trans hz.symm)
  by_cases hpos : 0 ≤ signed t (mag n q)
  · -- both are at least 0
    have e1 : signed t (mag n q) = mag n q := by unfold signed at *; split at hpos <;> split <;> omega
    have e2 : signed s (mag n p) = mag n p := by rw [e1] at hlt; unfold signed at *; split at hlt <;> split <;> omega
    rw [e1, e2] at no hlt
    have hqp : q < p := by
      by_cases hh : q < p
      · exact hh
      · have := mag_le (n := n) (Nat.not_lt.mp hh); omega
    have h3 := no 0 (q + 1) (by decide) (by omega)
    simp only [signed, if_true] at h3
    have := mag_step n q
    by_cases h4 : q + 1 = p
    · omega
    · have := mag_lt (n := n) (show q + 1 < p by omega); omega
  · -- both are at most 0
    have e1 : signed t (mag n q) = -(mag n q : Int) := by unfold signed at *; split at hpos <;> split <;> omega
    have e2 : signed s (mag n p) = -(mag n p : Int) := by
      rw [e1, hz] at h00; rw [e1] at hlt hpos; unfold signed at *
      split at h00 <;> split <;> simp at h00 <;> omega
    rw [e1, e2] at no hlt
    have hqp : p < q := by
      by_cases hh : p < q
      · exact hh
      · have := mag_le (n := n) (Nat.not_lt.mp hh); omega
    have h3 := no 1 (p + 1) (by decide) (by omega)
    simp only [signed, show ¬ (1 = 0) by decide, if_false] at h3
    have := mag_step n p
    by_cases h4 : p + 1 = q
    · omega
    · have := mag_lt (n := n) (show p + 1 < q by omega); omega

/-- Two numbers rounded to the same format keep their order. -/
theorem Rounds.mono {n : Nat} {x y : Int} {b c : Bytes} (hn : n = 4 ∨ n = 8) (h1 : Rounds n x b) (h2 : Rounds n y c) (hxy : x ≤ y) :
    (Num.ofBits b).ext n ≤ (Num.ofBits c).ext n := by
  have a1 := h1.near c h2.len h2.num
  have a2 := h2.near b h1.len h1.num
  by_cases hlt : (Num.ofBits c).ext n < (Num.ofBits b).ext n
  · exfalso
    have hxy' : x = y := by omega
    subst hxy'
    have ht : ((Num.ofBits b).ext n - x).natAbs = ((Num.ofBits c).ext n - x).natAbs := by omega
    have hne : Num.ofBits c ≠ Num.ofBits b := by intro he; rw [he] at hlt; omega
    have ev1 := h1.even c h2.len h2.num hne ht
    have ev2 := h2.even b h1.len h1.num (Ne.symm hne) ht.symm
    refine neighbours_parity hn h1.len h2.len h1.num h2.num hlt (fun d hd hd' hbt => ?_) (by omega)
    have := h1.near d hd hd'
    omega
  · omega

/-- Rounding has one result. -/
theorem Rounds.unique {n : Nat} {x : Int} {b c : Bytes} (hn : n = 4 ∨ n = 8) (h1 : Rounds n x b) (h2 : Rounds n x c) :
    Num.ofBits b = Num.ofBits c :=
  ext_inj hn h1.len h2.len h1.num h2.num
    (Int.le_antisymm (h1.mono hn h2 (Int.le_refl _)) (h2.mono hn h1 (Int.le_refl _)))

namespace Dti

/-- Conversions as IEEE 754 has them: to the nearest, ties to even; to an integer by truncation. -/
def ieee : Conv where
  ofInt n z := encFlt n (if z < 0 then 1 else 0) (roundPat n (z.natAbs * 2 ^ 1074))
  ofFlt n b :=
    match Num.ofBits b with
    | .fin x => encFlt n (signOf b) (roundPat n x.natAbs)
    | .pinf => encFlt n 0 (infPat n)
    | .ninf => encFlt n 1 (infPat n)
    | .nan => aNan n
  ofBig z := encFlt 8 (if z < 0 then 1 else 0) (roundPat 8 (z.natAbs * 2 ^ 1074))
  toInt s bits b :=
    match Num.ofBits b with
    | .fin x =>
      let z := x.tdiv (2 ^ 1074)
      if (if s then -(2 ^ (bits - 1) : Int) ≤ z ∧ z < 2 ^ (bits - 1) else 0 ≤ z ∧ z < 2 ^ bits) then some z else none
    | _ => none

theorem encFlt_length (n s p : Nat) : (encFlt n s p).length = n := leEnc_length _ _

theorem signed_int (z : Int) (k : Nat) : signed (if z < 0 then 1 else 0) (z.natAbs * 2 ^ k) = z * 2 ^ k := by
  have h : ((z.natAbs * 2 ^ k : Nat) : Int) = (z.natAbs : Int) * 2 ^ k := by simp
  unfold signed
  rw [h]
  by_cases hz : z < 0
  · rw [if_pos hz, if_neg (by decide), show (z.natAbs : Int) = -z by omega, Int.neg_mul, Int.neg_neg]
  · rw [if_neg hz, if_pos rfl, show (z.natAbs : Int) = z by omega]

/-- The sign of a finite number is its sign bit, except for zero. -/
theorem signed_sign {b : Bytes} {n : Nat} {x : Int} (hn : n = 4 ∨ n = 8) (hb : b.length = n) (h : Num.ofBits b = .fin x) :
    signed (signOf b) x.natAbs = x := by
  have hnn : Num.ofBits b ≠ .nan := by rw [h]; nofun
  have hp := (ofBits_num hn hb).1.mp hnn
  have := (ofBits_num hn hb).2 hp
  rw [h] at this
  simp only [Num.ext] at this
  unfold signed at *
  split <;> split at this <;> omega

theorem ieee_big (z : Int) : Rounds 8 (z * 2 ^ 1074) (ieee.ofBig z) := by
  rw [← signed_int]
  exact rounds_enc (.inr rfl) (by split <;> decide)

theorem ieee_ok : ieee.Ok where
  intLen n z := encFlt_length ..
  fltLen n b hn := by
    simp only [ieee]
    split
    · exact encFlt_length ..
    · exact encFlt_length ..
    · exact encFlt_length ..
    · rcases hn with rfl | rfl <;> decide +kernel
  bigLen z := encFlt_length ..
  ofInt n z hn := by
    rw [← signed_int]
    exact rounds_enc hn (by split <;> decide)
  ofFlt n b hn hb := by
    have hs : signOf b < 2 := by
      rcases hb with hb | hb
      · exact signOf_lt (.inl rfl) hb
      · exact signOf_lt (.inr rfl) hb
    have hinf : ∀ s, s < 2 → Num.ofBits (encFlt n s (infPat n)) = if s = 0 then .pinf else .ninf := by
      intro s h2
      obtain ⟨e1, e2, e3, _⟩ := encFlt_ok hn h2 (Nat.le_refl (infPat n))
      rw [ofBits_eq hn e1, e2, e3, if_neg (Nat.lt_irrefl _), if_pos rfl]
    cases hx : Num.ofBits b with
    | fin x =>
      have h1 : signed (signOf b) x.natAbs = x := by
        rcases hb with hb | hb
        · exact signed_sign (.inl rfl) hb hx
        · exact signed_sign (.inr rfl) hb hx
      have h2 := rounds_enc (n := n) (a := x.natAbs) hn hs
      simp only [ieee, hx]
      rwa [h1] at h2
    | pinf => simp only [ieee, hx]; exact hinf 0 (by decide)
    | ninf => simp only [ieee, hx]; exact hinf 1 (by decide)
    | nan => simp only [ieee, hx]; rcases hn with rfl | rfl <;> decide +kernel
  sign n b hn hb hnn := by
    obtain ⟨k, hk, hbk⟩ : ∃ k, (k = 4 ∨ k = 8) ∧ b.length = k := by
      rcases hb with hb | hb
      · exact ⟨4, .inl rfl, hb⟩
      · exact ⟨8, .inr rfl, hb⟩
    have hs := signOf_lt hk hbk
    have key : ∀ s p, s < 2 → p ≤ infPat n → leDec (encFlt n s p) / 2 ^ (8 * n - 1) = s := by
      intro s p h1 h2
      obtain ⟨e1, e2, _⟩ := encFlt_ok hn h1 h2
      unfold signOf at e2
      rwa [e1] at e2
    have hinf := ofBits_eq hk hbk
    change _ = signOf b
    cases hx : Num.ofBits b with
    | fin x => simp only [ieee, hx]; exact key _ _ hs (roundPat_ok hn).1
    | pinf =>
      simp only [ieee, hx]
      rw [key 0 _ (by decide) (Nat.le_refl _)]
      rw [hx] at hinf
      split at hinf
      · cases hinf
      · split at hinf
        · split at hinf
          · rename_i h; exact h.symm
          · cases hinf
        · cases hinf
    | ninf =>
      simp only [ieee, hx]
      rw [key 1 _ (by decide) (Nat.le_refl _)]
      rw [hx] at hinf
      split at hinf
      · cases hinf
      · split at hinf
        · split at hinf
          · cases hinf
          · omega
        · cases hinf
    | nan => exact absurd hx hnn
  bigNum z := (ieee_big z).num
  bigBetween z c hc hc' := by
    have h := ieee_big z
    have h1 := h.near c hc hc'
    constructor
    · intro h2
      by_cases h3 : (Num.ofBits c).ext 8 ≤ (Num.ofBits (ieee.ofBig z)).ext 8
      · exact h3
      · omega
    · intro h2
      by_cases h3 : (Num.ofBits (ieee.ofBig z)).ext 8 ≤ (Num.ofBits c).ext 8
      · exact h3
      · omega
  bigOrder z w h := (ieee_big z).mono (.inr rfl) (ieee_big w) (Int.mul_le_mul_of_nonneg_right h (Int.le_of_lt (Int.pow_pos (by decide))))
  toRange s bits b z h := by
    simp only [ieee] at h
    split at h
    · rw [Option.ite_none_right_eq_some] at h
      obtain ⟨h1, h2⟩ := h
      cases h2
      exact h1
    · cases h
  toExact s bits b z hz hr := by
    simp only [ieee, hz, Num.ofInt]
    rw [Int.mul_tdiv_cancel _ (Int.ne_of_gt (Int.pow_pos (by decide)))]
    exact if_pos hr

end Dti

end TS
