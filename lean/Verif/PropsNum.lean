import Verif.PropsCmp
import Verif.Rounding
/-
Properties C47 and C48: smallest and largest values and casts of the primitive numeral types.
-/
namespace TS
namespace Props
open Dti

/-! ### smallest and largest values -/

theorem pow256 (n : Nat) : (256 : Nat) ^ n = 2 ^ (8 * n) := by rw [Nat.pow_mul]

theorem pow256_half {n : Nat} (hn : 1 ≤ n) : (256 : Nat) ^ n = 2 * 2 ^ (8 * n - 1) := by
  rw [pow256, ← Nat.pow_succ']
  congr 1
  omega

/-- A value of a numeral type that is not NULL is a number. -/
theorem exact_num {k : PKind} {h : Hdr} {v : Datum} (hx : Exact (.prim k h) v) (hn : v ≠ .null) :
    ∃ x, numOf k h v = some x ∧ v.isNull = false := by
  have hx := hx.resolve_left hn
  cases k <;> cases v <;> first
    | (simp only at hx; done)
    | exact ⟨_, rfl, rfl⟩
    | (simp only at hx; exact ⟨_, by simp only [numOf, Datum.asFlt, if_pos hx]; rfl, rfl⟩)

theorem exact_means {k : PKind} {h : Hdr} {v : Datum} (hx : Exact (.prim k h) v) :
    (v = .null ∧ Means (.prim k h) v .null) ∨ ∃ x, v ≠ .null ∧ numOf k h v = some x ∧ Means (.prim k h) v (.num x) := by
  by_cases hn : v = .null
  · exact .inl ⟨hn, .inl ⟨hn, rfl⟩⟩
  · obtain ⟨x, h1, h2⟩ := exact_num hx hn
    exact .inr ⟨x, hn, h1, .inr ⟨h2, x, h1, rfl⟩⟩

theorem ord_le {x y : Num} (h : ¬ Num.lt y x) : x.ord y ≤ 0 := by
  rcases Num.ord_range x y with h1 | h1 | h1
  · omega
  · omega
  · exfalso
    rcases Num.lt_total x y with h2 | h2 | h2
    · simp [Num.ord, h2] at h1
    · rw [h2, Num.ord_self] at h1; omega
    · exact h h2

theorem ofInt_not_lt {a b : Int} (h : a ≤ b) : ¬ Num.lt (.ofInt b) (.ofInt a) := by
  rw [Num.ofInt_lt]; omega

theorem ninf_least (x : Num) : ¬ Num.lt x .ninf := by cases x <;> simp [Num.lt]

theorem nan_greatest (x : Num) : ¬ Num.lt .nan x := by cases x <;> simp [Num.lt]

theorem negInf_ok {n : Nat} (hn : n = 4 ∨ n = 8) : (negInf n).length = n ∧ Num.ofBits (negInf n) = .ninf := by
  rcases hn with rfl | rfl <;> decide +kernel

theorem aNan_ok {n : Nat} (hn : n = 4 ∨ n = 8) : (aNan n).length = n ∧ Num.ofBits (aNan n) = .nan := by
  rcases hn with rfl | rfl <;> decide +kernel

/-- C47. The smallest value of a numeral type is a value of the type, NULL exactly if the type allows
it, and no value of the type compares below it. -/
theorem C47_min {k : PKind} {h : Hdr} (hu : Usable (.prim k h)) :
    Exact (.prim k h) (minValue (.prim k h)) ∧
    (minValue (.prim k h) = .null ↔ (Dti.prim k h).isNullable = true) ∧
    ∀ v, Exact (.prim k h) v → (v = .null → (Dti.prim k h).isNullable = true) →
      ∃ c, compareDatum2 (minValue (.prim k h)) v (some (.prim k h)) = some c ∧ c ≤ 0 := by
  by_cases hn : (Dti.prim k h).isNullable = true
  · have hm : minValue (.prim k h) = .null := by unfold minValue; rw [if_pos hn]
    rw [hm]
    refine ⟨.inl rfl, by simp [hn], fun v hv _ => ?_⟩
    rcases exact_means hv with ⟨_, h1⟩ | ⟨x, _, _, h1⟩
    · exact ⟨_, C42_compares_values2 hu (.inl ⟨rfl, rfl⟩) h1, by simp [SVal.ord]⟩
    · exact ⟨_, C42_compares_values2 hu (.inl ⟨rfl, rfl⟩) h1, by simp [SVal.ord]⟩
  · have hok := hu.ok
    have hsz : 1 ≤ h.size := by cases hok; assumption
    have hfl := hok.fltOk
    -- the smallest value is a number below all others
    have key : ∃ x, minValue (.prim k h) ≠ .null ∧ Exact (.prim k h) (minValue (.prim k h)) ∧
        numOf k h (minValue (.prim k h)) = some x ∧
        ∀ v y, Exact (.prim k h) v → v ≠ .null → numOf k h v = some y → ¬ Num.lt y x := by
      have hp := pow256_half hsz
      unfold minValue
      rw [if_neg hn]
      cases k with
      | float =>
        obtain ⟨h1, h2⟩ := negInf_ok (hfl rfl)
        simp only [if_pos (show (h.size = 4 || h.size = 8) = true by simpa using hfl rfl)]
        exact ⟨.ninf, nofun, .inr h1, by simp [numOf, Datum.asFlt, h1, h2], fun v y _ _ _ => ninf_least y⟩
      | int =>
        refine ⟨_, nofun, .inr ?_, rfl, fun v y hv hn hy => ?_⟩
        · simp only [hp]; push_cast; have : (0 : Int) < 2 ^ (8 * h.size - 1) := Int.pow_pos (by decide)
          generalize (2 : Int) ^ (8 * h.size - 1) = P at *; omega
        · have hv := hv.resolve_left hn
          cases v <;> simp only at hv
          cases hy
          apply ofInt_not_lt
          rw [hp] at hv; push_cast at hv; omega
      | largeInt =>
        refine ⟨_, nofun, .inr ?_, rfl, fun v y hv hn hy => ?_⟩
        · simp only [hp]; push_cast; have : (0 : Int) < 2 ^ (8 * h.size - 1) := Int.pow_pos (by decide)
          generalize (2 : Int) ^ (8 * h.size - 1) = P at *; omega
        · have hv := hv.resolve_left hn
          cases v <;> simp only at hv
          cases hy
          apply ofInt_not_lt
          rw [hp] at hv; push_cast at hv; omega
      | uint =>
        refine ⟨_, nofun, .inr ?_, rfl, fun v y hv hn hy => ?_⟩
        · exact Nat.pow_pos (by decide)
        · have hv := hv.resolve_left hn
          cases v <;> simp only at hv
          cases hy
          apply ofInt_not_lt; omega
      | largeUint =>
        refine ⟨_, nofun, .inr ?_, rfl, fun v y hv hn hy => ?_⟩
        · exact Nat.pow_pos (by decide)
        · have hv := hv.resolve_left hn
          cases v <;> simp only at hv
          cases hy
          apply ofInt_not_lt; omega
      | bitField =>
        refine ⟨_, nofun, .inr ?_, rfl, fun v y hv hn hy => ?_⟩
        · exact Nat.pow_pos (by decide)
        · have hv := hv.resolve_left hn
          cases v <;> simp only at hv
          cases hy
          apply ofInt_not_lt; omega
    obtain ⟨x, k1, k2, k3, k4⟩ := key
    refine ⟨k2, by simp [hn, k1], fun v hv hv' => ?_⟩
    rcases exact_means k2 with ⟨e, _⟩ | ⟨x', _, e, mx⟩
    · exact absurd e k1
    rw [k3] at e; cases e
    rcases exact_means hv with ⟨e, _⟩ | ⟨y, ny, ey, my⟩
    · exact absurd (hv' e) hn
    · exact ⟨_, C42_compares_values2 hu mx my, ord_le (k4 v y hv ny ey)⟩

/-- C47. The largest value of a numeral type is a value of the type, not NULL, and no value of the
type compares above it. -/
theorem C47_max {k : PKind} {h : Hdr} (hu : Usable (.prim k h)) :
    Exact (.prim k h) (maxValue (.prim k h)) ∧ maxValue (.prim k h) ≠ .null ∧
    ∀ v, Exact (.prim k h) v → ∃ c, compareDatum2 v (maxValue (.prim k h)) (some (.prim k h)) = some c ∧ c ≤ 0 := by
  have hok := hu.ok
  have hsz : 1 ≤ h.size := by cases hok; assumption
  have hfl := hok.fltOk
  have key : ∃ x, maxValue (.prim k h) ≠ .null ∧ Exact (.prim k h) (maxValue (.prim k h)) ∧
      numOf k h (maxValue (.prim k h)) = some x ∧
      ∀ v y, Exact (.prim k h) v → v ≠ .null → numOf k h v = some y → ¬ Num.lt x y := by
    have hp := pow256_half hsz
    have hp8 := pow256 h.size
    have hpos : 0 < 2 ^ (8 * h.size - 1) := Nat.pow_pos (by decide)
    unfold maxValue
    cases k with
    | float =>
      obtain ⟨h1, h2⟩ := aNan_ok (hfl rfl)
      simp only [if_pos (show (h.size = 4 || h.size = 8) = true by simpa using hfl rfl)]
      exact ⟨.nan, nofun, .inr h1, by simp [numOf, Datum.asFlt, h1, h2], fun v y _ _ _ => nan_greatest y⟩
    | int =>
      refine ⟨_, nofun, .inr ?_, rfl, fun v y hv hn hy => ?_⟩
      · simp only [hp]; push_cast; have : (0 : Int) < 2 ^ (8 * h.size - 1) := Int.pow_pos (by decide)
        generalize (2 : Int) ^ (8 * h.size - 1) = P at *; omega
      · have hv := hv.resolve_left hn
        cases v <;> simp only at hv
        cases hy
        apply ofInt_not_lt
        rw [hp] at hv; push_cast at hv; omega
    | largeInt =>
      refine ⟨_, nofun, .inr ?_, rfl, fun v y hv hn hy => ?_⟩
      · simp only [hp]; push_cast; have : (0 : Int) < 2 ^ (8 * h.size - 1) := Int.pow_pos (by decide)
        generalize (2 : Int) ^ (8 * h.size - 1) = P at *; omega
      · have hv := hv.resolve_left hn
        cases v <;> simp only at hv
        cases hy
        apply ofInt_not_lt
        rw [hp] at hv; push_cast at hv; omega
    | uint =>
      refine ⟨_, nofun, .inr ?_, rfl, fun v y hv hn hy => ?_⟩
      · simp only [hp8]; have : 0 < 2 ^ (8 * h.size) := Nat.pow_pos (by decide)
        omega
      · have hv := hv.resolve_left hn
        cases v <;> simp only at hv
        cases hy
        apply ofInt_not_lt; rw [hp8] at hv; omega
    | largeUint =>
      refine ⟨_, nofun, .inr ?_, rfl, fun v y hv hn hy => ?_⟩
      · simp only [hp8]; have : 0 < 2 ^ (8 * h.size) := Nat.pow_pos (by decide)
        omega
      · have hv := hv.resolve_left hn
        cases v <;> simp only at hv
        cases hy
        apply ofInt_not_lt; rw [hp8] at hv; omega
    | bitField =>
      have he : (if h.size = 64 then 2 ^ 64 - 1 else 2 ^ h.size - 1) = 2 ^ h.size - 1 := by
        split
        · rename_i e; rw [e]
        · rfl
      simp only [he]
      refine ⟨_, nofun, .inr ?_, rfl, fun v y hv hn hy => ?_⟩
      · simp only; have : 0 < 2 ^ h.size := Nat.pow_pos (by decide)
        omega
      · have hv := hv.resolve_left hn
        cases v <;> simp only at hv
        cases hy
        apply ofInt_not_lt; omega
  obtain ⟨x, k1, k2, k3, k4⟩ := key
  refine ⟨k2, k1, fun v hv => ?_⟩
  rcases exact_means k2 with ⟨e, _⟩ | ⟨x', _, e, mx⟩
  · exact absurd e k1
  rw [k3] at e; cases e
  rcases exact_means hv with ⟨rfl, my⟩ | ⟨y, ny, ey, my⟩
  · exact ⟨_, C42_compares_values2 hu my mx, by simp [SVal.ord]⟩
  · exact ⟨_, C42_compares_values2 hu my mx, ord_le (k4 v y hv ny ey)⟩

/-- C47. The largest value of a floating point type is a NaN; everything else, infinity included, is
strictly below it. -/
theorem C47_max_float {h : Hdr} (hu : Usable (.prim .float h)) : ∃ b, maxValue (.prim .float h) = .flt b ∧ b.length = h.size ∧
    Num.ofBits b = .nan := by
  obtain ⟨h1, h2⟩ := aNan_ok (hu.ok.fltOk rfl)
  refine ⟨_, ?_, h1, h2⟩
  simp only [maxValue, if_pos (show (h.size = 4 || h.size = 8) = true by simpa using hu.ok.fltOk rfl)]

example : Usable (.prim .largeInt { isFinal := true, size := 9 }) ∧
    minValue (.prim .largeInt { isFinal := true, size := 9 }) = .int (-(2 ^ 71)) ∧
    maxValue (.prim .largeInt { isFinal := true, size := 9 }) = .int (2 ^ 71 - 1) ∧
    minValue (.prim .uint { isFinal := true, nullable := true, size := 3 }) = .null ∧
    maxValue (.prim .bitField { isFinal := true, size := 5 }) = .uint 31 ∧
    Usable exFloat ∧ maxValue exFloat = .flt [0, 0, 192, 127] ∧ minValue exFloat = .flt [0, 0, 128, 255] :=
  ⟨⟨.prim .largeInt { size := 9 }, .prim _ _ rfl, rfl, .prim _ _⟩, by decide +kernel, by decide +kernel, by decide +kernel,
    by decide +kernel, ⟨.prim .float { size := 4 }, .prim _ _ rfl, rfl, .prim _ _⟩, by decide +kernel, by decide +kernel⟩

/-! ### casts -/

theorem ofBits_fields {s e f : Nat} (hs : s < 2) (he : e < 2 ^ 11) (hf : f < 2 ^ 52) :
    Num.ofBits (leEnc 8 (s * 2 ^ 63 + e * 2 ^ 52 + f)) = Num.ofFields s e f 52 2047 0 := by
  have h1 : s * 2 ^ 63 + e * 2 ^ 52 + f < 256 ^ 8 := by omega
  simp only [Num.ofBits, leEnc_length, leDec_leEnc, Nat.mod_eq_of_lt h1]
  rw [if_neg (by decide)]
  have a1 : (s * 2 ^ 63 + e * 2 ^ 52 + f) / 2 ^ 63 = s := by omega
  have a2 : (s * 2 ^ 63 + e * 2 ^ 52 + f) / 2 ^ 52 % 2 ^ 11 = e := by omega
  have a3 : (s * 2 ^ 63 + e * 2 ^ 52 + f) % 2 ^ 52 = f := by omega
  rw [a1, a2, a3]

/-- Every `float` is a `double`. -/
theorem float_is_double {b : Bytes} (hb : b.length = 4) : ∃ b' : Bytes, b'.length = 8 ∧ Num.ofBits b' = Num.ofBits b := by
  have hlt : leDec b < 256 ^ 4 := by have := leDec_lt b; rwa [hb] at this
  have hrhs : Num.ofBits b = Num.ofFields (leDec b / 2 ^ 31) (leDec b / 2 ^ 23 % 2 ^ 8) (leDec b % 2 ^ 23) 23 255 925 := by
    simp only [Num.ofBits, hb, if_true]
  rw [hrhs]
  generalize hs : leDec b / 2 ^ 31 = s
  generalize he : leDec b / 2 ^ 23 % 2 ^ 8 = e
  generalize hf : leDec b % 2 ^ 23 = f
  have hs2 : s < 2 := by omega
  have he2 : e < 2 ^ 8 := by omega
  have hf2 : f < 2 ^ 23 := by omega
  clear hs he hf hrhs hlt hb
  by_cases h1 : e = 255
  · subst h1
    by_cases h0 : f = 0
    · exact ⟨_, leEnc_length _ _, (ofBits_fields hs2 (e := 2047) (f := 0) (by omega) (by omega)).trans (by simp [Num.ofFields, h0])⟩
    · exact ⟨_, leEnc_length _ _, (ofBits_fields hs2 (e := 2047) (f := 1) (by omega) (by omega)).trans (by simp [Num.ofFields, h0])⟩
  · by_cases h2 : e = 0
    · subst h2
      by_cases h0 : f = 0
      · subst h0
        refine ⟨_, leEnc_length _ _, (ofBits_fields hs2 (e := 0) (f := 0) (by omega) (by omega)).trans ?_⟩
        simp [Num.ofFields, -Int.reducePow]
      · have l1 := Nat.log2_self_le h0
        have l2 : f < 2 ^ (f.log2 + 1) := Nat.lt_log2_self
        generalize hp : f.log2 = p at l1 l2
        have hp2 : p < 23 := by
          have : 2 ^ p < 2 ^ 23 := by omega
          exact (Nat.pow_lt_pow_iff_right (by decide)).mp this
        have q1 : 2 ^ 52 ≤ f * 2 ^ (52 - p) := by
          calc 2 ^ 52 = 2 ^ p * 2 ^ (52 - p) := by rw [← Nat.pow_add]; congr 1; omega
            _ ≤ _ := Nat.mul_le_mul_right _ l1
        have q2 : f * 2 ^ (52 - p) < 2 ^ 53 := by
          calc f * 2 ^ (52 - p) < 2 ^ (p + 1) * 2 ^ (52 - p) := Nat.mul_lt_mul_of_pos_right l2 (Nat.pow_pos (by decide))
            _ = 2 ^ 53 := by rw [← Nat.pow_add]; congr 1; omega
        refine ⟨_, leEnc_length _ _, (ofBits_fields hs2 (e := 874 + p) (f := f * 2 ^ (52 - p) - 2 ^ 52) (by omega) (by omega)).trans ?_⟩
        have key : (f * 2 ^ (52 - p) - 2 ^ 52 + 2 ^ 52) * 2 ^ (874 + p - 1 + 0) = f * 2 ^ 925 := by
          rw [Nat.sub_add_cancel q1, Nat.mul_assoc, ← Nat.pow_add, show 52 - p + (874 + p - 1 + 0) = 925 by omega]
        have c2 : ((2 : Nat) : Int) = 2 := rfl
        have keyZ : ((f * 2 ^ (52 - p) - 2 ^ 52 : Nat) + 2 ^ 52 : Int) * 2 ^ (874 + p - 1 + 0) = (f : Int) * 2 ^ 925 := by
          have := congrArg (Nat.cast : Nat → Int) key
          simpa only [Int.natCast_mul, Int.natCast_add, Int.natCast_pow, c2] using this
        simp only [Num.ofFields, if_neg (show ¬ 874 + p = 2047 by omega), if_neg (show ¬ 874 + p = 0 by omega),
          if_neg (show ¬ (0 = 255) by omega), if_true, keyZ]
    · refine ⟨_, leEnc_length _ _, (ofBits_fields hs2 (e := e + 896) (f := f * 2 ^ 29) (by omega) (by omega)).trans ?_⟩
      have key : (f * 2 ^ 29 + 2 ^ 52) * 2 ^ (e + 896 - 1 + 0) = (f + 2 ^ 23) * 2 ^ (e - 1 + 925) := by
        have : f * 2 ^ 29 + 2 ^ 52 = (f + 2 ^ 23) * 2 ^ 29 := by omega
        rw [this, Nat.mul_assoc, ← Nat.pow_add, show 29 + (e + 896 - 1 + 0) = e - 1 + 925 by omega]
      have c2 : ((2 : Nat) : Int) = 2 := rfl
      have keyZ : ((f * 2 ^ 29 : Nat) + 2 ^ 52 : Int) * 2 ^ (e + 896 - 1 + 0) = ((f : Int) + 2 ^ 23) * 2 ^ (e - 1 + 925) := by
        have := congrArg (Nat.cast : Nat → Int) key
        simpa only [Int.natCast_mul, Int.natCast_add, Int.natCast_pow, c2] using this
      simp only [Num.ofFields, if_neg (show ¬ e + 896 = 2047 by omega), if_neg (show ¬ e + 896 = 0 by omega),
        if_neg h1, if_neg h2, keyZ]

/-- The type can represent the number. -/
def Represents (k : PKind) (h : Hdr) (x : Num) : Prop :=
  ∃ v, v ≠ .null ∧ Exact (.prim k h) v ∧ numOf k h v = some x

theorem represents_uint {k : PKind} {h : Hdr} {x : Num} (hk : k = .bitField ∨ k = .uint ∨ k = .largeUint)
    (hr : Represents k h x) : ∃ n : Nat, x = .ofInt n ∧ Exact (.prim k h) (.uint n) := by
  obtain ⟨v, hn, hv, hx⟩ := hr
  have hv' := hv.resolve_left hn
  rcases hk with rfl | rfl | rfl <;> cases v <;> simp only at hv' <;> cases hx <;> exact ⟨_, rfl, hv⟩

theorem represents_int {k : PKind} {h : Hdr} {x : Num} (hk : k = .int ∨ k = .largeInt)
    (hr : Represents k h x) : ∃ z : Int, x = .ofInt z ∧ Exact (.prim k h) (.int z) := by
  obtain ⟨v, hn, hv, hx⟩ := hr
  have hv' := hv.resolve_left hn
  rcases hk with rfl | rfl <;> cases v <;> simp only at hv' <;> cases hx <;> exact ⟨_, rfl, hv⟩

theorem represents_float {h : Hdr} {x : Num} (hr : Represents .float h x) :
    ∃ b : Bytes, x = .ofBits b ∧ b.length = h.size := by
  obtain ⟨v, hn, hv, hx⟩ := hr
  have hv' := hv.resolve_left hn
  cases v <;> simp only at hv'
  simp only [numOf, Datum.asFlt, if_pos hv'] at hx
  cases hx
  exact ⟨_, rfl, hv'⟩

/-- The width of the number in the union. -/
def width : PKind → Nat
  | .largeUint | .largeInt => 256
  | _ => 64

theorem uint_width {k : PKind} {h : Hdr} {n : Nat} (hk : k = .bitField ∨ k = .uint ∨ k = .largeUint)
    (ht : TyOk (.prim k h)) (hx : Exact (.prim k h) (.uint n)) : n < 2 ^ width k := by
  have hx := hx.resolve_left nofun
  cases ht with
  | prim _ _ h1 h2 h3 h4 h5 h6 h7 =>
    rcases hk with rfl | rfl | rfl
    · exact Nat.lt_of_lt_of_le hx (Nat.pow_le_pow_right (by decide) h4)
    · simp only [pow256] at hx
      exact Nat.lt_of_lt_of_le hx (Nat.pow_le_pow_right (by decide) (by have := h6 (.inl rfl); simp only [width]; omega))
    · simp only [pow256] at hx
      exact Nat.lt_of_lt_of_le hx (Nat.pow_le_pow_right (by decide) (by have := h5 nofun; simp only [width]; omega))

theorem int_width {k : PKind} {h : Hdr} {z : Int} (hk : k = .int ∨ k = .largeInt)
    (ht : TyOk (.prim k h)) (hx : Exact (.prim k h) (.int z)) :
    -((2 ^ (width k - 1) : Nat) : Int) ≤ z ∧ z < (2 ^ (width k - 1) : Nat) := by
  have hx := hx.resolve_left nofun
  cases ht with
  | prim _ _ h1 h2 h3 h4 h5 h6 h7 =>
    have hp := pow256_half h3
    have hle : 2 ^ (8 * h.size - 1) ≤ 2 ^ (width k - 1) := by
      apply Nat.pow_le_pow_right (by decide)
      rcases hk with rfl | rfl
      · have := h6 (.inr rfl); simp only [width]; omega
      · have := h5 nofun; simp only [width]; omega
    rcases hk with rfl | rfl <;> simp only [hp] at hx <;> generalize 2 ^ (8 * h.size - 1) = P at * <;>
      generalize 2 ^ (width _ - 1) = Q at * <;> omega

theorem toU_eq {bits n : Nat} (h : n < 2 ^ bits) : toU bits n = n := by
  unfold toU
  generalize 2 ^ bits = P at *
  rw [Int.emod_eq_of_lt (by omega) (by omega)]; rfl

theorem toS_eq {bits : Nat} {z : Int} (hb : 1 ≤ bits) (h1 : -((2 ^ (bits - 1) : Nat) : Int) ≤ z) (h2 : z < (2 ^ (bits - 1) : Nat)) :
    toS bits z = z := by
  unfold toS
  have : 2 ^ bits = 2 * 2 ^ (bits - 1) := by rw [← Nat.pow_succ']; congr 1; omega
  rw [this]
  generalize 2 ^ (bits - 1) = P at *
  rw [Int.emod_eq_of_lt (by omega) (by omega)]; omega

theorem inRange_u {bits n : Nat} (h : n < 2 ^ bits) : InRange false bits n := by
  simp only [InRange, Bool.false_eq_true, if_false]
  have : ((2 ^ bits : Nat) : Int) = 2 ^ bits := by simp
  omega

theorem inRange_s {bits : Nat} {z : Int} (h : -((2 ^ (bits - 1) : Nat) : Int) ≤ z ∧ z < (2 ^ (bits - 1) : Nat)) : InRange true bits z := by
  simp only [InRange, if_true]
  have : ((2 ^ (bits - 1) : Nat) : Int) = 2 ^ (bits - 1) := by simp
  omega

theorem castFromFlt_ok {cv : Conv} (hcv : cv.Ok) {signed : Bool} {bits : Nat} {e : Datum} {hf : Hdr} {z : Int}
    (hs : hf.size = 4 ∨ hf.size = 8) (he : numOf .float hf e = some (.ofInt z)) (hr : InRange signed bits z) :
    castFromFlt cv signed bits e hf = some (some (if signed then .int z else .uint z.toNat)) := by
  simp only [numOf, Option.map_eq_some_iff] at he
  obtain ⟨b, hb, hz⟩ := he
  have := hcv.toExact signed bits b z hz hr
  simp only [castFromFlt, if_pos (show (hf.size = 4 || hf.size = 8) = true by simpa using hs), hb, Option.bind_eq_bind,
    Option.bind_some, this]
  rfl

theorem ofFlt_ok {cv : Conv} (hcv : cv.Ok) {n : Nat} {b c : Bytes} (hn : n = 4 ∨ n = 8) (hb : b.length = 4 ∨ b.length = 8)
    (hc : c.length = n) (h : Num.ofBits c = .ofBits b) : Num.ofBits (cv.ofFlt n b) = .ofBits b := by
  have := hcv.ofFlt n b hn hb
  cases hx : Num.ofBits b with
  | fin x =>
    simp only [hx] at this
    exact this.exact hn hc (h.trans hx)
  | _ => simp only [hx] at this; exact this

theorem ofBig_ok {cv : Conv} (hcv : cv.Ok) {z : Int} {c : Bytes} (hc : c.length = 8) (h : Num.ofInt z = .ofBits c) :
    Num.ofBits (cv.ofBig z) = .ofInt z := by
  have hc' : Num.ofBits c ≠ .nan := by rw [← h]; nofun
  obtain ⟨h1, h2⟩ := hcv.bigBetween z c hc hc'
  rw [h]
  refine ext_inj (.inr rfl) (hcv.bigLen z) hc (hcv.bigNum z) hc' ?_
  have he : (Num.ofBits c).ext 8 = z * 2 ^ 1074 := by rw [← h]; rfl
  exact Int.le_antisymm (h2 (Int.le_of_eq he.symm)) (h1 (Int.le_of_eq he))

theorem castToFlt_ok {cv : Conv} (hcv : cv.Ok) {h : Hdr} {big : Bool} {z : Int} {b : Bytes} (hs : h.size = 4 ∨ h.size = 8)
    (hz : Num.ofInt z = .ofBits b) (hb : b.length = h.size) :
    ∃ b', castToFlt cv h big z = some (some (.flt b')) ∧ b'.length = h.size ∧ Num.ofBits b' = .ofBits b := by
  unfold castToFlt
  rw [if_pos (by simpa using hs)]
  cases big with
  | false =>
    refine ⟨_, rfl, hcv.intLen _ _, ?_⟩
    rw [← hz]
    exact (hcv.ofInt h.size z hs).exact hs hb hz.symm
  | true =>
    by_cases h4 : h.size = 4
    · rw [if_neg (by decide), if_pos h4]
      obtain ⟨b8, l8, e8⟩ := float_is_double (b := b) (by omega)
      have h8 := ofBig_ok hcv l8 (hz.trans e8.symm)
      have := ofFlt_ok hcv (n := 4) (c := b) (.inl rfl) (.inr (hcv.bigLen z)) (by omega) (by rw [h8, hz])
      exact ⟨_, rfl, by rw [hcv.fltLen _ _ (.inl rfl), h4], by rw [this, h8, hz]⟩
    · rw [if_neg (by decide), if_neg h4]
      have h8 : b.length = 8 := by omega
      exact ⟨_, rfl, by rw [hcv.bigLen]; omega, by rw [ofBig_ok hcv h8 hz, hz]⟩

theorem asUint_of_num {k : PKind} {h : Hdr} {e : Datum} {z : Int} (hk : k = .bitField ∨ k = .uint ∨ k = .largeUint)
    (he : numOf k h e = some (.ofInt z)) : ∃ n : Nat, e.asUint = some n ∧ z = n := by
  rcases hk with rfl | rfl | rfl <;> simp only [numOf, Option.map_eq_some_iff] at he <;> obtain ⟨n, h1, h2⟩ := he <;>
    exact ⟨n, h1, (Num.ofInt_inj h2).symm⟩

theorem asInt_of_num {k : PKind} {h : Hdr} {e : Datum} {z : Int} (hk : k = .int ∨ k = .largeInt)
    (he : numOf k h e = some (.ofInt z)) : e.asInt = some z := by
  rcases hk with rfl | rfl <;> simp only [numOf, Option.map_eq_some_iff] at he <;> obtain ⟨n, h1, h2⟩ := he <;>
    (rw [h1, Num.ofInt_inj h2])

theorem asFlt_length {e : Datum} {n : Nat} {b : Bytes} (h : e.asFlt n = some b) : b.length = n := by
  cases e <;> simp only [Datum.asFlt] at h
  case empty => cases h; simp
  case flt c =>
    by_cases hc : c.length = n
    · rw [if_pos hc] at h; cases h; exact hc
    · rw [if_neg hc] at h; cases h
  all_goals cases h

theorem castVal_ok {cv : Conv} (hcv : cv.Ok) {k kf : PKind} {h hf : Hdr} (ht : TyOk (.prim k h)) (htf : TyOk (.prim kf hf))
    {e : Datum} {x : Num} (he : numOf kf hf e = some x) (hr : Represents k h x) :
    ∃ v, castVal cv k h e kf hf = some (some v) ∧ v ≠ .null ∧ Exact (.prim k h) v ∧ numOf k h v = some x := by
  have hu : ∀ {n : Nat}, k = .bitField ∨ k = .uint ∨ k = .largeUint → x = .ofInt n → Exact (.prim k h) (.uint n) →
      castVal cv k h e kf hf = some (some (.uint n)) →
      ∃ v, castVal cv k h e kf hf = some (some v) ∧ v ≠ .null ∧ Exact (.prim k h) v ∧ numOf k h v = some x := by
    intro n hk hx hv hc
    refine ⟨_, hc, nofun, hv, ?_⟩
    rcases hk with rfl | rfl | rfl <;> rw [hx] <;> rfl
  have hi : ∀ {z : Int}, k = .int ∨ k = .largeInt → x = .ofInt z → Exact (.prim k h) (.int z) →
      castVal cv k h e kf hf = some (some (.int z)) →
      ∃ v, castVal cv k h e kf hf = some (some v) ∧ v ≠ .null ∧ Exact (.prim k h) v ∧ numOf k h v = some x := by
    intro n hk hx hv hc
    refine ⟨_, hc, nofun, hv, ?_⟩
    rcases hk with rfl | rfl <;> rw [hx] <;> rfl
  by_cases hkf : k = .float
  · subst hkf
    obtain ⟨b, hb1, hb2⟩ := represents_float hr
    have hs := ht.fltOk rfl
    have fin : (∃ b', castVal cv .float h e kf hf = some (some (.flt b')) ∧ b'.length = h.size ∧ Num.ofBits b' = .ofBits b) →
        ∃ v, castVal cv .float h e kf hf = some (some v) ∧ v ≠ .null ∧ Exact (.prim .float h) v ∧ numOf .float h v = some x := by
      rintro ⟨b', c1, c2, c3⟩
      refine ⟨_, c1, nofun, .inr c2, ?_⟩
      simp only [numOf, Datum.asFlt, if_pos c2, Option.map_some, c3, hb1]
    apply fin
    cases kf with
    | float =>
      simp only [numOf, Option.map_eq_some_iff] at he
      obtain ⟨b2, q1, q2⟩ := he
      have hsf := htf.fltOk rfl
      simp only [castVal, if_pos (show ((h.size = 4 || h.size = 8) && (hf.size = 4 || hf.size = 8)) = true by simpa using ⟨hs, hsf⟩),
        q1, Option.bind_eq_bind, Option.bind_some]
      by_cases hsame : h.size = hf.size
      · rw [if_pos hsame]
        refine ⟨_, rfl, ?_, by rw [q2, hb1]⟩
        rw [hsame]
        exact asFlt_length q1
      · rw [if_neg hsame]
        refine ⟨_, rfl, hcv.fltLen _ _ hs, ?_⟩
        have hl := asFlt_length q1
        rw [ofFlt_ok hcv hs (by omega) hb2 (by rw [q2, hb1]), q2, hb1]
    | bitField =>
      have he' := he
      simp only [numOf, Option.map_eq_some_iff] at he'
      obtain ⟨n, q1, q2⟩ := he'
      simp only [castVal, q1, Option.bind_eq_bind, Option.bind_some]
      exact castToFlt_ok hcv hs (by rw [q2, hb1]) hb2
    | uint =>
      have he' := he
      simp only [numOf, Option.map_eq_some_iff] at he'
      obtain ⟨n, q1, q2⟩ := he'
      simp only [castVal, q1, Option.bind_eq_bind, Option.bind_some]
      exact castToFlt_ok hcv hs (by rw [q2, hb1]) hb2
    | largeUint =>
      have he' := he
      simp only [numOf, Option.map_eq_some_iff] at he'
      obtain ⟨n, q1, q2⟩ := he'
      simp only [castVal, q1, Option.bind_eq_bind, Option.bind_some]
      exact castToFlt_ok hcv hs (by rw [q2, hb1]) hb2
    | int =>
      have he' := he
      simp only [numOf, Option.map_eq_some_iff] at he'
      obtain ⟨n, q1, q2⟩ := he'
      simp only [castVal, q1, Option.bind_eq_bind, Option.bind_some]
      exact castToFlt_ok hcv hs (by rw [q2, hb1]) hb2
    | largeInt =>
      have he' := he
      simp only [numOf, Option.map_eq_some_iff] at he'
      obtain ⟨n, q1, q2⟩ := he'
      simp only [castVal, q1, Option.bind_eq_bind, Option.bind_some]
      exact castToFlt_ok hcv hs (by rw [q2, hb1]) hb2
  · by_cases hku : k = .bitField ∨ k = .uint ∨ k = .largeUint
    · obtain ⟨n, rfl, hv⟩ := represents_uint hku hr
      have hw := uint_width hku ht hv
      apply hu hku rfl hv
      cases kf with
      | float =>
        have c64 := castFromFlt_ok hcv (signed := false) (bits := width k) (htf.fltOk rfl) he (inRange_u hw)
        rcases hku with rfl | rfl | rfl <;> simpa [castVal, width] using c64
      | bitField =>
        obtain ⟨m, q1, q2⟩ := asUint_of_num (.inl rfl) he
        have : n = m := by omega
        subst this
        rcases hku with rfl | rfl | rfl <;> simp only [castVal, q1, Option.bind_eq_bind, Option.bind_some] <;> rfl
      | uint =>
        obtain ⟨m, q1, q2⟩ := asUint_of_num (.inr (.inl rfl)) he
        have : n = m := by omega
        subst this
        rcases hku with rfl | rfl | rfl <;> simp only [castVal, q1, Option.bind_eq_bind, Option.bind_some] <;> rfl
      | largeUint =>
        obtain ⟨m, q1, q2⟩ := asUint_of_num (.inr (.inr rfl)) he
        have : n = m := by omega
        subst this
        rcases hku with rfl | rfl | rfl <;> simp only [width] at hw <;>
          simp only [castVal, q1, Option.bind_eq_bind, Option.bind_some, Nat.mod_eq_of_lt hw] <;> rfl
      | int =>
        have q1 := asInt_of_num (.inl rfl) he
        have htu := toU_eq hw
        rcases hku with rfl | rfl | rfl <;> simp only [width] at htu <;>
          simp only [castVal, q1, Option.bind_eq_bind, Option.bind_some, htu] <;> rfl
      | largeInt =>
        have q1 := asInt_of_num (.inr rfl) he
        have htu := toU_eq hw
        rcases hku with rfl | rfl | rfl <;> simp only [width] at htu <;>
          simp only [castVal, q1, Option.bind_eq_bind, Option.bind_some, htu] <;> rfl
    · have hki : k = .int ∨ k = .largeInt := by cases k <;> simp_all
      obtain ⟨z, rfl, hv⟩ := represents_int hki hr
      have hw := int_width hki ht hv
      have hts : toS (width k) z = z := toS_eq (by rcases hki with rfl | rfl <;> decide) hw.1 hw.2
      apply hi hki rfl hv
      cases kf with
      | float =>
        have c64 := castFromFlt_ok hcv (signed := true) (bits := width k) (htf.fltOk rfl) he (inRange_s hw)
        rcases hki with rfl | rfl <;> simpa [castVal, width] using c64
      | bitField =>
        obtain ⟨m, q1, rfl⟩ := asUint_of_num (.inl rfl) he
        rcases hki with rfl | rfl <;> simp only [width] at hts <;>
          simp only [castVal, q1, Option.bind_eq_bind, Option.bind_some, hts] <;> rfl
      | uint =>
        obtain ⟨m, q1, rfl⟩ := asUint_of_num (.inr (.inl rfl)) he
        rcases hki with rfl | rfl <;> simp only [width] at hts <;>
          simp only [castVal, q1, Option.bind_eq_bind, Option.bind_some, hts] <;> rfl
      | largeUint =>
        obtain ⟨m, q1, rfl⟩ := asUint_of_num (.inr (.inr rfl)) he
        rcases hki with rfl | rfl <;> simp only [width] at hts <;>
          simp only [castVal, q1, Option.bind_eq_bind, Option.bind_some, hts] <;> rfl
      | int =>
        have q1 := asInt_of_num (.inl rfl) he
        rcases hki with rfl | rfl <;> simp only [castVal, q1, Option.bind_eq_bind, Option.bind_some] <;> rfl
      | largeInt =>
        have q1 := asInt_of_num (.inr rfl) he
        rcases hki with rfl | rfl <;> simp only [width] at hts <;>
          simp only [castVal, q1, Option.bind_eq_bind, Option.bind_some, hts] <;> rfl

/-- C48. A number that the target type can represent keeps its value: between all integer, bit field
and floating point types, for a target that was not NULL before. -/
theorem C48_preserves {cv : Conv} (hcv : cv.Ok) {k kf : PKind} {h hf : Hdr} (hu : Usable (.prim k h)) (huf : Usable (.prim kf hf))
    {e0 e : Datum} {x : Num} (h0 : e0 ≠ .null) (hn : e ≠ .null) (he : numOf kf hf e = some x) (hr : Represents k h x) :
    ∃ v, typeCast cv e0 (.prim k h) e (.prim kf hf) = some (v, true) ∧ v ≠ .null ∧ Exact (.prim k h) v ∧ numOf k h v = some x := by
  obtain ⟨v, h1, h2⟩ := castVal_ok hcv hu.ok huf.ok he hr
  have nn : ∀ {y : Datum}, y ≠ .null → y.isNull = false := by intro y hy; cases y <;> first | rfl | exact absurd rfl hy
  refine ⟨v, ?_, h2⟩
  simp only [typeCast, nn hn, nn h0, h1, Option.bind_eq_bind, Option.bind_some, Bool.false_eq_true, if_false]
  rfl

/-- C48. NULL becomes NULL, or the empty value (zero) if the target type has no NULL. -/
theorem C48_null (cv : Conv) (e0 : Datum) (d df : Dti) :
    typeCast cv e0 d .null df = some (if d.isNullable then .null else .empty, true) := rfl

theorem cast_total (cv : Conv) {k kf : PKind} {h hf : Hdr} (hu : TyOk (.prim k h)) (huf : TyOk (.prim kf hf))
    {e0 e : Datum} {x : Num} (hn : e ≠ .null) (he : numOf kf hf e = some x) :
    ∃ v q, typeCast cv e0 (.prim k h) e (.prim kf hf) = some (v, q) ∧
      (kf ≠ .float ∨ k = .float → q = true) ∧ (q = false → v = e0) := by
  have nn : e.isNull = false := by cases e <;> first | rfl | exact absurd rfl hn
  suffices hs : ∃ r, castVal cv k h e kf hf = some r ∧ (kf ≠ .float ∨ k = .float → r ≠ none) by
    obtain ⟨r, h1, h2⟩ := hs
    cases r with
    | none =>
      refine ⟨e0, false, ?_, fun hh => absurd rfl (h2 hh), fun _ => rfl⟩
      simp only [typeCast, nn, h1, Option.bind_eq_bind, Option.bind_some, Bool.false_eq_true, if_false]; rfl
    | some v =>
      refine ⟨if e0.isNull then .null else v, true, ?_, fun _ => rfl, nofun⟩
      simp only [typeCast, nn, h1, Option.bind_eq_bind, Option.bind_some, Bool.false_eq_true, if_false]; rfl
  have o1 := hu.fltOk
  have o2 := huf.fltOk
  have hto : ∀ (big : Bool) (z : Int), (h.size = 4 ∨ h.size = 8) → ∃ v, castToFlt cv h big z = some (some v) := by
    intro big z hs
    unfold castToFlt
    rw [if_pos (by simpa using hs)]
    split
    · exact ⟨_, rfl⟩
    · split <;> exact ⟨_, rfl⟩
  have hfrom : ∀ s bits (b : Bytes), (hf.size = 4 ∨ hf.size = 8) → e.asFlt hf.size = some b → ∃ r, castFromFlt cv s bits e hf = some r := by
    intro s bits b hs hb
    unfold castFromFlt
    rw [if_pos (by simpa using hs), hb]
    simp only [Option.bind_eq_bind, Option.bind_some]
    cases cv.toInt s bits b <;> exact ⟨_, rfl⟩
  cases kf <;> simp only [numOf, Option.map_eq_some_iff] at he <;> obtain ⟨a, he, _⟩ := he <;> cases k <;>
    simp only [castVal, he, Option.bind_eq_bind, Option.bind_some] <;> first
    | exact ⟨_, rfl, nofun⟩
    | exact ⟨_, rfl, fun _ => nofun⟩
    | (obtain ⟨v, hv⟩ := hto false _ (o1 rfl); exact ⟨_, hv, fun _ => nofun⟩)
    | (obtain ⟨v, hv⟩ := hto true _ (o1 rfl); exact ⟨_, hv, fun _ => nofun⟩)
    | (obtain ⟨r, hr⟩ := hfrom _ _ _ (o2 rfl) he; refine ⟨r, hr, fun h => ?_⟩; rcases h with h | h; exact absurd rfl h; cases h)
    | (rw [if_pos (by simpa using ⟨o1 rfl, o2 rfl⟩)]; split <;> exact ⟨_, rfl, fun _ => nofun⟩)

theorem emod_dvd (z P : Int) : P ∣ z % P - z :=
  ⟨-(z / P), by have := Int.mul_ediv_add_emod z P; rw [Int.mul_neg]; omega⟩

theorem toU_dvd (bits : Nat) (z : Int) : ((2 ^ bits : Nat) : Int) ∣ (toU bits z : Int) - z := by
  unfold toU
  have hpos : 0 < 2 ^ bits := Nat.pow_pos (by decide)
  generalize 2 ^ bits = P at *
  have h0 := Int.emod_nonneg z (show (P : Int) ≠ 0 by omega)
  rw [Int.toNat_of_nonneg h0]
  exact emod_dvd _ _

theorem toS_dvd (bits : Nat) (z : Int) : ((2 ^ bits : Nat) : Int) ∣ toS bits z - z := by
  unfold toS
  generalize 2 ^ bits = P at *
  generalize 2 ^ (bits - 1) = Q at *
  have : (z + (Q : Int)) % P - Q - z = (z + Q) % P - (z + Q) := by omega
  rw [this]
  exact emod_dvd _ _

theorem mod_dvd (P n : Nat) : (P : Int) ∣ ((n % P : Nat) : Int) - n := by
  rw [Int.natCast_emod]
  exact emod_dvd _ _

/-- C48. Between integers and to floating point types a cast always succeeds; from a floating point
type to an integer it succeeds or leaves the target as it was. It never faults. -/
theorem C48_total (cv : Conv) {k kf : PKind} {h hf : Hdr} (hu : Usable (.prim k h)) (huf : Usable (.prim kf hf))
    {e0 e : Datum} {x : Num} (hn : e ≠ .null) (he : numOf kf hf e = some x) :
    ∃ v q, typeCast cv e0 (.prim k h) e (.prim kf hf) = some (v, q) ∧
      (kf ≠ .float ∨ k = .float → q = true) ∧ (q = false → v = e0) :=
  cast_total cv hu.ok huf.ok hn he

theorem toU_range (bits : Nat) (z : Int) : 0 ≤ (toU bits z : Int) ∧ (toU bits z : Int) < (2 ^ bits : Nat) := by
  unfold toU
  have hpos : 0 < 2 ^ bits := Nat.pow_pos (by decide)
  generalize 2 ^ bits = P at *
  have h0 := Int.emod_nonneg z (show (P : Int) ≠ 0 by omega)
  have h1 := Int.emod_lt_of_pos z (show (0 : Int) < P by omega)
  omega

theorem toS_range {bits : Nat} (hb : 1 ≤ bits) (z : Int) : -((2 ^ (bits - 1) : Nat) : Int) ≤ toS bits z ∧ toS bits z < (2 ^ (bits - 1) : Nat) := by
  unfold toS
  have : 2 ^ bits = 2 * 2 ^ (bits - 1) := by rw [← Nat.pow_succ']; congr 1; omega
  have hpos : 0 < 2 ^ (bits - 1) := Nat.pow_pos (by decide)
  rw [this]
  generalize 2 ^ (bits - 1) = P at *
  have h0 := Int.emod_nonneg (z + (P : Nat)) (show ((2 * P : Nat) : Int) ≠ 0 by omega)
  have h1 := Int.emod_lt_of_pos (z + (P : Nat)) (show (0 : Int) < (2 * P : Nat) by omega)
  omega

theorem mod_range {P n : Nat} (hP : 0 < P) : 0 ≤ ((n % P : Nat) : Int) ∧ ((n % P : Nat) : Int) < P := by
  have := Nat.mod_lt n hP
  omega

/-- The number is one that the C type of the member of `datum` for this kind of type (`uint64_t`, `int64_t`,
`uint256`, `int256`) can hold. -/
def CHolds : PKind → Int → Prop
  | .bitField, z | .uint, z => 0 ≤ z ∧ z < (2 ^ 64 : Nat)
  | .int, z => -((2 ^ 63 : Nat) : Int) ≤ z ∧ z < (2 ^ 63 : Nat)
  | .largeUint, z => 0 ≤ z ∧ z < (2 ^ 256 : Nat)
  | .largeInt, z => -((2 ^ 255 : Nat) : Int) ≤ z ∧ z < (2 ^ 255 : Nat)
  | .float, _ => False

/-- C48. Between integer types a number that does not fit is taken modulo 2^64, or modulo 2^256 for
the large types: the datum that results is the number that the C type of the target holds, may still exceed the
range of the type, and is stored modulo its width (C34). -/
theorem C48_modulo (cv : Conv) {k kf : PKind} {h hf : Hdr} {e0 e : Datum} {z : Int} (h0 : e0 ≠ .null) (hk : k ≠ .float)
    (he : intOf kf e = some z) (hz : CHolds kf z) :
    ∃ v z', typeCast cv e0 (.prim k h) e (.prim kf hf) = some (v, true) ∧ intOf k v = some z' ∧
      ((2 ^ width k : Nat) : Int) ∣ z' - z ∧ CHolds k z' := by
  have nn : ∀ {y : Datum}, y ≠ .null → y.isNull = false := by intro y hy; cases y <;> first | rfl | exact absurd rfl hy
  have hn : e ≠ .null := by rintro rfl; cases kf <;> simp [intOf, Datum.asUint, Datum.asInt] at he
  suffices hs : ∃ v z', castVal cv k h e kf hf = some (some v) ∧ intOf k v = some z' ∧ ((2 ^ width k : Nat) : Int) ∣ z' - z ∧ CHolds k z' by
    obtain ⟨v, z', h1, h2⟩ := hs
    refine ⟨v, z', ?_, h2⟩
    simp only [typeCast, nn hn, nn h0, h1, Option.bind_eq_bind, Option.bind_some, Bool.false_eq_true, if_false]
    rfl
  have triv : ∀ P : Int, ∀ y : Int, P ∣ y - y := fun P y => by rw [Int.sub_self]; exact Int.dvd_zero P
  have hcase : (∃ n : Nat, e.asUint = some n ∧ z = n ∧ (kf = .bitField ∨ kf = .uint ∨ kf = .largeUint)) ∨
      (e.asInt = some z ∧ (kf = .int ∨ kf = .largeInt)) := by
    cases kf <;> simp only [intOf] at he
    case int => exact .inr ⟨he, .inl rfl⟩
    case largeInt => exact .inr ⟨he, .inr rfl⟩
    case float => cases he
    all_goals
      rw [Option.map_eq_some_iff] at he
      obtain ⟨n, q1, q2⟩ := he
      exact .inl ⟨n, q1, q2.symm, by simp⟩
  have l1 : ((2 ^ 64 : Nat) : Int) ≤ ((2 ^ 256 : Nat) : Int) := by decide
  have l2 : ((2 ^ 63 : Nat) : Int) ≤ ((2 ^ 255 : Nat) : Int) := by decide
  have s64 : ∀ z, -((2 ^ 63 : Nat) : Int) ≤ toS 64 z ∧ toS 64 z < (2 ^ 63 : Nat) := fun z => toS_range (bits := 64) (by decide) z
  have s256 : ∀ z, -((2 ^ 255 : Nat) : Int) ≤ toS 256 z ∧ toS 256 z < (2 ^ 255 : Nat) := fun z => toS_range (bits := 256) (by decide) z
  rcases hcase with ⟨n, q1, rfl, hkf⟩ | ⟨q1, hkf⟩
  · rcases hkf with rfl | rfl | rfl <;> cases k <;> first
      | exact absurd rfl hk
      | (simp only [castVal, q1, Option.bind_eq_bind, Option.bind_some]; refine ⟨_, _, rfl, rfl, ?_, ?_⟩
         · simp only [width]
           with_reducible first | exact triv _ _ | exact mod_dvd _ _ | exact toS_dvd _ _
         · simp only [CHolds] at hz ⊢
           with_reducible first | exact hz | exact mod_range (by decide) | exact s64 _ | exact s256 _ |
            exact ⟨hz.1, Int.lt_of_lt_of_le hz.2 l1⟩)
  · rcases hkf with rfl | rfl <;> cases k <;> first
      | exact absurd rfl hk
      | (simp only [castVal, q1, Option.bind_eq_bind, Option.bind_some]; refine ⟨_, _, rfl, rfl, ?_, ?_⟩
         · simp only [width]
           with_reducible first | exact triv _ _ | exact toU_dvd _ _ | exact toS_dvd _ _
         · simp only [CHolds] at hz ⊢
           with_reducible first | exact hz | exact toU_range _ _ | exact s64 _ | exact s256 _ |
            exact ⟨Int.le_trans (Int.neg_le_neg l2) hz.1, Int.lt_of_lt_of_le hz.2 l2⟩)

example : intOf .int (.int (-1)) = some (-1) ∧ CHolds .int (-1) ∧
    typeCast ieee .empty (.prim .uint { isFinal := true, size := 2 }) (.int (-1)) (.prim .int { isFinal := true, size := 1 }) =
      some (.uint (2 ^ 64 - 1), true) := ⟨rfl, by simp only [CHolds]; decide, rfl⟩

/-- C48 does not hold for a target that was NULL before the call: the function reports success and
leaves the target NULL, since it writes the value but not the member `is_NULL`. -/
theorem C48_stale_null (cv : Conv) {k kf : PKind} {h hf : Hdr} {e : Datum} {r : Datum × Bool} (hn : e ≠ .null)
    (hc : typeCast cv .null (.prim k h) e (.prim kf hf) = some r) : r.1 = .null := by
  have nn : e.isNull = false := by cases e <;> first | rfl | exact absurd rfl hn
  simp only [typeCast, nn, Option.bind_eq_bind, Bool.false_eq_true, if_false] at hc
  cases hv : castVal cv k h e kf hf with
  | none => rw [hv] at hc; cases hc
  | some o =>
    rw [hv] at hc
    cases o <;> (simp only [Option.bind_some] at hc; cases hc; rfl)

/-- C48. What is not NULL is cast between numerals only: with a string, a tuple or an array on either
side the cast is refused and the target stays as it was. -/
theorem C48_refused (cv : Conv) {d df : Dti} {e0 e : Datum} (hn : e ≠ .null) (hc : d.isCont = true ∨ df.isCont = true) :
    typeCast cv e0 d e df = some (e0, false) := by
  have nn : e.isNull = false := by cases e <;> first | rfl | exact absurd rfl hn
  unfold typeCast
  cases d <;> cases df <;> simp_all [isCont]

example : (exFinal.typeAt [2]).map isCont = some true ∧ (Datum.bytes [53]) ≠ .null := ⟨by decide, nofun⟩

/-- The double 3.0 can be cast to a bit field of two bits, and -1 of 32 bytes to a signed byte; so
can 7 of 9 bytes to a `float`. -/
example : ieee.Ok ∧ Usable exDouble ∧ Usable (.prim .bitField { isFinal := true, size := 2 }) ∧
    Represents .bitField { isFinal := true, size := 2 } (.ofInt 3) ∧
    numOf .float { isFinal := true, size := 8 } (.flt [0, 0, 0, 0, 0, 0, 8, 64]) = some (.ofInt 3) ∧
    Represents .int { isFinal := true, size := 1 } (.ofInt (-1)) ∧
    numOf .largeInt { isFinal := true, size := 32 } (.int (-1)) = some (.ofInt (-1)) ∧
    Represents .float { isFinal := true, size := 4 } (.ofInt 7) := by
  refine ⟨ieee_ok, ⟨.prim .float { size := 8 }, .prim _ _ rfl, rfl, .prim _ _⟩,
    ⟨.prim .bitField { size := 2 }, .prim _ _ rfl, rfl, .prim _ _⟩, ⟨.uint 3, nofun, .inr (by decide), rfl⟩,
    by decide +kernel, ⟨.int (-1), nofun, .inr (by decide), rfl⟩, rfl, ⟨.flt [0, 0, 224, 64], nofun, .inr rfl, by decide +kernel⟩⟩

/-- The target was NULL, the cast of 5 reports success, the target is still NULL. -/
example : typeCast ieee .null (.prim .uint { isFinal := true, size := 2 }) (.uint 5) (.prim .uint { isFinal := true, size := 4 }) =
    some (.null, true) := rfl

end Props
end TS
