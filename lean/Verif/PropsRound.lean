import Verif.PropsNum
/-
Property C68: what casts to floating point types do to numbers that the type does not have.
-/
namespace TS
namespace Props
open Dti

/-- `b` is the number `x` as IEEE 754 rounds it to `n` bytes; infinities and NaN stay what they are. -/
def RoundsNum (n : Nat) (x : Num) (b : Bytes) : Prop :=
  match x with
  | .fin z => Rounds n z b
  | y => b.length = n ∧ Num.ofBits b = y

/-- A number that the type has is rounded to itself. -/
theorem rounds_self {n : Nat} {b : Bytes} (hn : n = 4 ∨ n = 8) (hb : b.length = n) : RoundsNum n (.ofBits b) b := by
  cases hx : Num.ofBits b with
  | fin z =>
    refine ⟨hb, by rw [hx]; nofun, fun c _ _ => by rw [hx]; simp [Num.ext], fun c hc hc' hne he => ?_⟩
    exfalso
    apply hne
    refine ext_inj hn hc hb hc' (by rw [hx]; nofun) ?_
    rw [hx] at he ⊢
    simp only [Num.ext] at he ⊢
    omega
  | _ => exact ⟨hb, hx⟩

theorem rounds_ofFlt {cv : Conv} (hcv : cv.Ok) {n : Nat} {b : Bytes} (hn : n = 4 ∨ n = 8) (hb : b.length = 4 ∨ b.length = 8) :
    RoundsNum n (.ofBits b) (cv.ofFlt n b) := by
  have h := hcv.ofFlt n b hn hb
  cases hx : Num.ofBits b with
  | fin z => simp only [hx] at h; exact h
  | _ => simp only [hx] at h; exact ⟨hcv.fltLen _ _ hn, h⟩

theorem past_bounds {n : Nat} {b : Bytes} (hn : n = 4 ∨ n = 8) (hb : b.length = n) (hb' : Num.ofBits b ≠ .nan) :
    -Num.past n ≤ (Num.ofBits b).ext n ∧ (Num.ofBits b).ext n ≤ Num.past n := by
  have := past_pos n
  cases hx : Num.ofBits b with
  | fin z => have := finite_ext hn hb hx; simp only [Num.ext]; omega
  | pinf => simp only [Num.ext]; omega
  | ninf => simp only [Num.ext]; omega
  | nan => exact absurd hx hb'

theorem lt_ext {n : Nat} {b c : Bytes} (hn : n = 4 ∨ n = 8) (hb : b.length = n) (hc : c.length = n) (hb' : Num.ofBits b ≠ .nan)
    (hc' : Num.ofBits c ≠ .nan) : Num.lt (.ofBits b) (.ofBits c) ↔ (Num.ofBits b).ext n < (Num.ofBits c).ext n := by
  have hp := past_pos n
  cases hx : Num.ofBits b with
  | nan => exact absurd hx hb'
  | fin x =>
    have h1 := finite_ext hn hb hx
    cases hy : Num.ofBits c with
    | nan => exact absurd hy hc'
    | fin y => simp [Num.lt, Num.ext]
    | pinf => simp only [Num.lt, Num.ext, true_iff]; omega
    | ninf => simp only [Num.lt, Num.ext, false_iff]; omega
  | pinf =>
    cases hy : Num.ofBits c with
    | nan => exact absurd hy hc'
    | fin y => have h1 := finite_ext hn hc hy; simp only [Num.lt, Num.ext, false_iff]; omega
    | pinf => simp [Num.lt, Num.ext]
    | ninf => simp only [Num.lt, Num.ext, false_iff]; omega
  | ninf =>
    cases hy : Num.ofBits c with
    | nan => exact absurd hy hc'
    | fin y => have h1 := finite_ext hn hc hy; simp only [Num.lt, Num.ext, true_iff]; omega
    | pinf => simp only [Num.lt, Num.ext, true_iff]; omega
    | ninf => simp [Num.lt, Num.ext]

theorem ext_ninf (n : Nat) : Num.ext n .ninf = -Num.past n := rfl
theorem ext_pinf (n : Nat) : Num.ext n .pinf = Num.past n := rfl

theorem RoundsNum.length {n : Nat} {x : Num} {b : Bytes} (h : RoundsNum n x b) : b.length = n := by
  cases x with
  | fin z => exact Rounds.len h
  | _ => exact And.left h

theorem RoundsNum.nan_iff {n : Nat} {x : Num} {b : Bytes} (h : RoundsNum n x b) : Num.ofBits b = .nan ↔ x = .nan := by
  cases x with
  | fin z => exact ⟨fun h1 => absurd h1 (Rounds.num h), nofun⟩
  | _ => have := And.right h; rw [this]

/-- Rounding keeps the order. -/
theorem RoundsNum.mono {n : Nat} {x y : Num} {b c : Bytes} (hn : n = 4 ∨ n = 8) (h1 : RoundsNum n x b) (h2 : RoundsNum n y c)
    (hxy : ¬ Num.lt y x) : ¬ Num.lt (.ofBits c) (.ofBits b) := by
  by_cases hy : y = .nan
  · rw [h2.nan_iff.mpr hy]; exact nan_greatest _
  by_cases hx : x = .nan
  · subst hx
    exfalso
    apply hxy
    cases y <;> first | trivial | exact absurd rfl hy
  have lb := h1.length
  have lc := h2.length
  have nb : Num.ofBits b ≠ .nan := fun h => hx (h1.nan_iff.mp h)
  have nc : Num.ofBits c ≠ .nan := fun h => hy (h2.nan_iff.mp h)
  rw [lt_ext hn lc lb nc nb]
  have bb := past_bounds hn lb nb
  have bc := past_bounds hn lc nc
  cases x with
  | nan => exact absurd rfl hx
  | ninf => rw [And.right h1, ext_ninf]; omega
  | pinf =>
    cases y with
    | nan => exact absurd rfl hy
    | pinf => rw [And.right h1, And.right h2]; simp only [Num.ext]; omega
    | fin z => exact absurd trivial hxy
    | ninf => exact absurd trivial hxy
  | fin z =>
    cases y with
    | nan => exact absurd rfl hy
    | pinf => rw [And.right h2, ext_pinf]; omega
    | fin w =>
      have := Rounds.mono hn (show Rounds n z b from h1) (show Rounds n w c from h2) (by simp only [Num.lt] at hxy; omega)
      omega
    | ninf => exact absurd trivial hxy

/-- Neither LARGE_UINT nor LARGE_INT. -/
def NotLarge (k : PKind) : Prop := k ≠ .largeUint ∧ k ≠ .largeInt

/-- C68. A cast to a floating point type from any numeral type but the LARGE ones always succeeds and
gives the nearest number of the type, the one with the even last bit if there are two; numbers beyond
the largest one become an infinity, infinities and NaN stay what they are. -/
theorem C68_nearest {cv : Conv} (hcv : cv.Ok) {kf : PKind} {h hf : Hdr} (hu : Usable (.prim .float h)) (huf : Usable (.prim kf hf))
    {e0 e : Datum} {x : Num} (h0 : e0 ≠ .null) (hn : e ≠ .null) (hk : NotLarge kf) (he : numOf kf hf e = some x) :
    ∃ b, typeCast cv e0 (.prim .float h) e (.prim kf hf) = some (.flt b, true) ∧ RoundsNum h.size x b := by
  have nn : ∀ {y : Datum}, y ≠ .null → y.isNull = false := by intro y hy; cases y <;> first | rfl | exact absurd rfl hy
  have hs := hu.ok.fltOk rfl
  suffices hv : ∃ b, castVal cv .float h e kf hf = some (some (.flt b)) ∧ RoundsNum h.size x b by
    obtain ⟨b, h1, h2⟩ := hv
    refine ⟨b, ?_, h2⟩
    simp only [typeCast, nn hn, nn h0, h1, Option.bind_eq_bind, Option.bind_some, Bool.false_eq_true, if_false]
    rfl
  have hint : ∀ z : Int, x = .ofInt z → ∃ b, castToFlt cv h false z = some (some (.flt b)) ∧ RoundsNum h.size x b := by
    intro z hz
    refine ⟨_, by unfold castToFlt; rw [if_pos (by simpa using hs)]; rfl, ?_⟩
    rw [hz]
    exact hcv.ofInt h.size z hs
  cases kf with
  | largeUint => exact absurd rfl hk.1
  | largeInt => exact absurd rfl hk.2
  | float =>
    simp only [numOf, Option.map_eq_some_iff] at he
    obtain ⟨b, q1, q2⟩ := he
    have hsf := huf.ok.fltOk rfl
    have hl := asFlt_length q1
    simp only [castVal, if_pos (show ((h.size = 4 || h.size = 8) && (hf.size = 4 || hf.size = 8)) = true by simpa using ⟨hs, hsf⟩),
      q1, Option.bind_eq_bind, Option.bind_some]
    by_cases hsame : h.size = hf.size
    · rw [if_pos hsame, ← q2]
      exact ⟨_, rfl, rounds_self hs (by omega)⟩
    · rw [if_neg hsame, ← q2]
      exact ⟨_, rfl, rounds_ofFlt hcv hs (by omega)⟩
  | bitField =>
    simp only [numOf, Option.map_eq_some_iff] at he
    obtain ⟨n, q1, q2⟩ := he
    simp only [castVal, q1, Option.bind_eq_bind, Option.bind_some]
    exact hint n q2.symm
  | uint =>
    simp only [numOf, Option.map_eq_some_iff] at he
    obtain ⟨n, q1, q2⟩ := he
    simp only [castVal, q1, Option.bind_eq_bind, Option.bind_some]
    exact hint n q2.symm
  | int =>
    simp only [numOf, Option.map_eq_some_iff] at he
    obtain ⟨n, q1, q2⟩ := he
    simp only [castVal, q1, Option.bind_eq_bind, Option.bind_some]
    exact hint n q2.symm

/-- A cast from one of the LARGE types. -/
theorem cast_large {cv : Conv} {kf : PKind} {h hf : Hdr} (hu : Usable (.prim .float h)) {e0 e : Datum} {z : Int}
    (h0 : e0 ≠ .null) (hn : e ≠ .null) (hk : ¬ NotLarge kf) (he : numOf kf hf e = some (.ofInt z)) :
    ∃ b, typeCast cv e0 (.prim .float h) e (.prim kf hf) = some (.flt b, true) ∧
      (h.size = 8 → b = cv.ofBig z) ∧ (h.size = 4 → b = cv.ofFlt 4 (cv.ofBig z)) := by
  have nn : ∀ {y : Datum}, y ≠ .null → y.isNull = false := by intro y hy; cases y <;> first | rfl | exact absurd rfl hy
  have hs := hu.ok.fltOk rfl
  suffices hv : ∃ b, castVal cv .float h e kf hf = some (some (.flt b)) ∧
      (h.size = 8 → b = cv.ofBig z) ∧ (h.size = 4 → b = cv.ofFlt 4 (cv.ofBig z)) by
    obtain ⟨b, h1, h2⟩ := hv
    refine ⟨b, ?_, h2⟩
    simp only [typeCast, nn hn, nn h0, h1, Option.bind_eq_bind, Option.bind_some, Bool.false_eq_true, if_false]
    rfl
  have hbig : ∃ b, castToFlt cv h true z = some (some (.flt b)) ∧
      (h.size = 8 → b = cv.ofBig z) ∧ (h.size = 4 → b = cv.ofFlt 4 (cv.ofBig z)) := by
    unfold castToFlt
    rw [if_pos (by simpa using hs), if_neg (by decide)]
    by_cases h4 : h.size = 4
    · rw [if_pos h4]; exact ⟨_, rfl, by omega, fun _ => rfl⟩
    · rw [if_neg h4]; exact ⟨_, rfl, fun _ => rfl, by omega⟩
  have hk' : kf = .largeUint ∨ kf = .largeInt := by unfold NotLarge at hk; cases kf <;> simp at hk ⊢
  rcases hk' with rfl | rfl
  · obtain ⟨n, q1, q2⟩ := asUint_of_num (.inr (.inr rfl)) he
    subst q2
    simp only [castVal, q1, Option.bind_eq_bind, Option.bind_some]
    exact hbig
  · have q1 := asInt_of_num (.inr rfl) he
    simp only [castVal, q1, Option.bind_eq_bind, Option.bind_some]
    exact hbig

theorem large_num {kf : PKind} {hf : Hdr} {e : Datum} {x : Num} (hk : ¬ NotLarge kf) (he : numOf kf hf e = some x) :
    ∃ z, x = .ofInt z := by
  have hk' : kf = .largeUint ∨ kf = .largeInt := by unfold NotLarge at hk; cases kf <;> simp at hk ⊢
  rcases hk' with rfl | rfl <;> (simp only [numOf, Option.map_eq_some_iff] at he; obtain ⟨n, _, h2⟩ := he; exact ⟨_, h2.symm⟩)

theorem ofInt_ext (z : Int) (n : Nat) : (Num.ofInt z).ext n = z * 2 ^ 1074 := rfl

theorem scale_le {z w : Int} (h : z ≤ w) : z * 2 ^ 1074 ≤ w * 2 ^ 1074 :=
  Int.mul_le_mul_of_nonneg_right h (Int.le_of_lt (Int.pow_pos (by decide)))

/-- The conversion of large integers keeps the order. -/
theorem big_mono {cv : Conv} (hcv : cv.Ok) {z w : Int} (h : z ≤ w) : ¬ Num.lt (.ofBits (cv.ofBig w)) (.ofBits (cv.ofBig z)) := by
  rw [lt_ext (.inr rfl) (hcv.bigLen _) (hcv.bigLen _) (hcv.bigNum _) (hcv.bigNum _)]
  have := hcv.bigOrder z w h
  omega

/-- C68. A cast of a LARGE integer to a floating point type gives one of the two numbers of the type that
are next to it: no number of the type is between. -/
theorem C68_large {cv : Conv} (hcv : cv.Ok) {kf : PKind} {h hf : Hdr} (hu : Usable (.prim .float h))
    {e0 e : Datum} {z : Int} (h0 : e0 ≠ .null) (hn : e ≠ .null) (hk : ¬ NotLarge kf) (he : numOf kf hf e = some (.ofInt z)) :
    ∃ b, typeCast cv e0 (.prim .float h) e (.prim kf hf) = some (.flt b, true) ∧ b.length = h.size ∧ Num.ofBits b ≠ .nan ∧
      ∀ c : Bytes, c.length = h.size → Num.ofBits c ≠ .nan →
        (¬ Num.lt (.ofInt z) (.ofBits c) → ¬ Num.lt (.ofBits b) (.ofBits c)) ∧
        (¬ Num.lt (.ofBits c) (.ofInt z) → ¬ Num.lt (.ofBits c) (.ofBits b)) := by
  have hs := hu.ok.fltOk rfl
  obtain ⟨b, h1, h2, h3⟩ := cast_large (cv := cv) (hf := hf) hu h0 hn hk he
  have hp8 : ∀ c8 : Bytes, c8.length = 8 → Num.ofBits c8 ≠ .nan →
      (¬ Num.lt (.ofInt z) (.ofBits c8) → ¬ Num.lt (.ofBits (cv.ofBig z)) (.ofBits c8)) ∧
      (¬ Num.lt (.ofBits c8) (.ofInt z) → ¬ Num.lt (.ofBits c8) (.ofBits (cv.ofBig z))) := by
    intro c hc hc'
    obtain ⟨g1, g2⟩ := hcv.bigBetween z c hc hc'
    rw [lt_ext (.inr rfl) (hcv.bigLen _) hc (hcv.bigNum _) hc', lt_ext (.inr rfl) hc (hcv.bigLen _) hc' (hcv.bigNum _)]
    constructor
    · intro hlt
      cases hx : Num.ofBits c with
      | fin x =>
        rw [hx] at g1 hlt
        simp only [Num.lt, Num.ofInt, Num.ext] at g1 hlt ⊢
        have := g1 (by omega)
        omega
      | ninf => have := past_bounds (.inr rfl) (hcv.bigLen z) (hcv.bigNum z); rw [ext_ninf]; omega
      | pinf => rw [hx] at hlt; exact absurd trivial hlt
      | nan => exact absurd hx hc'
    · intro hlt
      cases hx : Num.ofBits c with
      | fin x =>
        rw [hx] at g2 hlt
        simp only [Num.lt, Num.ofInt, Num.ext] at g2 hlt ⊢
        have := g2 (by omega)
        omega
      | pinf => have := past_bounds (.inr rfl) (hcv.bigLen z) (hcv.bigNum z); rw [ext_pinf]; omega
      | ninf => rw [hx] at hlt; exact absurd trivial hlt
      | nan => exact absurd hx hc'
  rcases hs with hs | hs
  · have hb := h3 hs
    have hr := rounds_ofFlt hcv (n := 4) (.inl rfl) (.inr (hcv.bigLen z))
    rw [← hb] at hr
    refine ⟨b, h1, by rw [hr.length, hs], fun hh => hcv.bigNum z (hr.nan_iff.mp hh), fun c hc hc' => ?_⟩
    rw [hs] at hc
    obtain ⟨c8, l8, e8⟩ := float_is_double hc
    have hrc : RoundsNum 4 (.ofBits c8) c := by rw [e8]; exact rounds_self (.inl rfl) hc
    have hc8 : Num.ofBits c8 ≠ .nan := by rw [e8]; exact hc'
    obtain ⟨g1, g2⟩ := hp8 c8 l8 hc8
    rw [e8] at g1 g2
    exact ⟨fun hl => hrc.mono (.inl rfl) hr (by rw [e8]; exact g1 hl), fun hl => hr.mono (.inl rfl) hrc (by rw [e8]; exact g2 hl)⟩
  · have hb := h2 hs
    subst hb
    refine ⟨_, h1, by rw [hcv.bigLen, hs], hcv.bigNum z, fun c hc hc' => hp8 c (by omega) hc'⟩

/-- C68. Casts to a floating point type keep the order: if the library compares one number as at most
another, then so it does after both are cast to the type, as long as both or none of them are of LARGE
types. -/
theorem C68_order {cv : Conv} (hcv : cv.Ok) {k1 k2 : PKind} {h h1 h2 : Hdr} (hu : Usable (.prim .float h))
    (u1 : Usable (.prim k1 h1)) (u2 : Usable (.prim k2 h2)) {a1 a2 e1 e2 : Datum} {x1 x2 : Num} {r : Int}
    (n1 : e1 ≠ .null) (n2 : e2 ≠ .null) (i1 : a1 ≠ .null) (i2 : a2 ≠ .null) (hk : NotLarge k1 ↔ NotLarge k2)
    (m1 : numOf k1 h1 e1 = some x1) (m2 : numOf k2 h2 e2 = some x2)
    (hc : canCompare (.prim k1 h1) (.prim k2 h2) = some true)
    (hr : compareDatum e1 (some (.prim k1 h1)) e2 (some (.prim k2 h2)) = some r) (hle : r ≤ 0) :
    ∃ v1 v2 r', typeCast cv a1 (.prim .float h) e1 (.prim k1 h1) = some (v1, true) ∧
      typeCast cv a2 (.prim .float h) e2 (.prim k2 h2) = some (v2, true) ∧
      compareDatum2 v1 v2 (some (.prim .float h)) = some r' ∧ r' ≤ 0 := by
  have nn : ∀ {y : Datum}, y ≠ .null → y.isNull = false := by intro y hy; cases y <;> first | rfl | exact absurd rfl hy
  have hs := hu.ok.fltOk rfl
  have hx : ¬ Num.lt x2 x1 := by
    rw [C43_numbers_by_value u1 u2 hc (nn n1) (nn n2) m1 m2] at hr
    intro hl
    have h1 := Num.lt_asymm hl
    have h2 : x1 ≠ x2 := fun e => Num.lt_irrefl _ (e ▸ hl)
    rw [if_neg h1, if_neg h2] at hr
    cases hr
    omega
  have fin : ∀ b1 b2 : Bytes, b1.length = h.size → b2.length = h.size → ¬ Num.lt (.ofBits b2) (.ofBits b1) →
      ∃ r', compareDatum2 (.flt b1) (.flt b2) (some (.prim .float h)) = some r' ∧ r' ≤ 0 := by
    intro b1 b2 l1 l2 hl
    have c1 : Means (.prim .float h) (.flt b1) (.num (.ofBits b1)) := .inr ⟨rfl, _, by simp [numOf, Datum.asFlt, l1], rfl⟩
    have c2 : Means (.prim .float h) (.flt b2) (.num (.ofBits b2)) := .inr ⟨rfl, _, by simp [numOf, Datum.asFlt, l2], rfl⟩
    exact ⟨_, C42_compares_values2 hu c1 c2, ord_le hl⟩
  by_cases hk1 : NotLarge k1
  · obtain ⟨b1, c1, r1⟩ := C68_nearest hcv hu u1 i1 n1 hk1 m1
    obtain ⟨b2, c2, r2⟩ := C68_nearest hcv hu u2 i2 n2 (hk.mp hk1) m2
    obtain ⟨r', g1, g2⟩ := fin b1 b2 r1.length r2.length (r1.mono hs r2 hx)
    exact ⟨_, _, r', c1, c2, g1, g2⟩
  · have hk2 : ¬ NotLarge k2 := fun hh => hk1 (hk.mpr hh)
    obtain ⟨z1, rfl⟩ := large_num hk1 m1
    obtain ⟨z2, rfl⟩ := large_num hk2 m2
    obtain ⟨b1, c1, p1, q1⟩ := cast_large (cv := cv) hu i1 n1 hk1 m1
    obtain ⟨b2, c2, p2, q2⟩ := cast_large (cv := cv) hu i2 n2 hk2 m2
    have hz : z1 ≤ z2 := by rw [Num.ofInt_lt] at hx; omega
    have hbig := big_mono hcv hz
    have hb : b1.length = h.size ∧ b2.length = h.size ∧ ¬ Num.lt (.ofBits b2) (.ofBits b1) := by
      rcases hs with hs | hs
      · have r1 := rounds_ofFlt hcv (n := 4) (.inl rfl) (.inr (hcv.bigLen z1))
        have r2 := rounds_ofFlt hcv (n := 4) (.inl rfl) (.inr (hcv.bigLen z2))
        rw [q1 hs, q2 hs, hs]
        exact ⟨r1.length, r2.length, r1.mono (.inl rfl) r2 hbig⟩
      · rw [p1 hs, p2 hs, hs]
        exact ⟨hcv.bigLen _, hcv.bigLen _, hbig⟩
    obtain ⟨r', g1, g2⟩ := fin b1 b2 hb.1 hb.2.1 hb.2.2
    exact ⟨_, _, r', c1, c2, g1, g2⟩

/-- C68. A `float` cast to `double` and back is the same `float`, bit for bit, zeros and their signs
included, unless it is a NaN. -/
theorem C68_there_and_back {cv : Conv} (hcv : cv.Ok) {b : Bytes} {h4 h8 : Hdr} {e0 e1 : Datum} (s4 : h4.size = 4) (s8 : h8.size = 8)
    (h0 : e0 ≠ .null) (h1 : e1 ≠ .null) (hb : b.length = 4) (hn : Num.ofBits b ≠ .nan) :
    ∃ v, typeCast cv e0 (.prim .float h8) (.flt b) (.prim .float h4) = some (v, true) ∧
      typeCast cv e1 (.prim .float h4) v (.prim .float h8) = some (.flt b, true) := by
  have nn : ∀ {y : Datum}, y ≠ .null → y.isNull = false := by intro y hy; cases y <;> first | rfl | exact absurd rfl hy
  have l8 := hcv.fltLen 8 b (.inr rfl)
  obtain ⟨c8, k8, e8⟩ := float_is_double hb
  have v8 : Num.ofBits (cv.ofFlt 8 b) = .ofBits b := ofFlt_ok hcv (.inr rfl) (.inl hb) k8 e8
  have v4 : Num.ofBits (cv.ofFlt 4 (cv.ofFlt 8 b)) = .ofBits (cv.ofFlt 8 b) := ofFlt_ok hcv (.inl rfl) (.inr l8) hb v8.symm
  have l4 := hcv.fltLen 4 (cv.ofFlt 8 b) (.inl rfl)
  have g8 := hcv.sign 8 b (.inr rfl) (.inl hb) hn
  have g4 := hcv.sign 4 (cv.ofFlt 8 b) (.inl rfl) (.inr l8) (by rw [v8]; exact hn)
  rw [l8, g8, hb] at g4
  have hsame : cv.ofFlt 4 (cv.ofFlt 8 b) = b := by
    generalize cv.ofFlt 4 (cv.ofFlt 8 b) = c at *
    have hv : Num.ofBits c = .ofBits b := by rw [v4, v8]
    have pb := (ofBits_num (.inl rfl) hb).1.mp hn
    have pc := (ofBits_num (.inl rfl) l4).1.mp (by rw [hv]; exact hn)
    have x1 := (ofBits_num (.inl rfl) hb).2 pb
    have x2 := (ofBits_num (.inl rfl) l4).2 pc
    rw [hv, x1] at x2
    have hs : signOf c = signOf b := by unfold signOf; rw [l4, hb]; exact g4
    rw [hs] at x2
    have hm : mag 4 (patOf b) = mag 4 (patOf c) := by unfold signed at x2; split at x2 <;> omega
    have hp := mag_inj hm
    have hd : leDec c = leDec b := by
      unfold patOf at hp; unfold signOf at hs
      rw [l4, hb] at hp hs
      have a1 := Nat.div_add_mod (leDec c) (2 ^ (8 * 4 - 1))
      have a2 := Nat.div_add_mod (leDec b) (2 ^ (8 * 4 - 1))
      rw [hs, ← hp] at a1
      omega
    rw [← leEnc_leDec c, ← leEnc_leDec b, hd, l4, hb]
  refine ⟨.flt (cv.ofFlt 8 b), ?_, ?_⟩
  · simp [typeCast, castVal, Datum.isNull, Datum.asFlt, s4, s8, hb]
  · simp [typeCast, castVal, Datum.isNull, Datum.asFlt, s4, s8, l8, hsame]

/-- C68. Neither the nearest number nor the order across types is kept for LARGE integers: they are
converted to `float` by way of `double`. 2^54 + 2^30 + 1 is the same number as UINT and as LARGE_UINT for
the library, but cast to `float` the latter is the smaller number, and not the nearest. -/
theorem C68_rounded_twice : ∃ b c : Bytes,
    compareDatum (.uint (2 ^ 54 + 2 ^ 30 + 1)) (some (.prim .uint { isFinal := true, size := 8 })) (.uint (2 ^ 54 + 2 ^ 30 + 1))
      (some (.prim .largeUint { isFinal := true, size := 9 })) = some 0 ∧
    typeCast ieee .empty (.prim .float { isFinal := true, size := 4 }) (.uint (2 ^ 54 + 2 ^ 30 + 1))
      (.prim .uint { isFinal := true, size := 8 }) = some (.flt b, true) ∧
    typeCast ieee .empty (.prim .float { isFinal := true, size := 4 }) (.uint (2 ^ 54 + 2 ^ 30 + 1))
      (.prim .largeUint { isFinal := true, size := 9 }) = some (.flt c, true) ∧
    compareDatum2 (.flt c) (.flt b) (some (.prim .float { isFinal := true, size := 4 })) = some (-1) ∧
    ¬ Rounds 4 ((2 ^ 54 + 2 ^ 30 + 1) * 2 ^ 1074) c := by
  let z : Int := 18014399583223809
  refine ⟨ieee.ofInt 4 z, ieee.ofFlt 4 (ieee.ofBig z), by decide +kernel, by decide +kernel, by decide +kernel, by decide +kernel, ?_⟩
  intro h
  have := h.unique (.inl rfl) (ieee_ok.ofInt 4 z (.inl rfl))
  revert this
  decide +kernel

/-- Conversions that round exist; 2^64-1 is rounded to the float 2^64, and a double too large for a float to infinity. -/
example : ieee.Ok ∧ Usable exDouble ∧
    typeCast ieee .empty (.prim .float { isFinal := true, size := 4 }) (.uint (2 ^ 64 - 1)) (.prim .uint { isFinal := true, size := 8 }) =
      some (.flt [0, 0, 128, 95], true) ∧
    typeCast ieee .empty (.prim .float { isFinal := true, size := 4 }) (.flt [255, 255, 255, 255, 255, 255, 239, 127])
      (.prim .float { isFinal := true, size := 8 }) = some (.flt [0, 0, 128, 127], true) :=
  ⟨ieee_ok, ⟨.prim .float { size := 8 }, .prim _ _ rfl, rfl, .prim _ _⟩, by decide +kernel, by decide +kernel⟩

/-- Two numbers of different types and a float they are cast to, meeting the hypotheses of `C68_order` and `C68_nearest`. -/
example : Usable (.prim .float { isFinal := true, size := 4 }) ∧ Usable (.prim .uint { isFinal := true, size := 8 }) ∧
    Usable exDouble ∧ NotLarge .uint ∧ NotLarge .float ∧ canCompare (.prim .uint { isFinal := true, size := 8 }) exDouble = some true ∧
    numOf .uint { isFinal := true, size := 8 } (.uint 16777217) = some (.ofInt 16777217) ∧
    numOf .float { isFinal := true, size := 8 } (.flt [0, 0, 0, 32, 0, 0, 112, 65]) = some (.ofInt 16777218) ∧
    compareDatum (.uint 16777217) (some (.prim .uint { isFinal := true, size := 8 })) (.flt [0, 0, 0, 32, 0, 0, 112, 65]) (some exDouble) =
      some (-1) ∧
    typeCast ieee .empty (.prim .float { isFinal := true, size := 4 }) (.uint 16777217) (.prim .uint { isFinal := true, size := 8 }) =
      some (.flt [0, 0, 128, 75], true) :=
  ⟨⟨.prim .float { size := 4 }, .prim _ _ rfl, rfl, .prim _ _⟩, ⟨.prim .uint { size := 8 }, .prim _ _ rfl, rfl, .prim _ _⟩,
    ⟨.prim .float { size := 8 }, .prim _ _ rfl, rfl, .prim _ _⟩, ⟨nofun, nofun⟩, ⟨nofun, nofun⟩, by decide +kernel, by decide +kernel,
    by decide +kernel, by decide +kernel, by decide +kernel⟩

/-- A LARGE_INT that no `float` is, as in `C68_large`. -/
example : ¬ NotLarge .largeInt ∧ numOf .largeInt { isFinal := true, size := 12 } (.int (-16777217)) = some (.ofInt (-16777217)) ∧
    typeCast ieee .empty (.prim .float { isFinal := true, size := 4 }) (.int (-16777217)) (.prim .largeInt { isFinal := true, size := 12 }) =
      some (.flt [0, 0, 128, 203], true) :=
  ⟨fun h => h.2 rfl, by decide +kernel, by decide +kernel⟩

/-- The negative zero of `C68_there_and_back`. -/
example : typeCast ieee .empty (.prim .float { isFinal := true, size := 8 }) (.flt [0, 0, 0, 128]) (.prim .float { isFinal := true, size := 4 }) =
      some (.flt [0, 0, 0, 0, 0, 0, 0, 128], true) ∧ Num.ofBits [0, 0, 0, 128] ≠ .nan := by decide +kernel

end Props
end TS
