import Verif.Frame
import Verif.ContResize
/-
What the bytes of a tuple depend on. Two memories that agree in some of their bits are changed by
the same function: the bits in which the results agree.
-/
namespace TS

/-- The memories have the same length and agree in the bits `K` says. -/
def Ag (K : Nat → Prop) (a b : Bytes) : Prop := a.length = b.length ∧ ∀ j, K j → bit a 0 j = bit b 0 j

/-- If the first succeeds the second does, and the results agree in the bits `K` says. -/
def RK (K : Nat → Prop) (x y : Option Bytes) : Prop := ∀ a, x = some a → ∃ b, y = some b ∧ Ag K a b

/-- The bits of the bytes from `o` to `o + l`. -/
def span (o l : Nat) (j : Nat) : Prop := 8 * o ≤ j ∧ j < 8 * (o + l)

theorem bit_abs (m : Bytes) (off j : Nat) : bit m off j = bit m 0 (8 * off + j) := by
  unfold bit
  rw [show 0 + (8 * off + j) / 8 = off + j / 8 by omega, show (8 * off + j) % 8 = j % 8 by omega]

theorem Ag.mono {K K' : Nat → Prop} {a b : Bytes} (h : Ag K a b) (hk : ∀ j, K' j → K j) : Ag K' a b :=
  ⟨h.1, fun j hj => h.2 j (hk j hj)⟩

theorem RK.mono {K K' : Nat → Prop} {x y : Option Bytes} (h : RK K x y) (hk : ∀ j, K' j → K j) : RK K' x y :=
  fun a ha => by obtain ⟨b, h1, h2⟩ := h a ha; exact ⟨b, h1, h2.mono hk⟩

theorem RK.pure {K : Nat → Prop} {a b : Bytes} (h : Ag K a b) : RK K (some a) (some b) := by
  intro x hx; cases hx; exact ⟨b, rfl, h⟩

theorem RK.bind {K K' : Nat → Prop} {x y : Option Bytes} {f g : Bytes → Option Bytes} (h : RK K x y)
    (hf : ∀ a b, Ag K a b → RK K' (f a) (g b)) : RK K' (x.bind f) (y.bind g) := by
  intro c hc
  obtain ⟨a, h1, h2⟩ := Option.bind_eq_some_iff.mp hc
  obtain ⟨b, h3, h4⟩ := h a h1
  obtain ⟨e, h5, h6⟩ := hf a b h4 c h2
  exact ⟨e, by rw [h3]; exact h5, h6⟩

theorem RK.bindV {α : Type} {K : Nat → Prop} {x y : Option α} {f g : α → Option Bytes} (h : x = y)
    (hf : ∀ v, RK K (f v) (g v)) : RK K (x.bind f) (y.bind g) := by
  subst h
  intro c hc
  obtain ⟨a, h1, h2⟩ := Option.bind_eq_some_iff.mp hc
  obtain ⟨b, h3, h4⟩ := hf a c h2
  exact ⟨b, by rw [h1]; exact h3, h4⟩

theorem RK.ite {K : Nat → Prop} {c : Prop} [Decidable c] {a b a' b' : Option Bytes} (h1 : c → RK K a a')
    (h2 : ¬ c → RK K b b') : RK K (if c then a else b) (if c then a' else b') := by
  split
  · exact h1 ‹_›
  · exact h2 ‹_›

theorem byte_of_bits {x y : UInt8} (h : ∀ k, k < 8 → x.toNat.testBit k = y.toNat.testBit k) : x = y := by
  apply UInt8.toNat_inj.mp
  apply Nat.eq_of_testBit_eq
  intro k
  by_cases hk : k < 8
  · exact h k hk
  · have hx := x.toNat_lt
    have hy := y.toNat_lt
    have hp : 2 ^ 8 ≤ 2 ^ k := Nat.pow_le_pow_right (by omega) (by omega)
    rw [Nat.testBit_lt_two_pow (by omega), Nat.testBit_lt_two_pow (by omega)]

/-- Bytes all of whose bits are known are known. -/
theorem Ag.byte {K : Nat → Prop} {a b : Bytes} (h : Ag K a b) {x : Nat} (hk : ∀ j, 8 * x ≤ j → j < 8 * x + 8 → K j) :
    a[x]? = b[x]? := by
  by_cases hx : x < a.length
  · have hy : x < b.length := by rw [← h.1]; exact hx
    rw [List.getElem?_eq_getElem hx, List.getElem?_eq_getElem hy]
    congr 1
    apply byte_of_bits
    intro k hk8
    have := h.2 (8 * x + k) (hk _ (by omega) (by omega))
    unfold bit at this
    rw [show 0 + (8 * x + k) / 8 = x by omega, show (8 * x + k) % 8 = k by omega, List.getElem?_eq_getElem hx,
      List.getElem?_eq_getElem hy] at this
    exact this
  · rw [List.getElem?_eq_none (by omega), List.getElem?_eq_none (by rw [← h.1]; omega)]

theorem Ag.rd {K : Nat → Prop} {a b : Bytes} (h : Ag K a b) {o l : Nat} (hk : ∀ j, span o l j → K j) :
    rd a o l = rd b o l := by
  apply rd_ext
  intro i hi
  exact h.byte (fun j h1 h2 => hk j ⟨by omega, by omega⟩)

theorem Ag.load {K : Nat → Prop} {a b : Bytes} (h : Ag K a b) {o l : Nat} (hk : ∀ j, span o l j → K j) :
    load a o l = load b o l := by
  unfold TS.load; rw [h.rd hk, h.1]

theorem Ag.loadVal {K : Nat → Prop} {a b : Bytes} (h : Ag K a b) {ps o : Nat} (hk : ∀ j, span o (vsz ps) j → K j) :
    loadVal a ps o = loadVal b ps o := by unfold TS.loadVal; rw [h.load hk]

/-- All bytes of the first `n` are known. -/
theorem Ag.take {K : Nat → Prop} {a b : Bytes} (h : Ag K a b) {n : Nat} (hk : ∀ j, j < 8 * n → K j) :
    a.take n = b.take n := by
  rw [← rd_zero_eq_take, ← rd_zero_eq_take]
  exact h.rd (fun j hj => hk j (by have := hj.2; omega))

theorem Ag.of_take {a b : Bytes} {n : Nat} (hl : a.length = b.length) (h : a.take n = b.take n) :
    Ag (fun j => j < 8 * n) a b := by
  refine ⟨hl, fun j hj => bit_congr ?_⟩
  have : (a.take n)[j / 8]? = (b.take n)[j / 8]? := by rw [h]
  rw [List.getElem?_take, List.getElem?_take, if_pos (by omega), if_pos (by omega)] at this
  simpa using this

theorem bit_byte {a b : Bytes} {j j' : Nat} (h : a[j / 8]? = b[j' / 8]?) (h8 : j % 8 = j' % 8) : bit a 0 j = bit b 0 j' := by
  unfold bit; simp only [Nat.zero_add]; rw [h, h8]

theorem bit_over (m s : Bytes) (o j : Nat) (h : o + s.length ≤ m.length) :
    bit (wr m o s) 0 j = if 8 * o ≤ j ∧ j < 8 * (o + s.length) then bit s 0 (j - 8 * o) else bit m 0 j := by
  split
  · apply bit_byte
    · rw [wr_getElem?, if_pos (by omega)]
      congr 1; omega
    · omega
  · apply bit_byte
    · rw [wr_getElem?, if_neg (by omega)]
    · rfl

/-- What is stored is known. -/
theorem Ag.store {K : Nat → Prop} {a b : Bytes} (h : Ag K a b) (o : Nat) (s : Bytes) :
    RK (fun j => K j ∨ span o s.length j) (store a o s) (store b o s) := by
  intro x hx
  unfold TS.store at hx ⊢
  rw [← h.1]
  by_cases hl : o + s.length ≤ a.length
  · rw [if_pos hl] at hx ⊢
    cases hx
    refine ⟨_, rfl, by rw [wr_length, wr_length]; exact h.1, fun j hj => ?_⟩
    rw [bit_over _ _ _ _ hl, bit_over _ _ _ _ (by rw [← h.1]; exact hl)]
    split
    · rfl
    · rcases hj with hj | hj
      · exact h.2 j hj
      · exact absurd hj ‹_›
  · rw [if_neg hl] at hx; cases hx

theorem Ag.storeVal {K : Nat → Prop} {a b : Bytes} (h : Ag K a b) (ps o v : Nat) :
    RK (fun j => K j ∨ span o (vsz ps) j) (storeVal a ps o v) (storeVal b ps o v) := by
  have := h.store o (leEnc (vsz ps) v)
  rwa [leEnc_length] at this

theorem Ag.zeroIn {K : Nat → Prop} {a b : Bytes} (h : Ag K a b) (o l : Nat) :
    RK (fun j => K j ∨ span o l j) (zeroIn a o l) (zeroIn b o l) := by
  have := h.store o (List.replicate l 0)
  rwa [List.length_replicate] at this

/-- What was known is known where it is moved to. -/
theorem Ag.moveIn {K : Nat → Prop} {a b : Bytes} (h : Ag K a b) (dst src len : Nat) :
    RK (fun j => if 8 * dst ≤ j ∧ j < 8 * (dst + len) then K (j - 8 * dst + 8 * src) else K j)
      (moveIn a dst src len) (moveIn b dst src len) := by
  intro x hx
  simp only [TS.moveIn, TS.load, TS.store, Option.bind_eq_bind] at hx ⊢
  rw [← h.1]
  by_cases hl : src + len ≤ a.length
  · rw [if_pos hl] at hx ⊢
    simp only [Option.bind_some] at hx ⊢
    have l1 : (TS.rd a src len).length = len := rd_length _ _ _ hl
    have l2 : (TS.rd b src len).length = len := rd_length _ _ _ (by rw [← h.1]; exact hl)
    rw [l1] at hx
    rw [l2]
    by_cases hd : dst + len ≤ a.length
    · rw [if_pos hd] at hx ⊢
      cases hx
      refine ⟨_, rfl, by rw [wr_length, wr_length]; exact h.1, fun j hj => ?_⟩
      rw [bit_over _ _ _ _ (by rw [l1]; exact hd), bit_over _ _ _ _ (by rw [l2, ← h.1]; exact hd), l1, l2]
      have hrd : ∀ (m : Bytes) k, k < 8 * len → bit (TS.rd m src len) 0 k = bit m 0 (k + 8 * src) := by
        intro m k hk
        apply bit_byte
        · simp only [TS.rd]
          rw [List.getElem?_take, if_pos (by omega), List.getElem?_drop]
          congr 1; omega
        · omega
      split
      · rename_i hs
        simp only [if_pos hs] at hj
        rw [hrd _ _ (by omega), hrd _ _ (by omega)]
        exact h.2 _ hj
      · rename_i hs
        simp only [if_neg hs] at hj
        exact h.2 _ hj
    · rw [if_neg hd] at hx; cases hx
  · rw [if_neg hl] at hx; cases hx

theorem withBit_abs (m : Bytes) (o i : Nat) (v : Bool) : withBit m o i v = withBit m 0 (8 * o + i) v := by
  unfold withBit
  rw [show 0 + (8 * o + i) / 8 = o + i / 8 by omega, show (8 * o + i) % 8 = i % 8 by omega]

/-- Writing one bit. -/
theorem Ag.putBit {K : Nat → Prop} {a b : Bytes} (h : Ag K a b) (o i : Nat) (v : Bool) :
    RK (fun j => K j ∨ j = 8 * o + i) (putBit a o i v) (putBit b o i v) := by
  intro x hx
  by_cases hl : o + i / 8 < a.length
  · rw [putBit_eq hl] at hx
    cases hx
    have hl' : o + i / 8 < b.length := by rw [← h.1]; exact hl
    refine ⟨_, putBit_eq hl' v, by simp [h.1], fun j hj => ?_⟩
    rw [withBit_abs a, withBit_abs b, bit_withBit (by omega), bit_withBit (by omega)]
    split
    · rfl
    · rcases hj with hj | hj
      · exact h.2 j hj
      · exact absurd hj ‹_›
  · have : a[o + i / 8]? = none := List.getElem?_eq_none (by omega)
    unfold TS.putBit setBit resetBit at hx
    rw [this] at hx
    simp at hx

theorem Ag.getBit {K : Nat → Prop} {a b : Bytes} (h : Ag K a b) {o i : Nat} (hk : K (8 * o + i)) :
    getBit a o i = getBit b o i := by
  by_cases hl : o + i / 8 < a.length
  · rw [getBit_eq hl, getBit_eq (by rw [← h.1]; exact hl), bit_abs, bit_abs b, h.2 _ hk]
  · unfold TS.getBit
    rw [List.getElem?_eq_none (by omega), List.getElem?_eq_none (by rw [← h.1]; omega)]

theorem Ag.getBitsN {K : Nat → Prop} {a b : Bytes} (h : Ag K a b) {o : Nat} (n : Nat) :
    ∀ i, (∀ j, 8 * o + i ≤ j → j < 8 * o + i + n → K j) → getBitsN a o i n = getBitsN b o i n := by
  induction n with
  | zero => intro i _; rfl
  | succ n ih =>
    intro i hk
    unfold TS.getBitsN
    rw [h.getBit (hk _ (by omega) (by omega)), ih (i + 1) (fun j h1 h2 => hk j (by omega) (by omega))]

theorem Ag.getBits {K : Nat → Prop} {a b : Bytes} (h : Ag K a b) {o i n : Nat}
    (hk : ∀ j, 8 * o + i ≤ j → j < 8 * o + i + n → K j) : getBits a o i n = getBits b o i n := by
  unfold TS.getBits; rw [h.getBitsN n i hk]

theorem setBitsN_ag {o : Nat} (n : Nat) : ∀ {K : Nat → Prop} {a b : Bytes} (i v : Nat), Ag K a b →
    RK (fun j => K j ∨ (8 * o + i ≤ j ∧ j < 8 * o + i + n)) (setBitsN o a i n v) (setBitsN o b i n v) := by
  induction n with
  | zero => intro K a b i v h; exact RK.pure (h.mono fun j hj => hj.elim id fun hj => absurd hj (by omega))
  | succ n ih =>
    intro K a b i v h
    refine (h.putBit o i _).bind fun a' b' h' => (ih (i + 1) _ h').mono fun j hj => ?_
    rcases hj with hj | hj
    · exact Or.inl (Or.inl hj)
    · by_cases he : j = 8 * o + i
      · exact Or.inl (Or.inr he)
      · exact Or.inr ⟨by omega, by omega⟩

theorem Ag.setBits {K : Nat → Prop} {a b : Bytes} (h : Ag K a b) (o i n v : Nat) :
    RK (fun j => K j ∨ (8 * o + i ≤ j ∧ j < 8 * o + i + n)) (setBits a o i n v) (setBits b o i n v) :=
  RK.ite (fun _ => setBitsN_ag n i v h) (fun _ => nofun)

/-- The bits of the cells of `pb` bits that begin at `l`. -/
def cells (off pb : Nat) (l : List Nat) (j : Nat) : Prop := ∃ c ∈ l, 8 * off + c ≤ j ∧ j < 8 * off + c + pb

theorem copyBits_ag {off pb : Nat} (l : List (Nat × Nat)) : ∀ {K : Nat → Prop} {a b : Bytes}, Ag K a b →
    (∀ j, cells off pb (l.map (·.1)) j → K j) →
    RK (fun j => K j ∨ cells off pb (l.map (·.2)) j) (copyBits off pb a l) (copyBits off pb b l) := by
  induction l with
  | nil => intro K a b h _; exact RK.pure (h.mono fun j hj => hj.elim id fun ⟨_, hc, _⟩ => absurd hc (by simp))
  | cons x l ih =>
    intro K a b h hk
    obtain ⟨s, t⟩ := x
    refine RK.bindV (h.getBits fun j h1 h2 => hk j ⟨s, by simp, h1, h2⟩) fun v => ?_
    refine (h.setBits off t pb v).bind fun a' b' h' => ?_
    refine (ih h' ?_).mono ?_
    · rintro j ⟨c, hc, h1, h2⟩
      exact Or.inl (hk j ⟨c, by simp only [List.map_cons, List.mem_cons]; exact Or.inr hc, h1, h2⟩)
    · rintro j (hj | ⟨c, hc, h1, h2⟩)
      · exact Or.inl (Or.inl hj)
      · simp only [List.map_cons, List.mem_cons] at hc
        rcases hc with rfl | hc
        · exact Or.inl (Or.inr ⟨h1, h2⟩)
        · exact Or.inr ⟨c, hc, h1, h2⟩

theorem zeroBits_ag {off pb : Nat} (l : List Nat) : ∀ {K : Nat → Prop} {a b : Bytes}, Ag K a b →
    RK (fun j => K j ∨ cells off pb l j) (zeroBits off pb a l) (zeroBits off pb b l) := by
  induction l with
  | nil => intro K a b h; exact RK.pure (h.mono fun j hj => hj.elim id fun ⟨_, hc, _⟩ => absurd hc (by simp))
  | cons t l ih =>
    intro K a b h
    refine (h.setBits off t pb 0).bind fun a' b' h' => (ih h').mono ?_
    rintro j (hj | ⟨c, hc, h1, h2⟩)
    · exact Or.inl (Or.inl hj)
    · rcases List.mem_cons.mp hc with rfl | hc
      · exact Or.inl (Or.inr ⟨h1, h2⟩)
      · exact Or.inr ⟨c, hc, h1, h2⟩

theorem zeroTail_ag {K : Nat → Prop} {a b : Bytes} (h : Ag K a b) (off total : Nat) :
    RK (fun j => K j ∨ (8 * off + total ≤ j ∧ j < 8 * (off + bitmapBytes total))) (zeroTail a off total) (zeroTail b off total) := by
  refine RK.ite (fun hc => (h.setBits _ _ _ _).mono fun j hj => ?_) (fun hc => RK.pure (h.mono fun j hj => ?_))
  · rcases hj with hj | hj
    · exact Or.inl hj
    · exact Or.inr ⟨by omega, by omega⟩
  · rcases hj with hj | hj
    · exact hj
    · omega

namespace Dti
variable {d c : Dti}

theorem growValid_ag {K : Nat → Prop} {a b : Bytes} (h : Ag K a b) {off n index slots : Nat} (hi : index ≤ n)
    (hk : ∀ j, 8 * off ≤ j → j < 8 * off + n → K j) :
    RK (fun j => K j ∨ (8 * off ≤ j ∧ j < 8 * off + (n + slots))) (growValid off a n index slots) (growValid off b n index slots) := by
  refine (copyBits_ag _ h ?_).bind fun a1 b1 h1 => ?_
  · rintro j ⟨c, hc, h1, h2⟩
    simp only [List.map_map, List.mem_map, List.mem_range, Function.comp] at hc
    obtain ⟨i, hi, rfl⟩ := hc
    exact hk j (by omega) (by omega)
  · rw [resetBits_eq, resetBits_eq]
    refine (zeroBits_ag _ h1).mono ?_
    rintro j (hj | ⟨h2, h3⟩)
    · exact Or.inl (Or.inl hj)
    · by_cases h4 : j < 8 * off + index
      · exact Or.inl (Or.inl (hk j h2 (by omega)))
      · by_cases h5 : j < 8 * off + index + slots
        · refine Or.inr ⟨j - 8 * off, ?_, by omega, by omega⟩
          exact List.mem_map.mpr ⟨j - 8 * off - index, List.mem_range.mpr (by omega), by omega⟩
        · refine Or.inl (Or.inr ⟨j - 8 * off, ?_, by omega, by omega⟩)
          simp only [List.map_map, List.mem_map, List.mem_range, Function.comp]
          exact ⟨n + slots - 1 - (j - 8 * off), by omega, by omega⟩

theorem growBit_ag {a b : Bytes} {n index slots S : Nat} (h : Ag (fun j => j < 8 * S) a b) (hi : index ≤ n)
    (hS : S = d.offBitmap + bitmapBytes (n * c.eltBits)) :
    RK (fun j => j < 8 * (d.offBitmap + bitmapBytes ((n + slots) * c.eltBits)))
      (d.growBit c a n index slots) (d.growBit c b n index slots) := by
  generalize hpb : c.eltBits = pb at *
  unfold growBit
  rw [hpb]
  refine (copyBits_ag _ h ?_).bind fun a1 b1 h1 => (zeroBits_ag _ h1).bind fun a2 b2 h2 => (zeroTail_ag h2 _ _).mono ?_
  · rintro j ⟨e, he, h1, h2⟩
    simp only [List.map_map, List.mem_map, List.mem_range, Function.comp] at he
    obtain ⟨i, hi, rfl⟩ := he
    have := cell_le (pb := pb) (show n - 1 - i < n by omega)
    have h8 : n * pb ≤ 8 * bitmapBytes (n * pb) := by unfold bitmapBytes; omega
    omega
  · intro j hj
    by_cases ht : 8 * d.offBitmap + (n + slots) * pb ≤ j
    · exact Or.inr ⟨ht, hj⟩
    · refine Or.inl ?_
      by_cases h0 : j < 8 * d.offBitmap + index * pb
      · refine Or.inl (Or.inl ?_)
        have h1 := Nat.mul_le_mul_right pb hi
        have h8 : n * pb ≤ 8 * bitmapBytes (n * pb) := by unfold bitmapBytes; omega
        omega
      · have hp : 0 < pb := by
          rcases Nat.eq_zero_or_pos pb with h | h
          · subst h; simp at ht h0; omega
          · exact h
        have hd := Nat.div_add_mod (j - 8 * d.offBitmap) pb
        have hm := Nat.mod_lt (j - 8 * d.offBitmap) hp
        generalize he : (j - 8 * d.offBitmap) / pb = e at hd
        have hlt : e < n + slots := by rw [← he, Nat.div_lt_iff_lt_mul hp]; omega
        have hge : index ≤ e := by rw [← he, Nat.le_div_iff_mul_le hp]; omega
        rw [Nat.mul_comm] at hd
        by_cases h5 : e < index + slots
        · refine Or.inr ⟨e * pb, ?_, by omega, by omega⟩
          exact List.mem_map.mpr ⟨e - index, List.mem_range.mpr (by omega), by rw [show index + (e - index) = e by omega]⟩
        · refine Or.inl (Or.inr ⟨e * pb, ?_, by omega, by omega⟩)
          simp only [List.map_map, List.mem_map, List.mem_range, Function.comp]
          exact ⟨n + slots - 1 - e, by omega, by rw [show n + slots - 1 - (n + slots - 1 - e) = e by omega]⟩

theorem shiftData_ag {a b : Bytes} {off S bo bn len : Nat} (h : Ag (fun j => j < 8 * S) a b) (hS : S = off + bo + len) :
    RK (fun j => j < 8 * (off + bo) ∨ (8 * (off + bn) ≤ j ∧ j < 8 * (off + bn + len)))
      (shiftData off S bo bn a) (shiftData off S bo bn b) := by
  unfold shiftData
  refine RK.ite (fun hc => ?_) (fun hc => RK.pure (h.mono fun j hj => by omega))
  rw [sub32_eq (by omega)]
  refine (h.moveIn _ _ _).mono fun j hj => ?_
  split <;> omega

theorem growFixed_ag {a b : Bytes} {n index slots S z : Nat} (h : Ag (fun j => j < 8 * S) a b) (hi : index ≤ n)
    (hz : c.hdr.size = z)
    (hS : S = d.offBitmap + bitmapBytes (n * c.needsValid.toNat) + n * z)
    (h32 : d.offBitmap + bitmapBytes ((n + slots) * c.needsValid.toNat) + (n + slots) * z < 4294967296)
    (hnz : 0 < z) :
    RK (fun j => j < 8 * (d.offBitmap + bitmapBytes ((n + slots) * c.needsValid.toNat) + (n + slots) * z))
      (d.growFixed c a S n index slots) (d.growFixed c b S n index slots) := by
  have h1 : n + slots ≤ (n + slots) * z := Nat.le_mul_of_pos_right _ hnz
  have e1 : (n + slots) * z = index * z + slots * z + (n - index) * z := by
    rw [← Nat.add_mul, ← Nat.add_mul]; congr 1; omega
  have e2 : n * z = index * z + (n - index) * z := by rw [← Nat.add_mul]; congr 1; omega
  have e3 : (index + slots) * z = index * z + slots * z := Nat.add_mul ..
  unfold growFixed
  rw [hz]
  simp only [e3]
  generalize index * z = A at *
  generalize slots * z = B at *
  generalize (n - index) * z = C at *
  cases hv : c.needsValid with
  | false =>
    simp only [hv, Bool.toNat_false, Nat.mul_zero] at hS h32 ⊢
    rw [w32_eq (by omega), w32_eq (by omega), w32_eq (by omega), w32_eq (by omega), w32_eq (by omega)]
    have hb0 : bitmapBytes 0 = 0 := rfl
    rw [hb0] at hS h32 ⊢
    refine (shiftData_ag (len := n * z) h (by omega)).bind fun a1 b1 g1 => ?_
    refine (RK.pure (K := fun j => j < 8 * S) (g1.mono fun j hj => by omega)).bind fun a2 b2 g2 => ?_
    refine (g2.moveIn _ _ _).bind fun a3 b3 g3 => (g3.zeroIn _ _).bind fun a4 b4 g4 => RK.pure (g4.mono fun j hj => ?_)
    simp only [span]
    split <;> omega
  | true =>
    simp only [hv, Bool.toNat_true, Nat.mul_one] at hS h32 ⊢
    rw [w32_eq (by omega), w32_eq (by omega), w32_eq (by omega), w32_eq (by omega), w32_eq (by omega), w32_eq (by omega)]
    have hmono := bitmapBytes_mono (show n ≤ n + slots by omega)
    have h8 : n ≤ 8 * bitmapBytes n := by unfold bitmapBytes; omega
    have h8' : n + slots ≤ 8 * bitmapBytes (n + slots) := by unfold bitmapBytes; omega
    generalize bitmapBytes n = bo at *
    refine (shiftData_ag (len := n * z) h (by omega)).bind fun a1 b1 g1 => ?_
    refine (growValid_ag g1 hi (fun j h1 h2 => by omega)).bind fun a2 b2 g2 => ?_
    refine (g2.moveIn _ _ _).bind fun a3 b3 g3 => (g3.zeroIn _ _).bind fun a4 b4 g4 => (zeroTail_ag g4 _ _).mono fun j hj => ?_
    simp only [span]
    generalize bitmapBytes (n + slots) = bn at *
    split <;> omega

theorem fixOffs_ag {g : Nat → Option Nat} {K : Nat → Prop} {k : Nat} (l : List Nat) : ∀ {a b : Bytes}, Ag K a b →
    (∀ i ∈ l, i < k) → (∀ j, span d.offBitmap (k * d.w) j → K j) → RK K (d.fixOffs g a l) (d.fixOffs g b l) := by
  induction l with
  | nil => intro a b h _ _; exact RK.pure h
  | cons i l ih =>
    intro a b h hi hk
    have hw := cell_le (pb := d.w) (hi i (by simp))
    have step : RK K (d.fixOff g a i) (d.fixOff g b i) := by
      refine RK.bindV (h.loadVal fun j hj => hk j ?_) fun v => RK.ite (fun _ => RK.bindV rfl fun v' => ?_) (fun _ => RK.pure h)
      · obtain ⟨h1, h2⟩ := hj
        have : vsz d.hdr.maxSize = d.w := rfl
        exact ⟨by omega, by omega⟩
      · exact (h.storeVal _ _ _).mono fun j hj => Or.inl hj
    exact step.bind fun a' b' h' => ih h' (fun x hx => hi x (by simp [hx])) hk

theorem growVar_ag {a b : Bytes} {n index slots S : Nat} (h : Ag (fun j => j < 8 * S) a b) (hi : index ≤ n)
    (hS : d.offBitmap + n * d.w ≤ S) (h32 : S + slots * d.w < 4294967296) :
    RK (fun j => j < 8 * (S + slots * d.w)) (d.growVar a S n index slots) (d.growVar b S n index slots) := by
  have e2 : n * d.w = index * d.w + (n - index) * d.w := by rw [← Nat.add_mul]; congr 1; omega
  have e1 : d.w * index = index * d.w := Nat.mul_comm ..
  have e3 : d.w * (index + slots) = index * d.w + slots * d.w := by rw [Nat.mul_comm, Nat.add_mul]
  unfold growVar
  simp only [e1, e3]
  have e4 : (n + slots) * d.w = index * d.w + (n - index) * d.w + slots * d.w := by rw [Nat.add_mul, e2]
  generalize hA : index * d.w = A at *
  generalize hB : slots * d.w = B at *
  rw [w32_eq (show A < 4294967296 by omega), w32_eq (show A + B < 4294967296 by omega), w32_eq (show d.offBitmap + A < 4294967296 by omega),
    w32_eq (show d.offBitmap + (A + B) < 4294967296 by omega), sub32_eq (by omega), sub32_eq (by omega)]
  refine (h.moveIn _ _ _).bind fun a1 b1 g1 => (g1.zeroIn _ _).bind fun a2 b2 g2 => ?_
  refine fixOffs_ag (k := n + slots) _ (g2.mono fun j hj => ?_) (fun i hi => by simpa using hi) (fun j hj => ?_)
  · simp only [span]
    split <;> omega
  · have := hj.2
    omega

end Dti
end TS
