import Verif.PropsElem
/-
Property C41: minimal data, and the case in which set and get (C34) differ.
-/
namespace TS
namespace Props
open Dti

/-- The zero of a type, as it is read. -/
def ZeroRead (t : Dti) (dt : Datum) : Prop :=
  match t with
  | .prim .bitField _ | .prim .uint _ | .prim .largeUint _ => dt = .uint 0
  | .prim .int _ | .prim .largeInt _ => dt = .int 0
  | .prim .float h => dt = .flt (List.replicate h.size 0)
  | .str false _ => dt = .bytes []
  | .str true h => dt = .bytes (List.replicate h.size 0)
  | _ => ∃ m, dt = .ptr m

/-- The value `y` of type `t` is zero all through. -/
def ZeroVal (t : Dti) (y : Val) : Prop :=
  (y = .bits 0 ∧ t.isBit = true) ∨ (t.isBit = false ∧ Enc t (List.replicate t.hdr.size 0) y)

theorem bitsVal_zero {m : Bytes} {off : Nat} (k a : Nat)
    (h : ∀ x, a ≤ x → x < a + k → bit m off x = false) : bitsVal m off a k = 0 := by
  apply Nat.eq_of_testBit_eq
  intro x
  rw [testBit_bitsVal, Nat.zero_testBit]
  by_cases hx : x < k
  · rw [h _ (by omega) (by omega), Bool.and_false]
  · simp [hx]

theorem bit_zero {m : Bytes} {off k : Nat} (h : m[off + k / 8]? = some 0) : bit m off k = false := by
  simp [bit, h]

theorem leDec_zeros (n : Nat) : leDec (List.replicate n 0) = 0 := leDec_replicate_zero n

theorem rd_zeros {m : Bytes} {a l : Nat} (h : ∀ x, a ≤ x → x < a + l → m[x]? = some 0) :
    rd m a l = List.replicate l 0 := by
  apply List.ext_getElem?
  intro i
  rw [rd_getElem?, List.getElem?_replicate]
  split
  · exact h _ (by omega) (by omega)
  · rfl

theorem fixed_off {d : Dti} (hv : d.isVar = false) : d.offBitmap = 0 := by
  obtain ⟨h1, h2⟩ := fixed_not_var hv
  simp [offBitmap, offCountP, hasCountP, h1, h2]

/-- Elements of a container that is zero behind the prefixes. -/
theorem zero_step {d : Dti} {m : Bytes} {S : Nat} {vs : List Val} {i : Nat} (h : TyOk d) (hc : d.isCont = true)
    (hS : S ≤ m.length) (e : Enc d (m.take S) (.node vs)) (hz : ∀ x, d.offBitmap ≤ x → x < S → m[x]? = some 0) :
    vs[i]? = none ∨ vs[i]? = some .null ∨
      ∃ t y, d.tyAtNoData i = some t ∧ vs[i]? = some y ∧ TyOk t ∧ t.isNullable = false ∧ ZeroVal t y := by
  obtain ⟨cs, o, vs', h1, r, hv⟩ := crep_of_enc h hc hS e
  cases h1
  by_cases hlt : i < cs.length
  · right
    have hci := List.getElem?_eq_getElem hlt
    have hvi := List.getElem?_eq_getElem (l := vs) (i := i) (by rw [hv.1]; exact hlt)
    have hx := hv.2 i _ _ hci hvi
    have hel := r.elt i _ hci
    have hok := posOf_ok h hc r.countOk hlt
    have hty := tyAtNoData_pos h hc r.countOk hlt
    have hlay := lay_of h hc r.countOk
    have hbm := bitmap_le_fixedEnd h hc r.countOk
    have hfe := fixedEnd_le r
    unfold bitmapBytes at hbm
    have hb0 : ∀ k, k < bitsOf d cs.length → bit m d.offBitmap k = false := by
      intro k hk
      exact bit_zero (hz _ (by omega) (by omega))
    have hnn : (posOf d cs.length i).ty.needsValid = true → bit m d.offBitmap (posOf d cs.length i).vbit = false :=
      fun hn => hb0 _ (hlay.vb i hlt hn)
    generalize cs[i] = c at hx hel hci
    generalize vs[i]'_ = y at hx hvi
    rw [hvi]
    have hnull : ∀ (hb : (posOf d cs.length i).ty.needsValid = true →
        bit m d.offBitmap (posOf d cs.length i).vbit = true), (posOf d cs.length i).ty.isVar = false →
        (posOf d cs.length i).ty.isNullable = false := by
      intro hb hvv
      cases hn : (posOf d cs.length i).ty.needsValid with
      | true => have := hb hn; rw [hnn hn] at this; cases this
      | false => simp [needsValid, hvv] at hn; simp [isNullable, hvv, hn]
    cases c with
    | null => left; simp only [EVal] at hx; rw [hx]
    | bits v =>
      right
      simp only [EVal] at hx
      subst hx
      obtain ⟨e1, e2, e3⟩ := hel
      refine ⟨_, _, hty, rfl, hok, hnull e2 ?_, Or.inl ⟨?_, e1⟩⟩
      · cases hvv : (posOf d cs.length i).ty.isVar with
        | false => rfl
        | true => rw [isVar_not_bit hok hvv] at e1; cases e1
      · rw [← e3, bitsVal_zero]
        intro x hx1 hx2
        exact hb0 _ (by have := hlay.bf i hlt e1; omega)
    | fixd b =>
      right
      obtain ⟨e1, e2, e3, e4⟩ := hel
      refine ⟨_, y, hty, rfl, hok, hnull e3 e2, Or.inr ⟨e1, ?_⟩⟩
      have hs := slot_ok h hc r hlt e1
      simp only [slot, e2, Bool.false_eq_true, if_false] at hs
      rw [rd_zeros (fun x h1 h2 => hz x (by omega) (by omega))] at e4
      rw [e4]; exact hx
    | var b =>
      exfalso
      obtain ⟨e1, e2, e3, e4, e5, e6, e7⟩ := hel
      have hs := slot_ok h hc r hlt (isVar_not_bit hok e1)
      simp only [slot, e1, if_true] at hs
      unfold Dti.word at e2
      rw [rd_zeros (fun x h1 h2 => hz x (by omega) (by omega)), leDec_zeros] at e2
      have := fixedEnd_pos h hc r.countOk hlt e1
      omega
  · left; exact List.getElem?_eq_none (by rw [hv.1]; omega)

theorem zero_at (pa : List Nat) : ∀ {d : Dti} {m : Bytes} {S : Nat} {val : Val} {i : Nat},
    TyOk d → S ≤ m.length → Enc d (m.take S) val → (∀ x, d.offBitmap ≤ x → x < S → m[x]? = some 0) →
    val.at' (i :: pa) = none ∨ val.at' (i :: pa) = some .null ∨
      ∃ t y, d.typeAt (i :: pa) = some t ∧ val.at' (i :: pa) = some y ∧ TyOk t ∧ t.isNullable = false ∧
        ZeroVal t y := by
  induction pa with
  | nil =>
    intro d m S val i h hS e hz
    cases hc : d.isCont with
    | false =>
      left
      cases d with
      | prim k hh => rw [(enc_prim e).2.2]; rfl
      | _ => simp [isCont] at hc
    | true =>
      obtain ⟨_, _, vs, rfl, _⟩ := enc_cont hc e
      rcases zero_step (i := i) h hc hS e hz with h1 | h1 | ⟨t, y, h1, h2, h3, h4, h5⟩
      · left; simp [Val.at', h1]
      · right; left; simp [Val.at', h1]
      · right; right; exact ⟨t, y, by simp [typeAt, h1], by simp [Val.at', h2], h3, h4, h5⟩
  | cons j pa ih =>
    intro d m S val i h hS e hz
    cases hc : d.isCont with
    | false =>
      left
      cases d with
      | prim k hh => rw [(enc_prim e).2.2]; rfl
      | _ => simp [isCont] at hc
    | true =>
      obtain ⟨_, _, vs, rfl, _⟩ := enc_cont hc e
      rcases zero_step (i := i) h hc hS e hz with h1 | h1 | ⟨t, y, h1, h2, h3, h4, h5⟩
      · left; simp [Val.at', h1]
      · right; left; simp [Val.at', h1]
      · have hta : d.typeAt (i :: j :: pa) = t.typeAt (j :: pa) := by simp [typeAt, h1]
        have hat : (Val.node vs).at' (i :: j :: pa) = y.at' (j :: pa) := by simp only [Val.at', h2]
        rw [hta, hat]
        rcases h5 with ⟨rfl, h5⟩ | ⟨h5, h6⟩
        · left; rfl
        · refine ih (m := List.replicate t.hdr.size 0) (S := t.hdr.size) h3 (by simp) (by simpa using h6) ?_
          intro x _ hx
          simp [hx]

theorem intDec_zeros (n : Nat) : intDec (List.replicate n 0) = 0 := by
  unfold intDec
  rw [leDec_zeros]
  have : 0 < 256 ^ (List.replicate n (0 : UInt8)).length := Nat.pow_pos (by decide)
  rw [if_pos (by omega)]; rfl

theorem strn_zeros (n : Nat) : strn (List.replicate n 0) = [] := by
  cases n <;> simp [strn, List.replicate_succ]

theorem zero_shows {t : Dti} {y : Val} {dt : Datum} (ht : TyOk t) (hn : t.isNullable = false) (h : ZeroVal t y)
    (hs : Shows t y dt) : ZeroRead t dt := by
  have hv : t.isVar = false := by
    cases hv : t.isVar with
    | false => rfl
    | true => simp [isNullable, hv] at hn
  rcases h with ⟨rfl, hb⟩ | ⟨hb, he⟩
  · cases t with
    | prim k h => cases k <;> first | exact hs.2 | simp [isBit] at hb
    | _ => simp [isBit] at hb
  · cases t with
    | prim k h =>
      obtain ⟨h1, h2, h3⟩ := enc_prim he
      subst h3
      have hz : ∀ n : Nat, leDec (List.replicate n 0) = 0 := leDec_zeros
      cases k <;> first | exact absurd rfl h1 | simp only [Shows, leDec_zeros, intDec_zeros, hdr] at hs; exact hs
    | str bin h =>
      have hl : (List.replicate h.size (0 : UInt8)).take h.size = List.replicate h.size 0 := by simp
      obtain ⟨cs, o, vs, rfl, r, hvs⟩ := crep_of_enc (m := List.replicate h.size 0) (S := h.size) ht rfl (by simp)
        (by rw [hl]; exact he)
      obtain ⟨g1, g2⟩ := str_vals r hvs
      obtain ⟨x, g3, g4⟩ := hs
      have g5 := chars_inj (g1.symm.trans g3)
      have hcnt : cs.length = h.size := by
        have h1 := r.cntF (fixed_not_var hv).1
        cases ht with
        | str _ _ a1 a2 a3 a4 => rw [h1]; exact (a3 hv).1.symm
      rw [fixed_off hv, hcnt, rd_replicate _ _ _ _ (by omega)] at g5
      rw [g4, ← g5]
      cases bin with
      | false => simp only [Bool.false_eq_true, if_false, strn_zeros]; rfl
      | true => rfl
    | tup h fs =>
      obtain ⟨_, _, vs, rfl, _⟩ := enc_cont rfl he
      obtain ⟨m, _, h1, _⟩ := hs
      exact ⟨m, h1⟩
    | arr h c =>
      obtain ⟨_, _, vs, rfl, _⟩ := enc_cont rfl he
      obtain ⟨m, _, h1, _⟩ := hs
      exact ⟨m, h1⟩

/-- The memory `initialize_minimal_data_for_type_info` leaves. -/
theorem minMem {d : Dti} {m : Bytes} (h : TyOk d) (hc : d.isCont = true) (hl : d.hdr.size ≤ m.length) :
    d.initMin m = some (wr m 0 (minB d), d.hdr.size) ∧ (wr m 0 (minB d)).length = m.length ∧
      (wr m 0 (minB d)).take d.hdr.size = minB d ∧
      (∀ x, d.offCountP ≤ x → x < d.hdr.size → (wr m 0 (minB d))[x]? = some 0) := by
  have hml := minB_length h hc
  have h0 : (wr m 0 (minB d)).take d.hdr.size = minB d := by
    have := rd_wr_same m 0 (minB d) (by omega)
    rw [rd_zero_eq_take, hml] at this
    exact this
  refine ⟨initMin_eq h hc hl, wr_length .., h0, ?_⟩
  intro x h1 h2
  have h3 := minB_zero (d := d) (a := x) (l := 1) h1 (by omega)
  have h4 : (rd (minB d) x 1)[0]? = some 0 := by rw [h3]; rfl
  rw [rd_getElem?, if_pos (by omega)] at h4
  have h5 : ((wr m 0 (minB d)).take d.hdr.size)[x]? = some 0 := by rw [h0]; exact h4
  rwa [List.getElem?_take_of_lt h2] at h5

/-- The element at `pa` has no content: it does not exist, or it is NULL (or inside of a container
that is NULL), or its type is not nullable and it is zero. -/
def Blank (d : Dti) (m : Bytes) (pa : List Nat) : Prop :=
  d.getElem m pa = some none ∨ d.getElem m pa = some (some .null) ∨
    ∃ t dt, d.typeAt pa = some t ∧ t.isNullable = false ∧ d.getElem m pa = some (some dt) ∧ ZeroRead t dt

theorem blank_of_zero {d : Dti} {m : Bytes} {S : Nat} {val : Val} (h : TyOk d) (hS : S ≤ m.length)
    (e : Enc d (m.take S) val) (hz : ∀ x, d.offBitmap ≤ x → x < S → m[x]? = some 0) (i : Nat) (pa : List Nat) :
    Blank d m (i :: pa) := by
  have hg := getElem_ok (i :: pa) h hS e
  unfold GetOk at hg
  rcases zero_at pa h hS e hz with h1 | h1 | ⟨t, y, h1, h2, h3, h4, h5⟩
  · rw [h1] at hg; exact Or.inl hg
  · rw [h1] at hg
    right; left
    rcases hg with ⟨_, hg⟩ | ⟨t, dt, _, hg, hs⟩
    · exact hg
    · simp only [Shows] at hs; rw [hg, hs]
  · rw [h2] at hg
    right
    rcases hg with ⟨_, hg⟩ | ⟨t', dt, g1, g2, g3⟩
    · exact Or.inl hg
    · rw [h1] at g1
      cases g1
      exact Or.inr ⟨t, dt, h1, h4, g2, zero_shows h3 h4 h5 g3⟩

theorem areZeroes_eq {m : Bytes} {a l : Nat} (h : a + l ≤ m.length) :
    ∃ q, areZeroes m a l = some q ∧ (q = true ↔ ∀ x, a ≤ x → x < a + l → m[x]? = some 0) := by
  refine ⟨(rd m a l).all (· == 0), by simp [areZeroes, load_eq h], ?_⟩
  rw [List.all_eq_true]
  constructor
  · intro hh x h1 h2
    have h3 : (rd m a l)[x - a]? = m[x]? := by rw [rd_getElem?, if_pos (by omega)]; congr 1; omega
    have hlt : x < m.length := by omega
    have h4 := List.getElem?_eq_getElem hlt
    rw [h4] at h3
    have := hh _ (List.mem_of_getElem? h3)
    rw [h4]; simpa using this
  · intro hh x hx
    rw [rd_zeros hh] at hx
    simp [List.eq_of_mem_replicate hx]

/-- C41, recognition: `is_minimal_data_for_type_info` says yes exactly for data of the minimum size
that is zero behind its size prefix, and then no element has any content. -/
theorem C41_isMin {d : Dti} {m : Bytes} {S : Nat} (hu : Usable d) (hc : d.isCont = true) (ht : IsTuple d m S) :
    ∃ q, d.isMin m = some q ∧
      (q = true ↔ S = d.hdr.size ∧ ∀ x, d.offCountP ≤ x → x < S → m[x]? = some 0) ∧
      (q = true → ∀ i pa, Blank d m (i :: pa)) := by
  have h := hu.ok
  obtain ⟨hgs, hS1, hv1, hv2⟩ := ht.size h
  obtain ⟨hS, val, e⟩ := ht
  have hob : d.offCountP ≤ d.offBitmap := by simp [offBitmap]
  suffices hmain : ∃ q, d.isMin m = some q ∧
      (q = true ↔ S = d.hdr.size ∧ ∀ x, d.offCountP ≤ x → x < S → m[x]? = some 0) by
    obtain ⟨q, h1, h2⟩ := hmain
    refine ⟨q, h1, h2, fun hq => ?_⟩
    have h3 := (h2.mp hq).2
    exact fun i pa => blank_of_zero h hS e (fun x hx1 hx2 => h3 x (by omega) hx2) i pa
  unfold isMin
  rw [isCont_not_bit hc]
  simp only [Bool.false_eq_true, if_false]
  cases hv : d.isVar with
  | false =>
    have hS2 := hv2 hv
    have ho : d.offCountP = 0 := by simp [offCountP, (fixed_not_var hv).2]
    obtain ⟨q, h1, h2⟩ := areZeroes_eq (m := m) (a := 0) (l := d.hdr.size) (by omega)
    refine ⟨q, h1, ?_⟩
    rw [h2, ho, hS2]; simp
  | true =>
    simp only [Bool.not_true, Bool.false_eq_true, if_false, hgs, Option.bind_eq_bind, Option.bind_some]
    by_cases hs : S = d.hdr.size
    · rw [if_neg (by simpa using hs)]
      cases hsp : d.hasSizeP with
      | true =>
        have hw := w_le_size h hc hsp
        obtain ⟨q, h1, h2⟩ := areZeroes_eq (m := m) (a := d.w) (l := S - d.w) (by omega)
        obtain ⟨q0, h3, h4⟩ := areZeroes_eq (m := m) (a := 0) (l := 0) (by omega)
        have hq0 : q0 = true := h4.mpr (by intro x _ hx; omega)
        refine ⟨q, by simp [h3, h1, hq0, sub32_eq (show d.w ≤ S by omega)], ?_⟩
        rw [h2]
        simp only [offCountP, hsp, Bool.toNat_true, Nat.mul_one]
        constructor
        · intro hh; exact ⟨hs, fun x h5 h6 => hh x h5 (by omega)⟩
        · intro hh x h5 h6; exact hh.2 x h5 (by omega)
      | false =>
        obtain ⟨q, h1, h2⟩ := areZeroes_eq (m := m) (a := 0) (l := S) (by omega)
        refine ⟨q, by simp [h1], ?_⟩
        rw [h2]
        simp only [offCountP, hsp, Bool.toNat_false, Nat.mul_zero, Nat.zero_add]
        constructor
        · intro hh; exact ⟨hs, hh⟩
        · intro hh; exact hh.2
    · rw [if_pos (by simpa using hs)]
      exact ⟨false, rfl, by simp [hs]⟩

/-- C41. `initialize_minimal_data_for_type_info` writes well formed data of the minimum size which
is recognised as minimal, leaves the memory behind it alone, and no element of it has content. -/
theorem C41_minimal {d : Dti} {m : Bytes} (hu : Usable d) (hc : d.isCont = true) (hl : d.hdr.size ≤ m.length) :
    ∃ m', d.initMin m = some (m', d.hdr.size) ∧ IsTuple d m' d.hdr.size ∧ d.getSize m' = some d.hdr.size ∧
      d.isMin m' = some true ∧ m'.length = m.length ∧ (∀ x, d.hdr.size ≤ x → m'[x]? = m[x]?) ∧
      ∀ i pa, Blank d m' (i :: pa) := by
  have h := hu.ok
  obtain ⟨h1, h2, h3, h4⟩ := minMem h hc hl
  have ht : IsTuple d (wr m 0 (minB d)) d.hdr.size := ⟨by omega, by rw [h3]; exact min_enc h hc⟩
  obtain ⟨q, g1, g2, g3⟩ := C41_isMin hu hc ht
  have hq : q = true := g2.mpr ⟨rfl, h4⟩
  subst hq
  refine ⟨_, h1, ht, (ht.size h).1, g1, h2, ?_, g3 rfl⟩
  intro x hx
  rw [wr_getElem?, if_neg (by rw [minB_length h hc]; omega)]

theorem leEnc_zeros (n : Nat) : leEnc n 0 = List.replicate n 0 := by
  have := leEnc_leDec (List.replicate n 0)
  rwa [leDec_zeros, List.length_replicate] at this

/-- C41. For a numeral: a bit field stays as it is, size 0 is returned and no memory counts as minimal. All
others become 0 in exactly their bytes, which is recognised as minimal, as is nothing else: a `float` -0 is not. -/
theorem C41_numeral {k : PKind} {h : Hdr} {m : Bytes} (hu : Usable (.prim k h)) :
    (k = .bitField → initMin (.prim k h) m = some (m, 0) ∧ isMin (.prim k h) m = some false) ∧
    (k ≠ .bitField → h.size ≤ m.length →
      (∃ m', initMin (.prim k h) m = some (m', h.size) ∧ isMin (.prim k h) m' = some true ∧ m'.length = m.length ∧
        (∀ x, h.size ≤ x → m'[x]? = m[x]?) ∧ ∃ v, getDatum (.prim k h) m' = some (some v) ∧ ZeroRead (.prim k h) v) ∧
      ∃ q v, isMin (.prim k h) m = some q ∧ getDatum (.prim k h) m = some (some v) ∧ (q = true ↔ ZeroRead (.prim k h) v)) := by
  have hv : (Dti.prim k h).isVar = false := by cases hu.ok; assumption
  refine ⟨fun hk => by subst hk; exact ⟨rfl, rfl⟩, fun hk hl => ?_⟩
  have hb : (Dti.prim k h).isBit = false := by cases k <;> first | rfl | exact absurd rfl hk
  have hmin : ∀ x : Bytes, isMin (.prim k h) x = areZeroes x 0 h.size := by intro x; simp [isMin, hb, hv, hdr]
  have hread : ∀ x : Bytes, h.size ≤ x.length → ∃ v, getDatum (.prim k h) x = some (some v) ∧
      (ZeroRead (.prim k h) v ↔ rd x 0 h.size = List.replicate h.size 0) := by
    intro x hx
    have hlen : (rd x 0 h.size).length = h.size := rd_length _ _ _ (by omega)
    have hdec : leDec (rd x 0 h.size) = 0 ↔ rd x 0 h.size = List.replicate h.size 0 := by
      constructor
      · intro hh
        have := leEnc_leDec (rd x 0 h.size)
        rw [hh, hlen, leEnc_zeros] at this
        exact this.symm
      · intro hh; rw [hh]; exact leDec_zeros _
    have hint : intDec (rd x 0 h.size) = 0 ↔ leDec (rd x 0 h.size) = 0 := by
      have := leDec_lt (rd x 0 h.size)
      unfold intDec
      split <;> omega
    unfold getDatum
    cases k with
    | bitField => exact absurd rfl hk
    | float => simp [load_eq (show 0 + h.size ≤ x.length by omega), ZeroRead]
    | uint => simp [load_eq (show 0 + h.size ≤ x.length by omega), ZeroRead, hdec]
    | largeUint => simp [load_eq (show 0 + h.size ≤ x.length by omega), ZeroRead, hdec]
    | int => simp [load_eq (show 0 + h.size ≤ x.length by omega), ZeroRead, hint, hdec]
    | largeInt => simp [load_eq (show 0 + h.size ≤ x.length by omega), ZeroRead, hint, hdec]
  have hzero : ∀ x : Bytes, h.size ≤ x.length → ∃ q, areZeroes x 0 h.size = some q ∧ (q = true ↔ rd x 0 h.size = List.replicate h.size 0) := by
    intro x hx
    refine ⟨(rd x 0 h.size).all (· == 0), by simp [areZeroes, load_eq (show 0 + h.size ≤ x.length by omega)], ?_⟩
    have hlen : (rd x 0 h.size).length = h.size := rd_length _ _ _ (by omega)
    rw [List.eq_replicate_iff, List.all_eq_true]
    simp [hlen]
  have hset : initMin (.prim k h) m = some (wr m 0 (List.replicate h.size 0), h.size) := by
    simp only [initMin, hb, hv, hdr, zeroIn, store_eq (show 0 + (List.replicate h.size (0 : UInt8)).length ≤ m.length by simpa using hl)]
    rfl
  have hrw : rd (wr m 0 (List.replicate h.size 0)) 0 h.size = List.replicate h.size 0 := by
    have := rd_wr_same m 0 (List.replicate h.size 0) (by simpa using hl)
    simpa using this
  constructor
  · refine ⟨_, hset, ?_, wr_length .., ?_, ?_⟩
    · obtain ⟨q, h1, h2⟩ := hzero (wr m 0 (List.replicate h.size 0)) (by simpa using hl)
      rw [hmin, h1, h2.mpr hrw]
    · intro x hx
      rw [wr_getElem?, if_neg (by simp; omega)]
    · obtain ⟨v, h1, h2⟩ := hread (wr m 0 (List.replicate h.size 0)) (by simpa using hl)
      exact ⟨v, h1, h2.mpr hrw⟩
  · obtain ⟨q, h1, h2⟩ := hzero m hl
    obtain ⟨v, h3, h4⟩ := hread m hl
    exact ⟨q, v, by rw [hmin, h1], h3, h2.trans h4.symm⟩

/-- C41. As the header says (/repo/inc/tuplestore/data_type_info.h:298), initialising is the same as setting the
EMPTY_DATUM with room for the minimum size, for all types but bit fields and fixed size binaries. -/
theorem C41_as_set {d : Dti} {m : Bytes} (hu : Usable d) (hb : d.isBit = false) (hx : ∀ h, d = .str true h → h.isVar = true)
    (hl : d.hdr.size ≤ m.length) :
    ∃ m', d.initMin m = some (m', d.hdr.size) ∧ d.setDatum m false d.hdr.size .empty = some (m', true) := by
  have hst : ∀ n, n ≤ m.length → store m 0 (List.replicate n 0) = some (wr m 0 (List.replicate n 0)) := by
    intro n hn; exact store_eq (by simpa using hn)
  have hfit : d.isVar = true → fits d.hdr.maxSize 0 d.hdr.size d.hdr.size = true := by
    intro hv
    have : d.hdr.size ≤ d.hdr.maxSize := by
      cases hu.ok with
      | prim k h _ h2 => rw [show (Dti.prim k h).isVar = h.isVar from rfl, h2] at hv; cases hv
      | str b h _ _ _ h4 => exact (h4 hv).2.1
      | tup h fs _ _ _ _ _ _ _ _ _ _ _ h12 => exact (h12 hv).1
      | arr h c _ _ _ _ _ _ _ h8 => exact (h8 hv).1
    simp [fits]; omega
  have hcont : d.isCont = true → d.initMin m = some (wr m 0 (minB d), d.hdr.size) := fun hc => initMin_eq hu.ok hc hl
  cases d with
  | prim k h =>
    have hv : (Dti.prim k h).isVar = false := by cases hu.ok; assumption
    simp only [hdr] at hl
    refine ⟨wr m 0 (List.replicate h.size 0), by simp [initMin, hb, hv, hdr, zeroIn, hst _ hl], ?_⟩
    simp only [setDatum, hv, hb, Datum.isNull]
    cases k with
    | bitField => cases hb
    | _ => simp [Datum.asUint, Datum.asInt, Datum.asFlt, intEnc, leEnc_zeros, hst _ hl]
  | str b h =>
    have hc := hcont rfl
    refine ⟨_, hc, ?_⟩
    cases hv : h.isVar with
    | false =>
      cases b with
      | true => rw [hx h rfl] at hv; cases hv
      | false =>
        have hs : 0 < h.size := by
          cases hu.ok with
          | str _ _ _ _ h3 _ => have := h3 hv; omega
        have hm : minB (.str false h) = List.replicate h.size 0 := rfl
        have hw : wr m 0 [] = m := by simp [wr]
        simp [setDatum, isBit, isVar, hdr, hv, Datum.isNull, Datum.asBytes, strn, store_eq (s := []) (m := m) (o := 0) (by simp), hw, zeroIn,
          hst _ (show h.size ≤ m.length from hl), hm, hs]
    | true =>
      obtain ⟨hs, _, hlim⟩ : h.size = vsz h.maxSize ∧ h.size ≤ h.maxSize ∧ h.maxSize < lim := by
        cases hu.ok with
        | str _ _ _ _ _ h4 => exact h4 hv
      have hm : minB (.str b h) = List.replicate h.size 0 := rfl
      have hf : fits h.maxSize 0 (vsz h.maxSize) (vsz h.maxSize) = true := by rw [← hs]; exact hfit hv
      have hsm : vsz h.maxSize < 4294967296 := by have := hlim; unfold lim at this; omega
      have hw : ∀ x : Bytes, wr x (vsz h.maxSize) [] = x := by intro x; simp [wr]
      have hl' : vsz h.maxSize ≤ m.length := by rw [← hs]; exact hl
      have he : ∀ x : Bytes, vsz h.maxSize ≤ x.length → store x (vsz h.maxSize) [] = some x := by
        intro x hx; rw [store_eq (by simpa using hx), hw]
      cases b <;> simp [setDatum, isBit, isVar, hdr, hv, Datum.isNull, Datum.asBytes, strn, oldSize, newSize, hf, hs, u32_eq hsm, storeVal,
        leEnc_zeros, hst _ hl', hm, he, hl']
  | tup h fs =>
    have hc := hcont rfl
    refine ⟨_, hc, ?_⟩
    cases hv : (Dti.tup h fs).isVar with
    | false => simp [setDatum, Datum.isNull, hb, hv, hc]
    | true => simp [setDatum, Datum.isNull, hb, hv, hc, oldSize, newSize, hfit hv]
  | arr h c =>
    have hc := hcont rfl
    refine ⟨_, hc, ?_⟩
    cases hv : (Dti.arr h c).isVar with
    | false => simp [setDatum, Datum.isNull, hb, hv, hc]
    | true => simp [setDatum, Datum.isNull, hb, hv, hc, oldSize, newSize, hfit hv]

/-- C41. It is not the same for a fixed size binary: setting the EMPTY_DATUM leaves what was there. -/
theorem C41_not_as_set {h : Hdr} {m : Bytes} (hu : Usable (.str true h)) (hv : h.isVar = false) (hl : h.size ≤ m.length)
    (inc : Nat) (valid : Bool) : setDatum (.str true h) m valid inc .empty = some (m, true) ∧ 0 < h.size ∧
      ∃ m', initMin (.str true h) m = some (m', h.size) ∧ ∀ x, x < h.size → m'[x]? = some 0 := by
  have hsz : 0 < h.size := by
    cases hu.ok with
    | str _ _ _ _ h3 _ => have := h3 hv; omega
  refine ⟨?_, hsz, wr m 0 (minB (.str true h)), initMin_eq hu.ok rfl hl, fun x hx => ?_⟩
  · simp [setDatum, isBit, isVar, hdr, hv, Datum.isNull, Datum.asBytes, store, wr]
  · rw [show minB (.str true h) = List.replicate h.size 0 from rfl, wr_getElem?, if_pos (by simp only [List.length_replicate]; omega)]
    simp [hx]

/-- A fixed size binary of two bytes, and a `float` -0, which is 0 as a number but not minimal. -/
example : Usable (.str true { isFinal := true, count := 2, maxSize := 2, size := 2 }) ∧
    setDatum (.str true { isFinal := true, count := 2, maxSize := 2, size := 2 }) [7, 8] false 2 .empty = some ([7, 8], true) ∧
    isMin (.prim .float { isFinal := true, size := 4 }) [0, 0, 0, 128] = some false :=
  ⟨⟨.str true { count := 2, maxSize := 2 }, .str _ _ rfl, rfl, .str _ _ (by decide) (by decide)⟩, by decide +kernel, by decide +kernel⟩

/-- Every element of the minimal tuple of the example type: the bit field and the integer are NULL,
so are the string and the array. -/
example : (exFinal.initMin (List.replicate 20 77)).bind (fun x => (exFinal.getElem x.1 [1]).bind
    (fun a => (exFinal.getElem x.1 [3, 5]).map (fun b => (x.2, a, b)))) = some (11, some .null, some .null) := by
  decide +kernel

/-- A tuple of one fixed size binary of three bytes. -/
def exBin : Dti := .tup { count := 1, maxSize := 100 } [({}, .str true { count := 3, maxSize := 3 })]

/-- C34 does not extend to a fixed size binary that is given fewer bytes than it holds: the rest is
neither refused nor filled up, what was there before shows (/repo/inc/tuplestore/data_type_info.h
1153-1161 copies without filling). Setting "abc" and then "x" in a fresh tuple reads "xbc". -/
theorem C34_short_binary : ∃ d, Fresh exBin ∧ finalize exBin = some d ∧ Small d ∧
    ∃ m0 m1 m2, d.initMin (List.replicate 3 0) = some (m0, 3) ∧
      d.setElem m0 [0] (.bytes [97, 98, 99]) 0 = some (m1, true) ∧
      d.setElem m1 [0] (.bytes [120]) 0 = some (m2, true) ∧
      d.getElem m2 [0] = some (some (.bytes [120, 98, 99])) := by
  refine ⟨.tup { isFinal := true, count := 1, maxSize := 100, size := 3 }
    [({}, .str true { isFinal := true, count := 3, maxSize := 3, size := 3 })], ?_, by rfl, ?_,
    [0, 0, 0], [97, 98, 99], [120, 98, 99], by decide +kernel, by decide +kernel, by decide +kernel, by decide +kernel⟩
  · refine .tup _ _ rfl rfl ?_
    intro f t h
    simp at h
    rcases h with ⟨_, rfl⟩
    exact .str _ _ rfl
  · refine .tup _ _ ?_ (by decide) (by decide) (by decide)
    intro f t h
    simp at h
    rcases h with ⟨_, rfl⟩
    exact .str _ _ (by decide) (by decide)

end Props
end TS
