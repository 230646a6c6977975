import Verif.FinLimits
import Verif.Defaults
import Verif.PropsMin
import Verif.TypeNorm
/-
Property C62: which types can be used, and what finalisation computes.
-/
namespace TS
namespace Props
open Dti

/-- C62. `finalize_type_info` accepts exactly the sound types. -/
theorem C62_finalize_iff {d : Dti} (hb : Built d) (hf : Fits32 d) : (∃ d', finalize d = some d') ↔ Sound d := by
  obtain ⟨h1, h2⟩ := finalize_spec hb hf
  exact ⟨fun ⟨d', h⟩ => (h2 d' h).1, h1⟩

/-- C62. It finds out correctly whether data of the type vary in size and how large the smallest one
is; finalising again changes nothing about that. -/
theorem C62_computed {d d' : Dti} (hb : Built d) (hf : Fits32 d) (h : finalize d = some d') :
    d'.isVar = Varies d ∧ d'.hdr.size = Least d ∧ Varies d' = Varies d ∧ Least d' = Least d ∧ (Sound d' ↔ Sound d) := by
  obtain ⟨h1, h2⟩ := finalize_spec hb hf
  obtain ⟨_, h3, h4⟩ := h2 d' h
  have hs := same_finalize d d' h
  exact ⟨h3, h4, hs.varies, hs.least, hs.sound⟩

theorem finalize_isFinal {d d' : Dti} (h : finalize d = some d') : d'.hdr.isFinal = true := by
  cases d with
  | prim k h0 =>
    simp only [finalize, finPrim] at h
    split at h
    · cases h; assumption
    · simp only [Option.ite_none_right_eq_some, Option.some.injEq] at h
      obtain ⟨_, rfl⟩ := h; rfl
  | str b h0 =>
    simp only [finalize, finStr] at h
    repeat' split at h
    all_goals cases h
    all_goals first | assumption | rfl
  | tup h0 fs =>
    simp only [finalize, finTup, Option.bind_eq_bind] at h
    repeat' split at h
    · cases h; assumption
    · cases h
    · simp only [Option.bind_eq_some_iff, Option.ite_none_left_eq_some, Option.some.injEq] at h
      obtain ⟨_, _, _, rfl⟩ := h; rfl
  | arr h0 c =>
    simp only [finalize, finArr, finArrSize, Option.bind_eq_bind] at h
    split at h
    · cases h; assumption
    · simp only [Option.bind_eq_some_iff] at h
      obtain ⟨_, _, h⟩ := h
      repeat' split at h
      all_goals cases h
      all_goals rfl

/-- C62. The size of the bitmap that finalisation stores in the type is what the functions on data
find: for tuples and for arrays of a fixed element count it is the stored number whatever the
data, one bit for every element that may be NULL and has a fixed size and the bits of the bit
fields. Strings, binaries and arrays of elements of varying size have no bitmap. -/
theorem C62_bitmap_bits {d d' : Dti} (hb : Built d) (hf : Fits32 d) (hn : d.hdr.isFinal = false)
    (h : finalize d = some d') (m : Bytes) :
    match d with
    | .tup _ fs => bitmapBits d' m = some d'.hdr.bits ∧ d'.hdr.bits = BitsAll fs
    | .arr hd c =>
      (hd.varCount = false → bitmapBits d' m = some d'.hdr.bits ∧ d'.hdr.bits = hd.count * BitsOf c) ∧
      (hd.varCount = true → ∀ n, getCount d' m = some n → bitmapBits d' m = some (n * BitsOf c)) ∧
      (Varies c = true → BitsOf c = 0)
    | .str .. => bitmapBits d' m = some 0 ∧ d'.hdr.bits = 0
    | .prim .. => bitmapBits d' m = some 0 := by
  have hs := same_finalize _ _ h
  cases hb with
  | again _ h0 => rw [finalize_isFinal h0] at hn; cases hn
  | prim k h0 =>
    simp only [finalize, finPrim] at h
    split at h
    · cases h; rfl
    · simp only [Option.ite_none_right_eq_some, Option.some.injEq] at h
      obtain ⟨_, rfl⟩ := h; rfl
  | str b h0 h1 =>
    simp only [finalize, finStr, h1] at h
    repeat' split at h
    all_goals cases h
    all_goals first | contradiction | exact ⟨rfl, rfl⟩
  | tup h0 fs h1 hlen hfs =>
    simp only [Fits32] at hf
    simp only [finalize, h1, Bool.false_eq_true, if_false] at h
    split at h
    · cases h
    · simp only [Option.bind_eq_bind, Option.bind_eq_some_iff] at h
      obtain ⟨gs, g1, g2⟩ := h
      obtain ⟨-, e1, e2⟩ := (finalizeAll_spec fun f t hm => finalize_spec (hfs f t hm) (fits_all hf.2 f t hm)).2 gs g1
      have hbits := assignBits_end gs 0 e2
      unfold finTup at g2
      simp only [Option.ite_none_left_eq_some, Option.some.injEq] at g2
      obtain ⟨_, rfl⟩ := g2
      refine ⟨rfl, ?_⟩
      simp only [hdr, hbits, Nat.zero_add]
      exact e1.bits
  | arr h0 c h1 hc =>
    simp only [Fits32] at hf
    simp only [finalize, h1, Bool.false_eq_true, if_false, Option.bind_eq_bind, Option.bind_eq_some_iff] at h
    obtain ⟨c', g1, g2⟩ := h
    obtain ⟨-, e1, e2⟩ := (finalize_spec hc hf.2).2 c' g1
    have e3 := same_finalize c c' g1
    have hbo := (Agrees.of e3 e1 e2).bits
    have hbit : Varies c = true → c'.isBit = false := by
      intro hv
      cases hb : c'.isBit with
      | false => rfl
      | true =>
        rw [← e3.varies] at hv
        cases c' <;> simp_all [isBit, Varies]
    have key : ∀ n : Nat, (if c'.isBit = true then n * (c'.needsValid.toNat + c'.hdr.size) else n * c'.needsValid.toNat) =
        n * BitsOf c := by
      intro n
      rw [hbo]
      cases c'.isBit <;> cases c'.needsValid <;> simp
    have hvr : Varies c = true → BitsOf c = 0 := by
      intro hv
      rw [hbo, hbit hv]
      simp [needsValid, e1, hv]
    have hall : ∃ hd', d' = .arr hd' c' ∧ hd'.bits = arrBits h0 c' ∧ hd'.varCount = h0.varCount ∧ hd'.count = h0.count := by
      simp only [finArr, finArrSize] at g2
      repeat' split at g2
      all_goals cases g2
      all_goals exact ⟨_, rfl, rfl, rfl, rfl⟩
    obtain ⟨hd', rfl, k1, k2, k3⟩ := hall
    refine ⟨fun hv => ?_, fun hv n hn' => ?_, hvr⟩
    · have hcnt : getCount (.arr hd' c') m = some h0.count := by
        simp [getCount, isCont, isVarCount, k2, hv, hdr, k3]
      have hbt : hd'.bits = h0.count * BitsOf c := by
        rw [k1, ← key]
        simp only [arrBits, hv, Bool.false_eq_true, if_false]
        cases hb : c'.isBit with
        | true => rfl
        | false =>
          cases hvv : c'.isVar with
          | false => rfl
          | true => simp [needsValid, hvv]
      refine ⟨?_, hbt⟩
      simp only [bitmapBits, hcnt, Option.bind_eq_bind, Option.bind_some, hdr, hbt, ← key]
      split <;> rfl
    · simp only [bitmapBits, hn', Option.bind_eq_bind, Option.bind_some, ← key]
      split <;> rfl

/-- An array of three nullable fields of five bits. -/
example : ∃ d d' : Dti, Built d ∧ Fits32 d ∧ d.hdr.isFinal = false ∧ finalize d = some d' ∧ d'.hdr.bits = 18 := by
  refine ⟨.arr { count := 3 } (.prim .bitField { size := 5, nullable := true }), _, .arr _ _ rfl (.prim _ _ rfl), ?_, rfl, rfl, ?_⟩
  · simp [Fits32, Least, BitsOf, Varies, isBit, hdr, bitmapBytes]
  · decide

theorem sound_all {fs : List (Fld × Dti)} (h : SoundAll fs) : ∀ f t, (f, t) ∈ fs → Sound t := by
  induction fs with
  | nil => intro f t hm; cases hm
  | cons x fs ih =>
    obtain ⟨g, s⟩ := x
    intro f t hm
    rcases List.mem_cons.mp hm with hm | hm
    · cases hm; exact h.1
    · exact ih h.2 f t hm

theorem bitmap_pos {n : Nat} (h : 1 ≤ n) : 1 ≤ bitmapBytes n := by unfold bitmapBytes; omega

theorem bit_bits {t : Dti} (hs : Sound t) (hb : t.isBit = true) : 1 ≤ BitsOf t := by
  cases t with
  | prim k h =>
    cases k <;> simp [isBit] at hb
    simp only [Sound] at hs
    simp only [BitsOf, isBit, if_true, hdr]; omega
  | _ => simp [isBit] at hb

/-- Data of a sound type are never empty. -/
theorem least_pos {d : Dti} (hb : Built d) : Sound d → d.isBit = false → 1 ≤ Least d := by
  induction hb with
  | prim k h hf =>
    intro hs hb
    cases k <;> simp only [Sound] at hs <;> simp [isBit] at hb <;> simp only [Least] <;> omega
  | str b h hf =>
    intro hs _
    simp only [Sound] at hs
    simp only [Least]
    have := vsz_pos h.maxSize
    cases hv : h.varCount with
    | true => simp only [if_true]; omega
    | false => have := hs.1 hv; simp only [Bool.false_eq_true, if_false]; omega
  | tup h fs hf hl hfs ih =>
    intro hs _
    simp only [Sound] at hs
    simp only [Least]
    have hsa := sound_all hs.2.1
    have hvp := vsz_pos h.maxSize
    cases fs with
    | nil => exact absurd hl.symm hs.1
    | cons x r =>
      obtain ⟨f, t⟩ := x
      have ht := hsa f t (by simp)
      simp only [BitsAll, LeastAll]
      cases hbit : t.isBit with
      | true =>
        have := bit_bits ht hbit
        have := bitmap_pos (n := BitsOf t + BitsAll r) (by omega)
        omega
      | false =>
        have := ih f t (by simp) ht hbit
        simp only [Bool.false_eq_true, if_false]
        cases Varies t <;> simp <;> omega
  | arr h c hf hc ih =>
    intro hs _
    simp only [Sound] at hs
    simp only [Least]
    have hvp := vsz_pos h.maxSize
    cases hv : h.varCount with
    | true => simp only [if_true]; omega
    | false =>
      have h0 := hs.2.1 hv
      simp only [Bool.false_eq_true, if_false]
      cases hbit : c.isBit with
      | true =>
        have h1 := bit_bits hs.1 hbit
        have := bitmap_pos (n := h.count * BitsOf c) (by
          exact Nat.mul_pos (by omega) h1)
        omega
      | false =>
        have h1 := ih hs.1 hbit
        simp only [Bool.false_eq_true, if_false]
        cases Varies c with
        | true => simp; have := Nat.mul_pos (n := h.count) (m := vsz h.maxSize) (by omega) hvp; omega
        | false => simp; have := Nat.mul_pos (n := h.count) (m := Least c) (by omega) h1; omega
  | @again d d' hb hf ih =>
    intro hs hbit
    have h := same_finalize d d' hf
    rw [h.least]
    exact ih (h.sound.mp hs) (h.bit ▸ hbit)

theorem finalize_max : ∀ d d', finalize d = some d' → d'.hdr.maxSize = d.hdr.maxSize := by
  intro d d' h
  cases d with
  | prim k h0 =>
    simp only [finalize] at h
    split at h
    · cases h; rfl
    · simp only [finPrim, Option.ite_none_right_eq_some, Option.some.injEq] at h
      obtain ⟨_, rfl⟩ := h
      rfl
  | str b h0 =>
    simp only [finalize] at h
    split at h
    · cases h; rfl
    · unfold finStr at h
      split at h
      · cases h
      · split at h
        · split at h
          · cases h
          · cases h; rfl
        · cases h; rfl
  | tup h0 fs =>
    simp only [finalize] at h
    split at h
    · cases h; rfl
    · split at h
      · cases h
      · simp only [Option.bind_eq_bind, Option.bind_eq_some_iff] at h
        obtain ⟨gs, h1, h2⟩ := h
        unfold finTup at h2
        simp only [Option.ite_none_left_eq_some, Option.some.injEq] at h2
        obtain ⟨_, rfl⟩ := h2
        rfl
  | arr h0 c =>
    simp only [finalize] at h
    split at h
    · cases h; rfl
    · simp only [Option.bind_eq_bind, Option.bind_eq_some_iff] at h
      obtain ⟨c', h1, h2⟩ := h
      unfold finArr finArrSize at h2
      split at h2
      · cases h2
      · split at h2
        · cases h2; rfl
        · split at h2
          · cases h2
          · cases h2; rfl

theorem finalize_isCont : ∀ d d', finalize d = some d' → d'.isCont = d.isCont := by
  intro d d' h
  cases d with
  | prim k h0 =>
    simp only [finalize, finPrim] at h
    split at h
    · cases h; rfl
    · simp only [Option.ite_none_right_eq_some, Option.some.injEq] at h
      obtain ⟨_, rfl⟩ := h
      rfl
  | str b h0 =>
    simp only [finalize] at h
    split at h
    · cases h; rfl
    · unfold finStr at h
      split at h
      · cases h
      · split at h
        · split at h
          · cases h
          · cases h; rfl
        · cases h; rfl
  | tup h0 fs =>
    simp only [finalize] at h
    split at h
    · cases h; rfl
    · split at h
      · cases h
      · simp only [Option.bind_eq_bind, Option.bind_eq_some_iff] at h
        obtain ⟨gs, h1, h2⟩ := h
        unfold finTup at h2
        simp only [Option.ite_none_left_eq_some, Option.some.injEq] at h2
        obtain ⟨_, rfl⟩ := h2
        rfl
  | arr h0 c =>
    simp only [finalize] at h
    split at h
    · cases h; rfl
    · simp only [Option.bind_eq_bind, Option.bind_eq_some_iff] at h
      obtain ⟨c', h1, h2⟩ := h
      unfold finArr finArrSize at h2
      split at h2
      · cases h2
      · split at h2
        · cases h2; rfl
        · split at h2
          · cases h2
          · cases h2; rfl

theorem sound_max {d : Dti} (h : Sound d) (hv : Varies d = true) : Least d ≤ d.hdr.maxSize := by
  cases d with
  | prim => cases hv
  | str b h0 => simp only [Sound] at h; exact h.2 hv
  | tup h0 fs => simp only [Sound] at h; exact h.2.2 hv
  | arr h0 c => simp only [Sound] at h; exact h.2.2 hv

/-- A variable sized type has its size or its element count in front. -/
theorem fin_prefix {d : Dti} (hb : Built d) : ∀ d', finalize d = some d' → d'.isVar = true →
    (d'.hasSizeP = true ∨ d'.hasCountP = true) ∧ (d'.hasSizeP = false → ∃ c, d'.cont = some c) := by
  induction hb with
  | prim k h hf =>
    intro d' h' hv
    simp only [finalize, hf, Bool.false_eq_true, if_false, finPrim, Option.ite_none_right_eq_some, Option.some.injEq] at h'
    obtain ⟨_, rfl⟩ := h'
    cases hv
  | str b h hf =>
    intro d' h' hv
    simp only [finalize, hf, Bool.false_eq_true, if_false] at h'
    unfold finStr at h'
    split at h'
    · cases h'
    · split at h'
      · split at h'
        · cases h'
        · cases h'; exact ⟨Or.inr rfl, fun _ => ⟨_, rfl⟩⟩
      · cases h'; cases hv
  | tup h fs hf hl hfs ih =>
    intro d' h' hv
    simp only [finalize, hf, Bool.false_eq_true, if_false] at h'
    split at h'
    · cases h'
    · simp only [Option.bind_eq_bind, Option.bind_eq_some_iff] at h'
      obtain ⟨gs, h1, h2⟩ := h'
      unfold finTup at h2
      simp only [Option.ite_none_left_eq_some, Option.some.injEq] at h2
      obtain ⟨_, rfl⟩ := h2
      exact ⟨Or.inl hv, fun hh => absurd (hh.symm.trans hv) (by decide)⟩
  | arr h c hf hc ih =>
    intro d' h' hv
    simp only [finalize, hf, Bool.false_eq_true, if_false, Option.bind_eq_bind, Option.bind_eq_some_iff] at h'
    obtain ⟨c', h1, h2⟩ := h'
    unfold finArr finArrSize at h2
    split at h2
    · cases h2
    · split at h2
      · rename_i hnv
        cases h2
        have hv : (h.varCount || c'.isVar) = true := hv
        simp [hv] at hnv
      · split at h2
        · cases h2
        · cases h2
          have hv : (h.varCount || c'.isVar) = true := hv
          refine ⟨?_, fun _ => ⟨_, rfl⟩⟩
          simp only [hasSizeP, hasCountP, isVarCount, hv, Bool.true_and]
          cases hq : h.varCount with
          | true => exact Or.inr rfl
          | false => rw [hq, Bool.false_or] at hv; exact Or.inl hv
  | @again d d' hb hf ih =>
    intro d2 h2 hv
    rw [C30_idempotent hf] at h2
    cases h2
    exact ih d' hf hv

/-- C62. `initialize_tuple_def` accepts exactly the sound types other than bit fields. The definition
it fills in says correctly whether tuples vary in size and how small and how large they can be; the
former contents of the structure do not matter. -/
theorem C62_tuple_def {d : Dti} (hb : Built d) (hf : Fits32 d) (d0 : SizeDef) :
    ((∃ r, initTupleDef d0 d = some r) ↔ Sound d ∧ d.isBit = false) ∧
    ∀ d' sd, initTupleDef d0 d = some (d', sd) →
      finalize d = some d' ∧ isVarDef (d', sd) = Varies d ∧ isFixedDef (d', sd) = !Varies d ∧
      minTupleSize sd = Least d ∧ 1 ≤ minTupleSize sd ∧
      maxTupleSize sd = (if Varies d then d.hdr.maxSize else Least d) ∧ minTupleSize sd ≤ maxTupleSize sd := by
  obtain ⟨h1, h2⟩ := finalize_spec hb hf
  have main : ∀ d', finalize d = some d' → d.isBit = false → ∃ sd, sizeDefOf d0 d' = some sd ∧ sd.isVar = Varies d ∧
      sd.size = Least d ∧ (Varies d = true → sd.maxSize = d'.hdr.maxSize) := by
    intro d' hd' hbit
    obtain ⟨e1, e2, e3⟩ := h2 d' hd'
    have hs := same_finalize d d' hd'
    have hpos := least_pos hb e1 hbit
    have hpre := fin_prefix hb d' hd'
    unfold sizeDefOf
    rw [hs.bit, hbit, e2, e3]
    simp only [Bool.false_eq_true, if_false]
    cases hv : Varies d with
    | false =>
      simp only [Bool.not_false, if_true]
      rw [if_neg (by omega)]
      exact ⟨_, rfl, rfl, rfl, by simp⟩
    | true =>
      obtain ⟨p1, p2⟩ := hpre (e2.trans hv)
      simp only [Bool.not_true, Bool.false_eq_true, if_false]
      have hn : ¬ (!d'.hasSizeP && !d'.hasCountP) = true := by
        rcases p1 with p1 | p1 <;> simp [p1]
      rw [if_neg hn]
      cases hq : d'.hasSizeP with
      | true => exact ⟨_, rfl, rfl, rfl, fun _ => rfl⟩
      | false =>
        obtain ⟨c, hc⟩ := p2 hq
        simp only [Bool.false_eq_true, if_false, hc]
        exact ⟨_, rfl, rfl, rfl, fun _ => rfl⟩
  unfold initTupleDef initSizeDef
  cases hbit : d.isBit with
  | true =>
    simp only [if_true]
    exact ⟨⟨fun ⟨_, h⟩ => by (cases h), fun h => by (cases h.2)⟩, fun _ _ h => by (cases h)⟩
  | false =>
    simp only [Bool.false_eq_true, if_false, and_true]
    refine ⟨⟨?_, ?_⟩, ?_⟩
    · rintro ⟨r, hr⟩
      simp only [Option.bind_eq_bind, Option.bind_eq_some_iff] at hr
      obtain ⟨d', hd', _⟩ := hr
      exact (h2 d' hd').1
    · intro hs
      obtain ⟨d', hd'⟩ := h1 hs
      obtain ⟨sd, hsd, _⟩ := main d' hd' hbit
      exact ⟨(d', sd), by simp only [Option.bind_eq_bind, hd', hsd, Option.bind_some, Option.pure_def]⟩
    · intro d' sd hr
      simp only [Option.bind_eq_bind, Option.bind_eq_some_iff, Option.pure_def, Option.some.injEq, Prod.mk.injEq] at hr
      obtain ⟨d2, hd', sd2, hsd, rfl, rfl⟩ := hr
      obtain ⟨sd3, hsd3, m1, m2, m3⟩ := main d2 hd' hbit
      rw [hsd] at hsd3
      cases hsd3
      have hsnd := (h2 d2 hd').1
      have hpos := least_pos hb hsnd hbit
      have hmx := finalize_max d d2 hd'
      refine ⟨hd', m1, by simp only [isFixedDef, isVarDef, m1], m2, by simp only [minTupleSize, m2]; exact hpos, ?_, ?_⟩
      · simp only [maxTupleSize, m1, m2]
        cases hv : Varies d with
        | true => simp only [if_true]; rw [m3 hv, hmx]
        | false => rfl
      · simp only [maxTupleSize, minTupleSize, m1, m2]
        cases hv : Varies d with
        | true => simp only [if_true]; rw [m3 hv, hmx]; exact sound_max hsnd hv
        | false => simp

/-- C62. Within the documented limits every sound type can be finalised, and everything that is proved
about finalised types holds of the result. -/
theorem C62_usable {d : Dti} (hb : Built d) (hl : Limits d) :
    (Sound d → ∃ d', finalize d = some d') ∧ ∀ d', finalize d = some d' → Usable d' := by
  obtain ⟨h1, h2⟩ := limits_small hb hl
  exact ⟨(finalize_spec hb (limits_fits d hl)).1, fun d' h => ⟨d, h1, h, h2 d' h⟩⟩

/-- C62. `initialize_tuple_data_type_info` may be used on memory with any contents: nothing that was in
it before influences the finalised type. -/
theorem C62_uninitialised (h0 h1 : Hdr) (name : Bytes) (nullable : Bool) (max count : Nat) (fs : List (Fld × Dti)) :
    finalize (.tup (initTup h0 name nullable max count) fs) = finalize (.tup (initTup h1 name nullable max count) fs) := by
  simp only [finalize, initTup, finTup, Bool.false_eq_true, if_false]
  rfl

/-- C62. There is a predefined type for exactly the sizes that can be used with a kind, and it has that
kind, size and nullability; it is a static object that is not finalised yet, and it can be finalised. -/
theorem C62_predefined (k : PKind) (nullable : Bool) (n : Nat) :
    (Sound (.prim k { nullable := nullable, size := n }) → ∃ d d', predefined k nullable n = some d ∧
      d.hdr.isStatic = true ∧ d.hdr.isFinal = false ∧ finalize d = some d' ∧ d'.kind = k.kind ∧ d'.hdr.size = n ∧ d'.isNullable = nullable ∧ d'.isVar = false ∧
      d'.hdr.isStatic = true ∧ d'.hdr.name = []) ∧
    (¬ Sound (.prim k { nullable := nullable, size := n }) → predefined k nullable n = none) := by
  have tab : ∀ k m, ((defTable k nullable m)[n]?).getD none =
      if 1 ≤ n ∧ n ≤ m - 1 then some (defPrim k nullable n) else none := by
    intro k m
    unfold defTable
    cases n with
    | zero => simp
    | succ i =>
      simp only [List.getElem?_cons_succ, List.getElem?_map]
      by_cases hi : i < m - 1
      · rw [List.getElem?_range hi, if_pos (by omega)]; rfl
      · rw [List.getElem?_eq_none (by simp; omega), if_neg (by omega)]; rfl
  have fin : ∀ k, Sound (.prim k { nullable := nullable, size := n }) → ∃ d', finalize (defPrim k nullable n) = some d' ∧
      d'.kind = k.kind ∧ d'.hdr.size = n ∧ d'.isNullable = nullable ∧ d'.isVar = false ∧
      d'.hdr.isStatic = true ∧ d'.hdr.name = [] := by
    intro k hs
    cases k <;> simp only [Sound] at hs <;> exact ⟨_, by simp [finalize, defPrim, finPrim, hs]; rfl, rfl, rfl, by simp [isNullable, isVar, hdr], rfl, rfl, rfl⟩
  refine ⟨fun hs => ?_, fun hs => ?_⟩
  · obtain ⟨d', hd'⟩ := fin k hs
    refine ⟨defPrim k nullable n, d', ?_, rfl, rfl, hd'⟩
    cases k <;> simp only [Sound] at hs
    · simp only [predefined, bitFieldTable, tab]; rw [if_pos (by omega)]
    · simp only [predefined, uintTable, tab]; rw [if_pos (by omega)]
    · simp only [predefined, intTable, tab]; rw [if_pos (by omega)]
    · rcases hs with rfl | rfl <;> rfl
    · simp only [predefined, largeUintTable, tab]; rw [if_pos (by omega)]
    · simp only [predefined, largeIntTable, tab]; rw [if_pos (by omega)]
  · cases k <;> simp only [Sound] at hs
    · simp only [predefined, bitFieldTable, tab]; rw [if_neg (by omega)]
    · simp only [predefined, uintTable, tab]; rw [if_neg (by omega)]
    · simp only [predefined, intTable, tab]; rw [if_neg (by omega)]
    · simp only [predefined, floatTable]; rw [if_neg (by omega), if_neg (by omega)]
    · simp only [predefined, largeUintTable, tab]; rw [if_neg (by omega)]
    · simp only [predefined, largeIntTable, tab]; rw [if_neg (by omega)]

/-- C62. The types that the macros for strings and arrays make are accepted exactly if: the fixed
length is not 0; the maximum size is not 0; the fixed element count is not 0 and the smallest array
fits; the prefix fits. -/
theorem C62_macros (bin nullable : Bool) (name : Bytes) (n max : Nat) (c : Dti) :
    Built (fixedStr bin name n nullable) ∧ Built (varStr bin name max) ∧
    (Sound (fixedStr bin name n nullable) ↔ n ≠ 0) ∧ Varies (fixedStr bin name n nullable) = false ∧
      Least (fixedStr bin name n nullable) = n ∧
    (Sound (varStr bin name max) ↔ max ≠ 0) ∧ Varies (varStr bin name max) = true ∧
      Least (varStr bin name max) = vsz max ∧
    (Built c → Built (fixedArr name n max nullable c) ∧ Built (varArr name max c)) ∧
    (Sound (fixedArr name n max nullable c) ↔
      Sound c ∧ n ≠ 0 ∧ (Varies c = true → vsz max + n * vsz max ≤ max)) ∧
    (Sound (varArr name max c) ↔ Sound c ∧ (if Varies c then 2 else 1) * vsz max ≤ max) := by
  have hvm : vsz max ≤ max ↔ max ≠ 0 := by
    have := vsz_pos max
    by_cases h : max ≤ 256
    · rw [show vsz max = 1 by unfold vsz; simp [h, show max ≤ 65536 by omega, show max ≤ 16777216 by omega]]; omega
    · have := vsz_le max; omega
  refine ⟨.str _ _ rfl, .str _ _ rfl, ?_, rfl, rfl, ?_, rfl, rfl, ?_, ?_, ?_⟩
  · simp [Sound, fixedStr]
  · simp [Sound, varStr, Least, hvm]
  · exact fun h => ⟨.arr _ _ rfl h, .arr _ _ rfl h⟩
  · simp only [Sound, fixedArr, Varies, Least, Bool.false_or, true_implies, Bool.false_eq_true, if_false]
    constructor
    · rintro ⟨h1, h2, h3⟩
      refine ⟨h1, h2, fun hv => ?_⟩
      have := h3 hv
      have hb : c.isBit = false := by
        cases c with
        | prim => cases hv
        | _ => rfl
      simp only [hv, if_true, hb, Bool.false_eq_true, if_false] at this
      omega
    · rintro ⟨h1, h2, h3⟩
      refine ⟨h1, h2, fun hv => ?_⟩
      have := h3 hv
      have hb : c.isBit = false := by
        cases c with
        | prim => cases hv
        | _ => rfl
      have hz : BitsOf c = 0 := by simp [BitsOf, hv, hb]
      simp only [hv, if_true, hb, Bool.false_eq_true, if_false, hz, Nat.mul_zero]
      have : bitmapBytes 0 = 0 := rfl
      omega
  · simp only [Sound, varArr, Varies, Least, Bool.true_or, true_implies, if_true, reduceCtorEq, false_implies, true_and]
    cases Varies c
    · simp
    · simp only [if_true]
      constructor
      · rintro ⟨h1, h2⟩; exact ⟨h1, by omega⟩
      · rintro ⟨h1, h2⟩; exact ⟨h1, by omega⟩

/-- C62. What comes out of finalising them is the type that was asked for: its name, how many elements
there are or that their number varies, whether it can be NULL (anything of variable size can), and the size
or maximum size. -/
theorem C62_macro_results {bin nullable : Bool} {name : Bytes} {n max : Nat} {c d : Dti} :
    (finalize (fixedStr bin name n nullable) = some d → d.hdr.name = name ∧ d.isNullable = nullable ∧
      d.isVar = false ∧ d.hdr.size = n ∧ ∀ m, d.getCount m = some n) ∧
    (finalize (varStr bin name max) = some d → d.hdr.name = name ∧ d.isNullable = true ∧ d.isVar = true ∧
      d.hdr.maxSize = max ∧ d.isVarCount = true) ∧
    (finalize (fixedArr name n max nullable c) = some d → ∃ c', finalize c = some c' ∧ d.cont = some c' ∧
      d.hdr.name = name ∧ d.isNullable = (nullable || c'.isVar) ∧ d.isVar = c'.isVar ∧
      (c'.isVar = true → d.hdr.maxSize = max) ∧ ∀ m, d.getCount m = some n) ∧
    (finalize (varArr name max c) = some d → ∃ c', finalize c = some c' ∧ d.cont = some c' ∧ d.hdr.name = name ∧
      d.isNullable = true ∧ d.isVar = true ∧ d.hdr.maxSize = max ∧ d.isVarCount = true) ∧
    (∀ h0 fs, finalize (.tup (initTup h0 name nullable max n) fs) = some d → ∃ fs', finalizeAll fs = some fs' ∧
      d.hdr.name = cname name ∧ d.isNullable = (nullable || d.isVar) ∧ d.isVar = fs'.any (fun p => p.2.isVar) ∧
      (d.isVar = true → d.hdr.maxSize = max) ∧ d.isVarCount = false ∧ d.hdr.isStatic = false ∧ ∀ m, d.getCount m = some n) := by
  refine ⟨fun h => ?_, fun h => ?_, fun h => ?_, fun h => ?_, fun h0 fs h => ?_⟩
  · simp only [fixedStr, finalize, Bool.false_eq_true, if_false] at h
    obtain ⟨rfl, _⟩ := finStr_eq h
    simp [isNullable, isVar, hdr, getCount, isCont, isVarCount]
  · simp only [varStr, finalize, Bool.false_eq_true, if_false] at h
    obtain ⟨rfl, _⟩ := finStr_eq h
    simp [isNullable, isVar, hdr, isVarCount]
  · simp only [fixedArr, finalize, Bool.false_eq_true, if_false, Option.bind_eq_bind, Option.bind_eq_some_iff] at h
    obtain ⟨c', h1, h2⟩ := h
    obtain ⟨_, _, rfl⟩ := finArr_iff.mp h2
    refine ⟨c', h1, ?_⟩
    cases hv : c'.isVar <;> simp [isNullable, isVar, hdr, getCount, isCont, isVarCount, Dti.cont, hv]
  · simp only [varArr, finalize, Bool.false_eq_true, if_false, Option.bind_eq_bind, Option.bind_eq_some_iff] at h
    obtain ⟨c', h1, h2⟩ := h
    obtain ⟨_, _, rfl⟩ := finArr_iff.mp h2
    refine ⟨c', h1, ?_⟩
    simp [isNullable, isVar, hdr, isVarCount, Dti.cont]
  · rw [finalize, if_neg (by simp [initTup])] at h
    split at h
    · cases h
    simp only [Option.bind_eq_bind, Option.bind_eq_some_iff] at h
    obtain ⟨fs', h1, h2⟩ := h
    obtain ⟨_, rfl⟩ := finTup_iff.mp h2
    refine ⟨fs', h1, ?_⟩
    cases hv : fs'.any (fun p => p.2.isVar) <;> simp [initTup, isNullable, isVar, hdr, getCount, isCont, isVarCount, hv]

/-- Four nullable strings of five characters in an array. -/
example : finalize (fixedArr [121] 4 0 true (fixedStr false [122] 5 true)) ≠ none ∧
    finalize (varArr [121] 40 (varStr true [122] 30)) ≠ none := by decide

/-- C62. From a type as a user builds it to the first tuple: `init_tuple` on any memory of at least
the minimum size writes a tuple of that size without contents. -/
theorem C62_first_tuple {d : Dti} (hb : Built d) (hl : Limits d) (hc : d.isCont = true) {d0 sd : SizeDef} {d' : Dti}
    (h : initTupleDef d0 d = some (d', sd)) {m : Bytes} (hm : minTupleSize sd ≤ m.length) :
    ∃ m', initTuple (d', sd) m = some (m', Least d) ∧ m'.length = m.length ∧ IsTuple d' m' (Least d) ∧
      tupleSizeOf (d', sd) m' = some (Least d) ∧ (∀ x, Least d ≤ x → m'[x]? = m[x]?) ∧
      ∀ i pa, Blank d' m' (i :: pa) := by
  have hf := limits_fits d hl
  obtain ⟨h1, _, _, h4, _⟩ := (C62_tuple_def hb hf d0).2 d' sd h
  have hu := (C62_usable hb hl).2 d' h1
  have hsz := ((finalize_spec hb hf).2 d' h1).2.2
  have hcd : d'.isCont = true := by rw [finalize_isCont d d' h1]; exact hc
  rw [h4] at hm
  obtain ⟨m', g1, g2, g3, _, g5, g6, g7⟩ := C41_minimal hu hcd (m := m) (by omega)
  rw [hsz] at g1 g2 g3 g6
  refine ⟨m', g1, g5, g2, ?_, g6, g7⟩
  unfold initTupleDef initSizeDef at h
  split at h
  · cases h
  · simp only [Option.bind_eq_bind, Option.bind_eq_some_iff, Option.pure_def, Option.some.injEq, Prod.mk.injEq] at h
    obtain ⟨d2, e1, sd2, e2, rfl, rfl⟩ := h
    simp only [tupleSizeOf]
    rw [getSize_sizeDef e2, g3]

theorem exType_built : Built exType := by
  refine .tup _ _ rfl rfl ?_
  intro f t h
  simp at h
  rcases h with ⟨_, rfl⟩ | ⟨_, rfl⟩ | ⟨_, rfl⟩ | ⟨_, rfl⟩
  · exact .prim _ _ rfl
  · exact .prim _ _ rfl
  · exact .str _ _ rfl
  · exact .arr _ _ rfl (.prim _ _ rfl)

/-- The hypotheses of the theorems above hold of a type with all kinds of fields. -/
example : Built exType ∧ Built exFinal ∧ Fits32 exType ∧ Limits exType ∧ Sound exType ∧ Varies exType = true ∧
    Least exType = 11 ∧ initTupleDef ⟨true, 7, 7, false, true, true, true, 7⟩ exType ≠ none ∧ exType.isCont = true := by
  have h4 : vsz 900 = 2 := by decide
  have h5 : vsz 200 = 1 := by decide
  have h6 : vsz 300 = 2 := by decide
  have hl : lim = 2147483648 := rfl
  refine ⟨exType_built, .again exType_built exType_finalize, ?_, ?_, ?_, by decide, by decide, by decide, rfl⟩
  · simp [Fits32, Fits32All, exType, Least, LeastAll, BitsAll, BitsOf, Varies, VariesAny, isBit, hdr, bitmapBytes, h4, h5, h6]
  · simp [Limits, LimitsAll, exType, Least, LeastAll, BitsAll, BitsOf, Varies, VariesAny, isBit, hdr, bitmapBytes, h4, h6, hl]
  · simp [Sound, SoundAll, exType, Least, LeastAll, BitsAll, BitsOf, Varies, VariesAny, isBit, hdr, bitmapBytes, h4, h5, h6]

/-- A type that is not sound: its maximum size is too small for the smallest tuple. -/
example : ∃ d, Built d ∧ Fits32 d ∧ ¬ Sound d ∧ initTupleDef ⟨true, 7, 7, false, true, true, true, 7⟩ d = none := by
  refine ⟨.tup { count := 1, maxSize := 1 } [({}, .str true { varCount := true, maxSize := 9 })], ?_, ?_, ?_, by decide⟩
  · refine .tup _ _ rfl rfl ?_
    intro f t h
    simp at h
    obtain ⟨_, rfl⟩ := h
    exact .str _ _ rfl
  · have h1 : vsz 1 = 1 := by decide
    have h2 : vsz 9 = 1 := by decide
    simp [Fits32, Fits32All, Least, LeastAll, BitsAll, BitsOf, Varies, VariesAny, isBit, hdr, bitmapBytes, h1, h2]
  · have h1 : vsz 1 = 1 := by decide
    have h2 : vsz 9 = 1 := by decide
    simp [Sound, SoundAll, Least, LeastAll, BitsAll, BitsOf, Varies, VariesAny, isBit, hdr, bitmapBytes, h1, h2]

end Props
end TS
