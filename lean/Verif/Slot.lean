import Verif.Stale
import Verif.PropsSpot
/-
The slot of an element of fixed size: what setting the element changes there and elsewhere.
-/
namespace TS
namespace Dti

/-- How many bits an element of a fixed size takes, without its is-valid bit. -/
def slotBits (t : Dti) : Nat := if t.isBit then t.hdr.size else 8 * t.hdr.size

/-- The first bit of the slot of an element in a container: bit-fields are in the prefix bitmap. -/
def slotAt (d : Dti) (p : PosInfo) : Nat := if p.ty.isBit then 8 * d.offBitmap + p.off else 8 * p.off

section
variable {d : Dti} {m : Bytes} {S : Nat} {cs : List Elt} {o : Nat → Nat}

theorem bits_of_bytes {a b : Bytes} {x : Nat} (h : a[x]? = b[x]?) {j : Nat} (hj : j / 8 = x) : bit a 0 j = bit b 0 j := by
  subst hj; exact bit_byte h rfl

/-- Setting an element of a fixed size changes its slot and its is-valid bit, NULL only the latter. -/
theorem setCont_foot (h : TyOk d) (hc : d.isCont = true) (r : CRep d m S cs o) {i inc : Nat} {v : Datum}
    (hlt : i < cs.length) (hd : ∃ y, EDen (posOf d cs.length i).ty v y) (hv : (posOf d cs.length i).ty.isVar = false)
    {m' : Bytes} {q : Bool} (he : d.setCont m i inc v = some (m', q)) :
    Ag (fun j => ¬ ((posOf d cs.length i).ty.hdr.nullable = true ∧ j = 8 * d.offBitmap + (posOf d cs.length i).vbit) ∧
        (v.isNull = true ∨ ¬ (slotAt d (posOf d cs.length i) ≤ j ∧
          j < slotAt d (posOf d cs.length i) + slotBits (posOf d cs.length i).ty))) m m' ∧
      (v.isNull = false → q = true ∧ ((posOf d cs.length i).ty.isBit = false →
        (posOf d cs.length i).ty.setDatum (m.drop (posOf d cs.length i).off) true inc v =
          some (m'.drop (posOf d cs.length i).off, true))) := by
  have hi := List.getElem?_eq_getElem hlt
  have hlay := lay_of h hc r.countOk
  have hok := posOf_ok h hc r.countOk hlt
  have hnv : (posOf d cs.length i).ty.needsValid = (posOf d cs.length i).ty.hdr.nullable := by simp [needsValid, hv]
  have hnu : (posOf d cs.length i).ty.isNullable = (posOf d cs.length i).ty.hdr.nullable := by simp [isNullable, hv]
  unfold setCont at he
  simp only [hc, Bool.not_true, Bool.false_eq_true, if_false, getCount_eq h hc r, Option.bind_eq_bind, Option.bind_some,
    ge_iff_le, Nat.not_le.mpr hlt, setContUnsafe, posInfo_eq h hc r hlt, setAt] at he
  cases hn : v.isNull with
  | true =>
    refine ⟨?_, by simp⟩
    simp only [hn, if_true, setNull, (isNullAt_eq h hc r hi).1, Option.bind_eq_bind, Option.bind_some, hnu, hnv,
      decide_eq_true_eq] at he
    by_cases h0 : cs[i] = .null
    · rw [if_pos h0] at he; cases he
      exact ⟨rfl, fun _ _ => rfl⟩
    · rw [if_neg h0] at he
      cases hb : (posOf d cs.length i).ty.hdr.nullable with
      | false => simp only [hb, Bool.not_false, if_true] at he; cases he; exact ⟨rfl, fun _ _ => rfl⟩
      | true =>
        have hin := bit_ok h hc r (hlay.vb i hlt (by rw [hnv, hb]))
        simp only [hb, Bool.not_true, Bool.false_eq_true, if_false, if_true, resetBit_eq hin, Option.bind_some] at he
        cases he
        refine ⟨by simp, fun j hj => ?_⟩
        rw [withBit_abs, bit_withBit (by omega), if_neg (fun hh => hj.1 ⟨rfl, hh⟩)]
  | false =>
    obtain ⟨m1, f1, f2, f3, f4, f5⟩ := mark_ok h hc r hlt
    have hfe := fixedEnd_le r
    have hbm := bitmap_le_fixedEnd h hc r.countOk
    have hle := r.le
    have hm1 : Ag (fun j => ¬ ((posOf d cs.length i).ty.hdr.nullable = true ∧
        j = 8 * d.offBitmap + (posOf d cs.length i).vbit)) m m1 := by
      refine ⟨f2.symm, fun j hj => ?_⟩
      by_cases hjo : j < 8 * d.offBitmap
      · exact (bits_of_bytes (f5 (j / 8) (Or.inl (by omega))) rfl).symm
      · have := f3 (j - 8 * d.offBitmap) (by rw [hnv]; intro hh; exact hj ⟨hh.1, by omega⟩)
        rw [bit_abs, bit_abs m] at this
        rw [show 8 * d.offBitmap + (j - 8 * d.offBitmap) = j by omega] at this
        exact this.symm
    simp only [hn, Bool.false_eq_true, if_false, hv, Bool.not_false, if_true] at he
    rw [f1] at he
    obtain ⟨y, hy⟩ := hd
    cases hb : (posOf d cs.length i).ty.isBit with
    | true =>
      simp only [hb, if_true] at he
      simp only [EDen, hn, hb, Bool.false_eq_true, if_false, if_true] at hy
      obtain ⟨n, hn1, hn2⟩ := hy
      have hbf := hlay.bf i hlt hb
      have h64 : (posOf d cs.length i).ty.hdr.size ≤ 64 := hok.bit_le hb
      have hin : d.offBitmap + bitmapBytes ((posOf d cs.length i).off + (posOf d cs.length i).ty.hdr.size) ≤ m1.length := by
        have : bitmapBytes ((posOf d cs.length i).off + (posOf d cs.length i).ty.hdr.size) ≤
          bitmapBytes (bitsOf d cs.length) := by unfold bitmapBytes; omega
        omega
      simp only [hn1, Option.bind_some, setBits, h64, if_true] at he
      rw [setBitsN_eq _ _ _ _ hin] at he
      simp only [Option.bind_some] at he
      cases he
      refine ⟨⟨by simp [f2], fun j hj => ?_⟩, fun _ => ⟨rfl, by simp⟩⟩
      simp only [slotAt, slotBits, hb, if_true, Bool.false_eq_true, false_or] at hj
      rw [hm1.2 j hj.1]
      by_cases hjo : j < 8 * d.offBitmap
      · exact (bits_of_bytes (withBits_get hbf (Or.inl (by omega))) rfl).symm
      · have := bit_withBits (off := d.offBitmap) _ m1 (posOf d cs.length i).off n (j - 8 * d.offBitmap) hin
        rw [if_neg (by omega), bit_abs, bit_abs m1, show 8 * d.offBitmap + (j - 8 * d.offBitmap) = j by omega] at this
        exact this.symm
    | false =>
      simp only [hb, Bool.false_eq_true, if_false] at he
      simp only [EDen, hn, hb, Bool.false_eq_true, if_false] at hy
      have hfx := hlay.fx i hlt hb
      simp only [slot, hv, Bool.false_eq_true, if_false] at hfx
      have hptr : d.ptrAt m1 (posOf d cs.length i) = some (some (posOf d cs.length i).off) := by
        unfold ptrAt
        cases hnv : (posOf d cs.length i).ty.needsValid with
        | false => simp [hb, hv]
        | true =>
          simp only [if_true]
          rw [getBit_eq (by rw [f2]; exact bit_ok h hc r (hlay.vb i hlt hnv)), f4 hnv]
          simp [hb, hv]
      rw [hptr] at he
      simp only [Option.bind_some, atOff] at he
      have hdl : (m1.drop (posOf d cs.length i).off).length = m.length - (posOf d cs.length i).off := by simp [f2]
      have hdm : m1.drop (posOf d cs.length i).off = m.drop (posOf d cs.length i).off := by
        apply List.ext_getElem?
        intro x
        rw [List.getElem?_drop, List.getElem?_drop]
        exact f5 _ (Or.inr (by omega))
      obtain ⟨c', q', s1, s2, s3, s4, s5, s6⟩ := setDatum_ok (t := (posOf d cs.length i).ty)
        (c := m1.drop (posOf d cs.length i).off) (valid := true) (inc := inc) (old := 0) (v := v) hok hb hn ⟨y, hy⟩
        (by rw [hv]; intro hh; cases hh) (by rw [hv]; intro hh; cases hh) (fun _ => by rw [hdl]; omega)
      have hq := s5 hv
      subst hq
      rw [s1] at he
      simp only [Option.bind_eq_bind, Option.bind_some, Option.pure_def, Option.some.injEq, Prod.mk.injEq] at he
      obtain ⟨rfl, rfl⟩ := he
      obtain ⟨b, ⟨⟨z, w1, w2⟩, w3, w4⟩, _⟩ := s6 rfl
      have hbl := (enc_size hok w1).2.2.2.2.2 hv
      have hpl : (m1.take (posOf d cs.length i).off).length = (posOf d cs.length i).off := by simp; omega
      refine ⟨⟨by simp [s3, f2]; omega, fun j hj => ?_⟩, fun _ => ⟨rfl, fun _ => ?_⟩⟩
      · simp only [slotAt, slotBits, hb, Bool.false_eq_true, if_false, false_or] at hj
        rw [hm1.2 j hj.1]
        refine (bits_of_bytes (x := j / 8) ?_ rfl).symm
        by_cases hx : j / 8 < (posOf d cs.length i).off
        · rw [List.getElem?_append_left (by omega), List.getElem?_take, if_pos hx]
        · rw [List.getElem?_append_right (by omega), hpl, w4 _ (by omega), List.getElem?_drop]
          congr 1; omega
      · rw [← hdm, s1]
        rw [List.drop_append_of_le_length (by omega), List.drop_of_length_le (by omega)]
        rfl

end

/-- The element at index `i` of the container at `pp` is of type `t`, and has a fixed place in the memory
of its own, whether it is NULL or not: the bits from `A` on, and bit `q` as is-valid bit if it is nullable. -/
def Slot (d : Dti) (m : Bytes) (pp : List Nat) (i : Nat) (t : Dti) (A q : Nat) : Prop :=
  ∃ a n u k p, Spot d m pp a n u ∧ u.isCont = true ∧ u.getCount (m.drop a) = some k ∧ i < k ∧
    u.posInfo (m.drop a) i = some p ∧ t = p.ty ∧ A = 8 * a + slotAt u p ∧ q = 8 * a + (8 * u.offBitmap + p.vbit)

theorem get_path (pp : List Nat) : ∀ {d u : Dti} {m : Bytes} {a n i : Nat}, Spot d m pp a n u →
    d.getElem m (pp ++ [i]) = u.getCont (m.drop a) i := by
  induction pp with
  | nil => rintro d u m a n i ⟨rfl, rfl, _⟩; rfl
  | cons j pp ih =>
    rintro d u m a n i ⟨hc, k, p, b, c, h1, h2, h3, h4, h5, rfl, h7⟩
    have := ih (i := i) h7
    rw [List.drop_drop] at this
    cases hq : pp ++ [i] with
    | nil => simp at hq
    | cons x l =>
      rw [List.cons_append, hq]
      rw [hq] at this
      simp only [Dti.getElem, hc, h1, Nat.not_le.mpr h2, h3, h5, Bool.not_true, Bool.false_eq_true, if_false, ge_iff_le,
        Option.bind_eq_bind, Option.bind_some]
      exact this

theorem set_path (pp : List Nat) : ∀ {d u : Dti} {m : Bytes} {S : Nat} {val : Val} {a n i inc : Nat}, TyOk d → S ≤ m.length →
    Enc d (m.take S) val → Spot d m pp a n u →
    ∃ inc', ∀ v, d.setElemI m inc v false (pp ++ [i]) = atOff m a (fun c => u.setCont c i inc' v) := by
  induction pp with
  | nil =>
    rintro d u m S val a n i inc _ _ _ ⟨rfl, rfl, _⟩
    refine ⟨inc, fun v => ?_⟩
    simp only [List.nil_append, setElemI, atOff, List.drop_zero, List.take_zero, List.nil_append]
    cases u.setCont m i inc v <;> rfl
  | cons j pp ih =>
    intro d u m S val a n i inc h hS he hs
    have hsz := size_eq h hS he
    have hmx := (enc_size h he)
    rw [show (m.take S).length = S by simp; omega] at hmx
    obtain ⟨hc, cs, o, vs, b, c, l, hv, r, hvs, h2, h4, h5, h6, h7, h8⟩ := spot_step h hS he hs
    obtain ⟨k', y, a1, a2, a3, a4, a5, a6, a7, a8⟩ := kid_of h hc r hvs h2 h4 h5
    obtain ⟨inc', hinc⟩ := ih (i := i) (inc := if d.isVar then min inc (d.hdr.maxSize - S) else inc) (posOf_ok h hc r.countOk h2) a5 a6 h8
    refine ⟨inc', fun v => ?_⟩
    have := hinc v
    cases hq : pp ++ [i] with
    | nil => simp at hq
    | cons x l =>
      rw [List.cons_append, hq]
      rw [hq] at this
      simp only [setElemI, hc, getCount_eq h hc r, Nat.not_le.mpr h2, posInfo_eq h hc r h2, Bool.not_true, Bool.false_eq_true,
        if_false, ge_iff_le, Option.bind_eq_bind, Option.bind_some]
      have hat : (d.inChild m (posOf d cs.length j) b false fun c => (posOf d cs.length j).ty.setElemI c
          (if d.isVar then min inc (d.hdr.maxSize - S) else inc) v false (x :: l)) =
          atOff m a fun c => u.setCont c i inc' v := by
        simp only [inChild, Bool.false_eq_true, if_false, h6]
        rw [← atOff_atOff]
        simp only [atOff] at this ⊢
        rw [this]
      cases hdv : d.isVar with
      | false =>
        simp only [hdv, Bool.false_eq_true, if_false] at hat
        simp only [Bool.false_eq_true, if_false, h5, Option.bind_some]
        exact hat
      | true =>
        have hmx := r.mx hdv
        simp only [hdv, if_true] at hat
        simp only [if_true, hsz, sub32, hmx, Option.bind_some, Option.pure_def, h5]
        exact hat

/-- Where an element that is there has its place. -/
theorem spot_of_count (pp : List Nat) : ∀ {d : Dti} {m : Bytes} {S : Nat} {val : Val} {k : Nat}, TyOk d → S ≤ m.length →
    Enc d (m.take S) val → d.elemCount m pp = some k → 0 < k →
    ∃ a n u, Spot d m pp a n u ∧ u.isCont = true ∧ u.getCount (m.drop a) = some k := by
  induction pp with
  | nil =>
    intro d m S val k h hS he hk h0
    refine ⟨0, S, d, ⟨rfl, rfl, size_eq h hS he⟩, ?_, hk⟩
    cases hc : d.isCont with
    | true => rfl
    | false => simp [elemCount, getCount, hc] at hk; omega
  | cons j pp ih =>
    intro d m S val k h hS he hk h0
    unfold elemCount at hk
    cases hc : d.isCont with
    | false => simp [hc] at hk; omega
    | true =>
      obtain ⟨cs, o, vs, rfl, r, hvs⟩ := crep_of_enc h hc hS he
      simp only [hc, getCount_eq h hc r, Bool.not_true, Bool.false_eq_true, if_false, ge_iff_le, Option.bind_eq_bind,
        Option.bind_some] at hk
      by_cases hj : cs.length ≤ j
      · rw [if_pos hj] at hk; cases hk; omega
      · have hlt : j < cs.length := by omega
        simp only [if_neg hj, posInfo_eq h hc r hlt, Option.bind_some] at hk
        cases hp : d.ptrAt m (posOf d cs.length j) with
        | none => rw [hp] at hk; cases hk
        | some b =>
          rw [hp] at hk
          cases b with
          | none => simp at hk; omega
          | some b =>
            simp only [Option.bind_some] at hk
            cases hb : (posOf d cs.length j).ty.isBit with
            | true =>
              exfalso
              have hnc : (posOf d cs.length j).ty.isCont = false := by
                cases hh : (posOf d cs.length j).ty.isCont with
                | false => rfl
                | true => rw [isCont_not_bit hh] at hb; cases hb
              cases pp with
              | nil => simp [elemCount, getCount, hnc] at hk; omega
              | cons x pp => simp [elemCount, hnc] at hk; omega
            | false =>
              obtain ⟨n, y, a1, a2, a3, a4, a5, a6, a7, a8⟩ := kid_of h hc r hvs hlt hb hp
              obtain ⟨a, n', u, g1, g2, g3⟩ := ih (posOf_ok h hc r.countOk hlt) a5 a6 hk h0
              rw [List.drop_drop] at g3
              exact ⟨b + a, n', u, ⟨hc, cs.length, _, b, a, getCount_eq h hc r, hlt, posInfo_eq h hc r hlt, hb, hp, rfl, g1⟩, g2, g3⟩

theorem typeAt_append (pp : List Nat) : ∀ {d u t : Dti} {i : Nat}, d.typeAt pp = some u → u.tyAtNoData i = some t →
    d.typeAt (pp ++ [i]) = some t := by
  induction pp with
  | nil => intro d u t i h1 h2; cases h1; simp [typeAt, h2]
  | cons j pp ih =>
    intro d u t i h1 h2
    simp only [typeAt, Option.bind_eq_bind, List.cons_append] at h1 ⊢
    cases hj : d.tyAtNoData j with
    | none => rw [hj] at h1; cases h1
    | some x => rw [hj] at h1; simp only [Option.bind_some] at h1 ⊢; exact ih h1 h2

/-- What a slot says about the container that it is in. -/
theorem slot_cont {d t : Dti} {m : Bytes} {S : Nat} {val : Val} {pp : List Nat} {i A q : Nat} (h : TyOk d) (hS : S ≤ m.length)
    (he : Enc d (m.take S) val) (hs : Slot d m pp i t A q) :
    ∃ a n u cs o, Spot d m pp a n u ∧ TyOk u ∧ u.isCont = true ∧ a + n ≤ S ∧ CRep u (m.drop a) n cs o ∧ i < cs.length ∧
      t = (posOf u cs.length i).ty ∧ A = 8 * a + slotAt u (posOf u cs.length i) ∧
      q = 8 * a + (8 * u.offBitmap + (posOf u cs.length i).vbit) ∧ d.typeAt (pp ++ [i]) = some t := by
  obtain ⟨a, n, u, k, p, h1, h2, h3, h4, h5, h6, h7, h8⟩ := hs
  obtain ⟨g1, g2, g3, g4, g5, y, g6⟩ := spot_in pp h hS he h1
  obtain ⟨cs, o, vs, hv, r, hvs⟩ := crep_of_enc g1 h2 (by simp; omega) g6
  have hk := getCount_eq g1 h2 r
  rw [h3] at hk; cases hk
  have hp := posInfo_eq g1 h2 r h4
  rw [h5] at hp; cases hp
  exact ⟨a, n, u, cs, o, h1, g1, h2, g2, r, h4, h6, h7, h8, typeAt_append pp g4 (by rw [h6]; exact tyAtNoData_pos g1 h2 r.countOk h4)⟩

theorem getCount_ag {d : Dti} {K : Nat → Prop} {a b : Bytes} (h : TyOk d) (hab : Ag K a b) (hk : ∀ j, j < 8 * d.offBitmap → K j) :
    d.getCount a = d.getCount b := by
  unfold getCount
  split
  · rfl
  · split
    · rfl
    · rename_i hc hv
      refine hab.loadVal fun j hj => hk j ?_
      have := hj.2
      have : d.offBitmap = d.offCountP + vsz d.hdr.maxSize := by
        cases h with
        | prim => simp [isVarCount] at hv
        | _ => simp at hv; simp [offBitmap, hasCountP, hv, w]
      omega

end Dti

namespace Props
open Dti

/-- Setting an element that has a slot: what changes, and that its slot stays where it is. -/
theorem slot_set {d t : Dti} {m m' : Bytes} {S : Nat} {pp : List Nat} {i A qb inc : Nat} {v : Datum} {q : Bool}
    (ha : SetArgs d m S (pp ++ [i]) v inc) (hs : Slot d m pp i t A qb) (hv : t.isVar = false)
    (hset : d.setElem m (pp ++ [i]) v inc = some (m', q)) :
    Ag (fun j => ¬ (t.hdr.nullable = true ∧ j = qb) ∧ (v.isNull = true ∨ ¬ (A ≤ j ∧ j < A + slotBits t))) m m' ∧
      (v.isNull = false → q = true ∧ (t.isBit = false →
        ∃ inc', t.setDatum (m.drop (A / 8)) true inc' v = some (m'.drop (A / 8), true))) ∧
      IsTuple d m' S ∧ Slot d m' pp i t A qb := by
  have h := ha.usable.ok
  obtain ⟨hS, val, he⟩ := ha.tuple
  obtain ⟨a, n, u, cs, o, h1, h2, h3, h4, r, h5, h6, h7, h8, h9⟩ := slot_cont h hS he hs
  obtain ⟨inc', hinc⟩ := set_path pp (i := i) (inc := inc) h hS he h1
  have hchg : Changed d m S (pp ++ [i]) m' := Changed.set v inc q ha hset
  have hset2 := hset
  simp only [setElem, h9, hv] at hset2
  rw [hinc v] at hset2
  have hden := (ha.datum t h9).den (typeAt_ok _ h h9).1
  subst h6
  simp only [atOff] at hset2
  cases hf : u.setCont (m.drop a) i inc' v with
  | none => rw [hf] at hset2; cases hset2
  | some x =>
    obtain ⟨c', q'⟩ := x
    rw [hf] at hset2
    simp only [Option.bind_eq_bind, Option.bind_some, Option.pure_def, Option.some.injEq, Prod.mk.injEq] at hset2
    obtain ⟨rfl, rfl⟩ := hset2
    obtain ⟨f1, f2⟩ := setCont_foot h2 h3 r h5 hden hv hf
    have hal : (m.take a).length = a := by simp; omega
    have hcl : c'.length = m.length - a := by rw [← f1.1]; simp
    have hdr : (m.take a ++ c').drop a = c' := by
      rw [List.drop_append_of_le_length (by omega), List.drop_of_length_le (by omega)]; rfl
    obtain ⟨_, _, S', hm', hl, hS', _⟩ := changed_keeps hchg h9
    have hSS := hS' hv
    subst hSS
    refine ⟨⟨by simp [hcl]; omega, fun j hj => ?_⟩, fun hn => ⟨(f2 hn).1, fun hb => ?_⟩, hm', ?_⟩
    · by_cases hja : j / 8 < a
      · refine bits_of_bytes (x := j / 8) ?_ rfl
        rw [List.getElem?_append_left (by omega), List.getElem?_take, if_pos hja]
      · have := f1.2 (j - 8 * a) ⟨fun hh => hj.1 ⟨hh.1, by omega⟩, ?_⟩
        · have e1 : bit m 0 j = bit (m.drop a) 0 (j - 8 * a) := by
            apply bit_byte
            · rw [List.getElem?_drop]; congr 1; omega
            · omega
          have e2 : bit (m.take a ++ c') 0 j = bit c' 0 (j - 8 * a) := by
            apply bit_byte
            · rw [List.getElem?_append_right (by omega), hal]; congr 1; omega
            · omega
          rw [e1, e2, this]
        · rcases hj.2 with hj | hj
          · exact Or.inl hj
          · exact Or.inr (by omega)
    · refine ⟨inc', ?_⟩
      have := (f2 hn).2 hb
      have hA : A / 8 = a + (posOf u cs.length i).off := by rw [h7]; simp only [slotAt, hb, Bool.false_eq_true, if_false]; omega
      rw [hA, ← List.drop_drop, ← List.drop_drop, hdr]
      exact this
    · have hns : ¬ (pp ++ [i]) <+: pp := by
        intro hh; have := hh.length_le; simp at this; omega
      have hsp := (C73_fixed hchg h9 hv hns h1).1
      obtain ⟨hm1, val', he'⟩ := hm'
      obtain ⟨g1, g2, g3, g4, g5, y, g6⟩ := spot_in pp h hm1 he' hsp
      obtain ⟨cs', o', vs', hv', r', hvs'⟩ := crep_of_enc g1 h3 (by rw [hdr]; omega) g6
      have hlay := lay_of h2 h3 r.countOk
      have hcnt : u.getCount ((m.take a ++ c').drop a) = some cs.length := by
        rw [hdr, ← getCount_eq h2 h3 r]
        refine (getCount_ag h2 f1 fun j hj => ⟨fun hh => by omega, Or.inr fun hh => ?_⟩).symm
        unfold slotAt at hh
        cases hb : (posOf u cs.length i).ty.isBit with
        | true => simp only [hb, if_true] at hh; omega
        | false =>
          have := (hlay.fx i h5 hb).1
          simp only [hb, Bool.false_eq_true, if_false] at hh; omega
      have hle := getCount_eq h2 h3 r'
      rw [hcnt] at hle
      have hle : cs'.length = cs.length := by simpa using hle.symm
      refine ⟨a, n, u, cs.length, posOf u cs.length i, hsp, h3, hcnt, h5, ?_, rfl, h7, h8⟩
      rw [posInfo_eq h2 h3 r' (by omega), hle]

end Props
end TS
