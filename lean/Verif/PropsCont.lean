import Verif.ContApi
import Verif.PropsExpand
import Verif.PropsHash
/-
Property C67: the functions on one containee of a container agree with the elements as they are read
through paths, delimit the elements from each other, and may be given a position cached from an
earlier call as long as the element count is the same.
-/
namespace TS
namespace Props
open Dti

/-- The memory starts with a container of type `d` and size `S` with `n` elements. -/
structure Holds (d : Dti) (m : Bytes) (S n : Nat) : Prop where
  usable : Usable d
  cont : d.isCont = true
  tuple : IsTuple d m S
  count : d.getCount m = some n

/-- The cache is invalid or holds the position that would be computed now. -/
def Current (d : Dti) (m : Bytes) (i : Nat) (c : Option PosInfo) : Prop := c = none ∨ c = d.posInfo m i

theorem Current.eq {d : Dti} {m : Bytes} {i : Nat} {c : Option PosInfo} (h : Current d m i c) :
    d.cached m i c = d.posInfo m i := by
  rcases h with rfl | rfl
  · rfl
  · cases hp : d.posInfo m i with
    | none => simpa [cached] using hp
    | some p => rfl

theorem Holds.rep {d : Dti} {m : Bytes} {S n : Nat} (h : Holds d m S n) :
    ∃ cs o vs, cs.length = n ∧ CRep d m S cs o ∧ EVals d cs vs ∧ Enc d (m.take S) (.node vs) := by
  obtain ⟨hS, v, e⟩ := h.tuple
  obtain ⟨cs, o, vs, rfl, r, hv⟩ := crep_of_enc h.usable.ok h.cont hS e
  have := getCount_eq h.usable.ok h.cont r
  rw [h.count] at this
  exact ⟨cs, o, vs, by simpa using this.symm, r, hv, e⟩

/-- The representation is enough for a container to be there. -/
theorem Holds.of {d : Dti} {m : Bytes} {S : Nat} {cs : List Elt} {o : Nat → Nat} {vs : List Val} (hu : Usable d)
    (hc : d.isCont = true) (r : CRep d m S cs o) (hv : EVals d cs vs) :
    Holds d m S cs.length ∧ Enc d (m.take S) (.node vs) := by
  have e : Enc d (m.take S) (.node vs) := by
    refine enc_node (o := o) hc ?_ hv
    have hl : (m.take S).length = S := by have := r.le; simp; omega
    rw [hl]
    exact r.take hu.ok hc
  exact ⟨⟨hu, hc, ⟨r.le, _, e⟩, getCount_eq hu.ok hc r⟩, e⟩

theorem Holds.inBounds {d : Dti} {m : Bytes} {S n i : Nat} (h : Holds d m S n) :
    d.inBounds m i = some (decide (i < n)) := by
  simp only [Dti.inBounds, h.cont, h.count, Bool.not_true, Bool.false_eq_true, if_false, Option.bind_eq_bind,
    Option.bind_some]
  by_cases hi : i < n
  · simp [hi, Nat.not_le.mpr hi]
  · simp [hi, Nat.not_lt.mp hi]

theorem enc_not_null {t : Dti} {b : Bytes} {y : Val} (e : Enc t b y) : y ≠ .null := by
  cases e <;> nofun

/-- C67. For what is not a container, and for an index that is not less than the element count, all
functions give the answer documented for an element that is not there: no type, no position, NULL,
size 0, no datum, not to be set, not moved; memory and cache stay as they are, whatever the cache
holds. The element count of what is not a container is 0. -/
theorem C67_outside {d : Dti} {m : Bytes} {i : Nat} (c : Option PosInfo) (inc : Nat) (v : Datum)
    (h : d.isCont = false ∨ ∃ n, d.getCount m = some n ∧ n ≤ i) :
    d.typeIn m i = some none ∧ d.posIn m i c = some (false, c) ∧ d.isNullIn m i c = some (true, c) ∧
      d.ptrIn m i c = some (none, c) ∧ d.sizeIn m i c = some (0, c) ∧ d.getIn m i c = some (none, c) ∧
      d.canSetIn m i inc v c = some (false, c) ∧ d.moveEndIn m i c = some (m, false, c) ∧
      d.setNullIn m i c = some (m, false, c) ∧ d.setIn m i inc v c = some (m, false, c) ∧
      (d.isCont = false → d.getCount m = some 0) ∧
      d.getCont m i = some none ∧ d.canSetCont m i inc v = some false ∧ d.setCont m i inc v = some (m, false) := by
  have hb : d.inBounds m i = some false := by
    unfold inBounds
    rcases h with h | ⟨n, h, hi⟩
    · simp [h]
    · cases d.isCont <;> simp [h, hi]
  simp [typeIn, posIn, isNullIn, ptrIn, sizeIn, getIn, canSetIn, moveEndIn, setNullIn, setIn, hb]
  refine ⟨fun hc => by simp [getCount, hc], ?_⟩
  rcases h with h | ⟨n, h, hi⟩
  · simp [getCont, canSetCont, setCont, h]
  · cases hc : d.isCont <;> simp [getCont, canSetCont, setCont, h, hi, hc]

/-- C67. An element that is there is hashed as it is hashed through its path; the position is cached. An element
that is not there does not change the hash. -/
theorem C67_hash {σ : Type} (upd : σ → UInt8 → σ) {d : Dti} {m : Bytes} {S n i : Nat} {c : Option PosInfo} (h : Holds d m S n)
    (hcur : Current d m i c) (x : σ) :
    (n ≤ i → hashIn upd x d m i c = some (x, c) ∧ hashElem upd x m d [i] = some x) ∧
    (i < n → ∃ x', hashIn upd x d m i c = some (x', d.posInfo m i) ∧ hashElem upd x m d [i] = some x') := by
  obtain ⟨cs, o, vs, rfl, r, hv, e⟩ := h.rep
  have hd := h.usable.ok
  have hpath := hashElem_feed (upd := upd) hd r.le e [i] x
  constructor
  · intro hi
    refine ⟨by simp [hashIn, h.inBounds, Nat.not_lt.mpr hi], ?_⟩
    rw [hpath]
    have : (Val.node vs).at' [i] = none := by
      simp [Val.at', List.getElem?_eq_none (show vs.length ≤ i by rw [hv.1]; exact hi)]
    unfold posFeed
    rw [this]
    cases d.typeAt [i] <;> rfl
  · intro hi
    have hvi := List.getElem?_eq_getElem (l := vs) (i := i) (by rw [hv.1]; exact hi)
    have hpi := posInfo_eq hd h.cont r hi
    obtain ⟨t, q1, q2, q3⟩ := hashCont_elt (upd := upd) hd h.cont r.le e hvi (hashData upd) x
    have hil : i < vs.length := by rw [hv.1]; exact hi
    have hty' := tyAtNoData_pos hd h.cont r.countOk hi
    have htt : (posOf d cs.length i).ty = t := by
      unfold tyAtNoData at hty'
      rw [h.cont] at hty'
      simp only [Bool.not_true, Bool.false_eq_true, if_false] at hty'
      split at hty'
      · cases hty'
      · rw [q1] at hty'; exact (Option.some.inj hty').symm
    have hty : d.typeAt [i] = some t := by simp [typeAt, hty', htt]
    have hat : (Val.node vs).at' [i] = some vs[i] := by simp [Val.at', hvi]
    have hc : hashCont upd (hashData upd) x d m i = some (hashBytes upd x (posFeed d (.node vs) [i])) := by
      simp only [posFeed, hty, hat]
      rcases q3 with ⟨g1, g2⟩ | ⟨v, g1, g2⟩ | ⟨p, s, g1, g2, g3⟩
      · rw [g2, g1, feed_null]; rfl
      · rw [g2, g1, feed_bits]
      · rw [g3]; exact hashData_feed q2 g1 g2 x
    refine ⟨_, ?_, hpath⟩
    have hge : ¬ i ≥ cs.length := by omega
    simp only [hashCont, h.cont, h.count, hpi, if_neg hge, Bool.not_true, Bool.false_eq_true, if_false, Option.bind_eq_bind,
      Option.bind_some, Option.pure_def] at hc
    simp only [hashIn, h.inBounds, hi, decide_true, hcur.eq, hpi, Bool.not_true, Bool.false_eq_true, if_false, Option.bind_eq_bind,
      Option.bind_some, Option.pure_def]
    obtain ⟨b, hb⟩ : ∃ b, d.isNullAt m (posOf d cs.length i) = some b := by
      cases hh : d.isNullAt m (posOf d cs.length i) with
      | none => rw [hh] at hc; cases hc
      | some b => exact ⟨b, rfl⟩
    rw [hb] at hc ⊢
    simp only [Option.bind_some] at hc ⊢
    cases b with
    | true => simp only [if_true, Option.some.injEq] at hc ⊢; rw [← hc]
    | false =>
      simp only [Bool.false_eq_true, if_false] at hc ⊢
      cases hp : d.ptrAt m (posOf d cs.length i) with
      | none => rw [hp] at hc; cases hc
      | some w =>
        rw [hp] at hc
        cases w with
        | none => cases hc
        | some w =>
          simp only [Option.bind_some] at hc ⊢
          split
          · rename_i hbit
            rw [if_pos hbit] at hc
            cases hg : getBits m d.offBitmap (posOf d cs.length i).off (posOf d cs.length i).ty.hdr.size with
            | none => rw [hg] at hc; cases hc
            | some w => rw [hg] at hc; simp only [Option.bind_some, Option.some.injEq] at hc ⊢; rw [hc]
          · rename_i hbit
            rw [if_neg hbit] at hc
            rw [hc]; rfl

/-- C67. An element within bounds has the type and position that its index says; it is NULL for
`is_containee_null_in_container` if and only if it reads as NULL; `get_datum_to_containee_from_container`
reads it as it is read through its path. -/
theorem C67_element {d : Dti} {m : Bytes} {S n i : Nat} {c : Option PosInfo} (h : Holds d m S n) (hi : i < n)
    (hcur : Current d m i c) :
    ∃ p b x, d.posInfo m i = some p ∧ d.typeAt [i] = some p.ty ∧ d.typeIn m i = some (some p.ty) ∧
      d.posIn m i c = some (true, some p) ∧
      d.isNullIn m i c = some (b, some p) ∧ (b = true ↔ d.getElem m [i] = some (some .null)) ∧
      d.getIn m i c = some (some x, some p) ∧ d.getElem m [i] = some (some x) := by
  obtain ⟨cs, o, vs, rfl, r, hv, e⟩ := h.rep
  have hd := h.usable.ok
  have hp := posInfo_eq hd h.cont r hi
  have hb := h.inBounds (i := i)
  have hci := List.getElem?_eq_getElem hi
  have hvi := List.getElem?_eq_getElem (l := vs) (i := i) (by rw [hv.1]; exact hi)
  obtain ⟨hn, _⟩ := isNullAt_eq hd h.cont r hci
  have hval := hv.2 i _ _ hci hvi
  have g := getElem_ok [i] hd h.tuple.1 e
  unfold GetOk at g
  simp only [Val.at', hvi] at g
  have hge : d.getElem m [i] = d.getAt m (posOf d cs.length i) := by
    simp only [Dti.getElem, getCont, h.cont, h.count, Bool.not_true, Bool.false_eq_true, if_false, Option.bind_eq_bind,
      Option.bind_some, ge_iff_le, Nat.not_le.mpr hi, getContUnsafe, hp]
  have hnull : cs[i] = .null ↔ vs[i]'(by rw [hv.1]; exact hi) = .null := by
    generalize vs[i]'_ = y at hval
    have hel := r.elt i _ hci
    generalize cs[i] = c0 at hval hel
    constructor
    · rintro rfl; exact hval
    · rintro rfl
      cases c0 with
      | null => rfl
      | bits v => cases hval
      | fixd b => exact absurd rfl (enc_not_null hval)
      | var b => exact absurd rfl (enc_not_null hval)
  have hx : ∃ x, d.getElem m [i] = some (some x) ∧ (vs[i]'(by rw [hv.1]; exact hi) = .null ↔ x = .null) := by
    rcases g with ⟨g1, g2⟩ | ⟨t, dt, g1, g2, g3⟩
    · exact ⟨_, g2, by simp [g1]⟩
    · refine ⟨dt, g2, ?_⟩
      constructor
      · intro hh; rw [hh] at g3; exact g3
      · rintro rfl; exact shows_null g3
  obtain ⟨x, hx1, hx2⟩ := hx
  refine ⟨posOf d cs.length i, decide (cs[i] = .null), x, hp, ?_, ?_, ?_, ?_, ?_, ?_, hx1⟩
  · simp only [typeAt, tyAtNoData_pos hd h.cont r.countOk hi, Option.bind_eq_bind, Option.bind_some]
  · have ht := tyAtNoData_pos hd h.cont r.countOk hi
    have : d.tyAt i = some (posOf d cs.length i).ty := by
      unfold tyAtNoData at ht
      split at ht
      · cases ht
      · split at ht
        · cases ht
        · exact ht
    simp [typeIn, hb, hi, this]
  · simp [posIn, hb, hi, hcur.eq, hp]
  · simp [isNullIn, hb, hi, hcur.eq, hp, hn]
  · simp [hx1, hnull, hx2]
  · rw [hge] at hx1
    simp [getIn, hb, hi, hcur.eq, hp, hx1]

/-- What the pointer and size functions say about an element. -/
theorem ptr_size {d : Dti} {m : Bytes} {S n i : Nat} {c : Option PosInfo} (h : Holds d m S n) (hi : i < n)
    (hcur : Current d m i c) {cs : List Elt} {o : Nat → Nat} (hn : cs.length = n) (r : CRep d m S cs o) :
    ∃ e, cs[i]? = some e ∧ d.posInfo m i = some (posOf d n i) ∧
      d.ptrIn m i c = some (eltPtr d (posOf d n i) (o i) e, some (posOf d n i)) ∧
      d.sizeIn m i c = some (if (posOf d n i).ty.isBit then 0 else if (posOf d n i).ty.isVar then e.hlen
        else (posOf d n i).ty.hdr.size, some (posOf d n i)) := by
  subst hn
  have hd := h.usable.ok
  have hp := posInfo_eq hd h.cont r hi
  have hb := h.inBounds (i := i)
  have hci := List.getElem?_eq_getElem hi
  have hptr := ptrAt_eq hd h.cont r hci
  refine ⟨_, hci, hp, ?_, ?_⟩
  · simp [ptrIn, hb, hi, hcur.eq, hp, hptr]
  · simp only [sizeIn, hb, hi, hcur.eq, hp, sizeAt, hptr, Option.bind_eq_bind, Option.bind_some, decide_true,
      Bool.not_true, Bool.false_eq_true, if_false]
    cases hbit : (posOf d cs.length i).ty.isBit with
    | true => simp
    | false =>
      cases hvar : (posOf d cs.length i).ty.isVar with
      | false => simp
      | true =>
        have hel := r.elt i _ hci
        cases he : cs[i] with
        | null => simp [eltPtr, Elt.hlen]
        | bits v => rw [he] at hel; have := hel.1; rw [hbit] at this; cases this
        | fixd b => rw [he] at hel; have := hel.2.1; rw [hvar] at this; cases this
        | var b =>
          rw [he] at hci
          simp [eltPtr, Elt.hlen, elt_size r hci]

/-- C67. `get_pointer_to_containee_from_container` is NULL exactly for an element that reads as NULL.
For a bit field it is the bitmap and the size is 0. Any other element that is not NULL lies inside of
the container: at the pointer is a datum of the type of the element, of the size that
`get_size_of_containee_from_container` gives, and it is read as the element. The size of a fixed sized
element is that of its type even if it is NULL, the size of a variable sized one is then 0. -/
theorem C67_pointer {d t : Dti} {m : Bytes} {S n i : Nat} {c : Option PosInfo} (h : Holds d m S n) (hi : i < n)
    (hcur : Current d m i c) (ht : d.typeAt [i] = some t) :
    ∃ x sz, d.ptrIn m i c = some (x, d.posInfo m i) ∧ d.sizeIn m i c = some (sz, d.posInfo m i) ∧
      (x = none ↔ d.getElem m [i] = some (some .null)) ∧
      (t.isBit = true → sz = 0 ∧ (x = none ∨ x = some d.offBitmap)) ∧
      (t.isBit = false → t.isVar = false → sz = t.hdr.size) ∧
      (t.isVar = true → x = none → sz = 0) ∧
      (t.isBit = false → ∀ o, x = some o → d.offBitmap ≤ o ∧ o + sz ≤ S ∧ IsTuple t (m.drop o) sz ∧
        d.getElem m [i] = t.getDatum (m.drop o)) := by
  obtain ⟨p, b, y, k1, k2, k3, k4, k5, k6, k7, k8⟩ := C67_element h hi hcur
  obtain ⟨cs, o, vs, hlen, r, hv, e⟩ := h.rep
  obtain ⟨c0, hci, hp, h1, h2⟩ := ptr_size h hi hcur hlen r
  subst hlen
  rw [hp] at k1
  cases k1
  rw [ht] at k2
  cases k2
  have hd := h.usable.ok
  have hok := posOf_ok hd h.cont r.countOk hi
  have hel := r.elt i _ hci
  have hvi := List.getElem?_eq_getElem (l := vs) (i := i) (by rw [hv.1]; exact hi)
  have hval := hv.2 i _ _ hci hvi
  obtain ⟨hn, _⟩ := isNullAt_eq hd h.cont r hci
  have hbb := h.inBounds (i := i)
  have hb : b = decide (c0 = .null) := by
    simp [isNullIn, hbb, hi, hcur.eq, hp, hn] at k5
    exact k5.symm
  have hge : d.getElem m [i] = d.getAt m (posOf d cs.length i) := by
    simp only [Dti.getElem, getCont, h.cont, h.count, Bool.not_true, Bool.false_eq_true, if_false, Option.bind_eq_bind,
      Option.bind_some, ge_iff_le, Nat.not_le.mpr hi, getContUnsafe, hp]
  have hptr := ptrAt_eq hd h.cont r hci
  rw [hp]
  refine ⟨_, _, h1, h2, ?_, ?_, ?_, ?_, ?_⟩
  · rw [← k6, hb]
    cases c0 <;> simp [eltPtr]
  · intro hbit
    refine ⟨by simp [hbit], ?_⟩
    cases c0 with
    | null => left; rfl
    | bits v => right; rfl
    | fixd x => rw [hel.1] at hbit; cases hbit
    | var x => rw [isVar_not_bit hok hel.1] at hbit; cases hbit
  · intro hbit hvar; simp [hbit, hvar]
  · intro hvar hx
    cases c0 with
    | null => simp [Elt.hlen, hvar]
    | bits v => cases hx
    | fixd x => cases hx
    | var x => cases hx
  · intro hbit q hq
    rw [hge]
    have hbm := bitmap_le_fixedEnd hd h.cont r.countOk
    cases c0 with
    | null => cases hq
    | bits v => rw [hel.1] at hbit; cases hbit
    | fixd x =>
      cases hq
      obtain ⟨e1, e2, e3, e4⟩ := hel
      have hs := slot_ok hd h.cont r hi e1
      simp only [slot, e2, Bool.false_eq_true, if_false] at hs
      simp only [hbit, e2, Bool.false_eq_true, if_false]
      have hsz := (enc_size hok hval).2.2.2.2.2 e2
      refine ⟨by omega, by omega, ⟨by simp; omega, vs[i]'(by rw [hv.1]; exact hi), ?_⟩, ?_⟩
      · rw [← e4] at hval
        exact hval
      · simp [getAt, hptr, eltPtr, hbit]
    | var x =>
      cases hq
      obtain ⟨e1, e2, e3, e4, e5, e6, e7⟩ := hel
      simp only [hbit, e1, Bool.false_eq_true, if_false, if_true, Elt.hlen]
      have := r.le
      refine ⟨by omega, by omega, ⟨by simp; omega, vs[i]'(by rw [hv.1]; exact hi), ?_⟩, ?_⟩
      · rw [← e5] at hval
        exact hval
      · simp [getAt, hptr, eltPtr, hbit]

/-- C67. Elements that are not bit fields do not overlap each other, nor the bitmap in front of
them. -/
theorem C67_disjoint {d : Dti} {m : Bytes} {S n i j oi oj zi zj bits : Nat} {pi pj : Option PosInfo} {ti tj : Dti}
    (h : Holds d m S n) (hij : i ≠ j) (hi : i < n) (hj : j < n)
    (ht : d.typeAt [i] = some ti) (hu : d.typeAt [j] = some tj) (hbi : ti.isBit = false) (hbj : tj.isBit = false)
    (h1 : d.ptrIn m i none = some (some oi, pi)) (h2 : d.sizeIn m i none = some (zi, pi))
    (h3 : d.ptrIn m j none = some (some oj, pj)) (h4 : d.sizeIn m j none = some (zj, pj))
    (hb : d.bitmapBits m = some bits) :
    (oi + zi ≤ oj ∨ oj + zj ≤ oi) ∧ d.offBitmap + (bits + 7) / 8 ≤ oi := by
  obtain ⟨cs, o, vs, rfl, r, hv, e⟩ := h.rep
  have hd := h.usable.ok
  have hc := h.cont
  obtain ⟨ci, a1, a2, a3, a4⟩ := ptr_size h hi (Or.inl rfl) rfl r
  obtain ⟨cj, b1, b2, b3, b4⟩ := ptr_size h hj (Or.inl rfl) rfl r
  have tyi := tyAtNoData_pos hd hc r.countOk hi
  have tyj := tyAtNoData_pos hd hc r.countOk hj
  simp only [typeAt, tyi, tyj, Option.bind_eq_bind, Option.bind_some, Option.some.injEq] at ht hu
  subst ht hu
  rw [h1] at a3; rw [h2] at a4; rw [h3] at b3; rw [h4] at b4
  simp only [hbi, Bool.false_eq_true, if_false, Option.some.injEq, Prod.mk.injEq] at a3 a4
  simp only [hbj, Bool.false_eq_true, if_false, Option.some.injEq, Prod.mk.injEq] at b3 b4
  have ea := r.elt i _ a1
  have eb := r.elt j _ b1
  have hlay := lay_of hd hc r.countOk
  have hoki := posOf_ok hd hc r.countOk hi
  have hokj := posOf_ok hd hc r.countOk hj
  have si := slot_ok hd hc r hi hbi
  have sj := slot_ok hd hc r hj hbj
  have hbits : bits = bitsOf d cs.length := by
    cases d with
    | prim => cases hc
    | str => cases hb; rfl
    | tup => cases hb; rfl
    | arr hh t =>
      simp only [bitmapBits, h.count, Option.bind_eq_bind, Option.bind_some] at hb
      simp only [bitsOf]
      split at hb <;> cases hb <;> simp_all
  have hbm := bitmap_le_fixedEnd hd hc r.countOk
  have hord : (posOf d cs.length i).off + slot d.w (posOf d cs.length i).ty ≤ (posOf d cs.length j).off ∨
      (posOf d cs.length j).off + slot d.w (posOf d cs.length j).ty ≤ (posOf d cs.length i).off := by
    rcases Nat.lt_or_gt_of_ne hij with hlt | hlt
    · left; exact (hlay.ord i j hlt hj).ff hbi hbj
    · right; exact (hlay.ord j i hlt hi).ff hbj hbi
  unfold bitmapBytes at *
  subst hbits
  cases ci with
  | null => cases a3.1
  | bits v => rw [ea.1] at hbi; cases hbi
  | fixd x =>
    have v1 := ea.2.1
    cases cj with
    | null => cases b3.1
    | bits v => rw [eb.1] at hbj; cases hbj
    | fixd y =>
      have v2 := eb.2.1
      simp only [eltPtr, Option.some.injEq, v1, v2, slot, Bool.false_eq_true, if_false] at *
      omega
    | var y =>
      obtain ⟨v2, f2, f3, f4, f5, f6, f7⟩ := eb
      simp only [eltPtr, Option.some.injEq, v1, v2, slot, Bool.false_eq_true, if_false, if_true, Elt.hlen] at *
      omega
  | var x =>
    obtain ⟨v1, g2, g3, g4, g5, g6, g7⟩ := ea
    cases cj with
    | null => cases b3.1
    | bits v => rw [eb.1] at hbj; cases hbj
    | fixd y =>
      have v2 := eb.2.1
      simp only [eltPtr, Option.some.injEq, v1, v2, slot, Bool.false_eq_true, if_false, if_true, Elt.hlen] at *
      omega
    | var y =>
      obtain ⟨v2, f2, f3, f4, f5, f6, f7⟩ := eb
      have := r.disj i j x y hij a1 b1
      simp only [eltPtr, Option.some.injEq, v1, v2, slot, if_true, Elt.hlen] at *
      omega

/-- The result of moving an element to the end is 0 if and only if nothing was done. -/
theorem moveEnd_flag {d : Dti} {m m' : Bytes} {i : Nat} {p : PosInfo} {q : Bool}
    (h : d.moveEnd m i p = some (m', q)) (hq : q = false) : m' = m := by
  subst hq
  unfold moveEnd at h
  split at h
  · cases h; rfl
  · cases hp : d.ptrAt m p with
    | none => simp [hp] at h
    | some x =>
      cases x with
      | none => simp [hp] at h; exact h.symm
      | some o =>
        simp only [hp, Option.bind_eq_bind, Option.bind_some, Option.bind_eq_some_iff] at h
        obtain ⟨cs, _, s, _, u, _, h⟩ := h
        split at h
        · cases h; rfl
        · simp only [Option.bind_eq_some_iff] at h
          obtain ⟨_, _, _, _, _, _, _, _, _, _, _, _, h⟩ := h
          cases h

/-- C67. `move_variable_sized_containee_to_end_of_container` answers 1 if and only if the element is
variable sized, not NULL, and does not end where the container ends. Afterwards a variable sized element
that is not NULL ends there. Either way the container has the same size and elements and what is behind
it is not touched; with the answer 0 nothing is. -/
theorem C67_move {d t : Dti} {m : Bytes} {S n i : Nat} {c : Option PosInfo} (h : Holds d m S n) (hi : i < n)
    (hcur : Current d m i c) (ht : d.typeAt [i] = some t) :
    ∃ m' q x sz, d.moveEndIn m i c = some (m', q, d.posInfo m i) ∧ Holds d m' S n ∧ m'.length = m.length ∧
      (∀ k, S ≤ k → m'[k]? = m[k]?) ∧ (∀ pa, Same (d.getElem m' pa) (d.getElem m pa)) ∧
      d.ptrIn m i c = some (x, d.posInfo m i) ∧ d.sizeIn m i c = some (sz, d.posInfo m i) ∧
      (q = true ↔ t.isVar = true ∧ ∃ o, x = some o ∧ o + sz ≠ S) ∧ (q = false → m' = m) ∧
      (t.isVar = true → x ≠ none → d.sizeIn m' i none = some (sz, d.posInfo m i) ∧
        d.ptrIn m' i none = some (some (S - sz), d.posInfo m i)) := by
  obtain ⟨cs, o, vs, rfl, r, hv, e⟩ := h.rep
  obtain ⟨c0, hci, hp, h1, h2⟩ := ptr_size h hi hcur rfl r
  have hd := h.usable.ok
  have hc := h.cont
  have hb := h.inBounds (i := i)
  have hptr := ptrAt_eq hd hc r hci
  have hok := posOf_ok hd hc r.countOk hi
  simp only [typeAt, tyAtNoData_pos hd hc r.countOk hi, Option.bind_eq_bind, Option.bind_some,
    Option.some.injEq] at ht
  subst ht
  have hel := r.elt i _ hci
  have hrun : ∀ m' q, d.moveEnd m i (posOf d cs.length i) = some (m', q) →
      d.moveEndIn m i c = some (m', q, some (posOf d cs.length i)) := by
    intro m' q hh
    simp [moveEndIn, hb, hi, hcur.eq, hp, hh]
  have hstay : (∀ b, c0 ≠ .var b) → d.moveEnd m i (posOf d cs.length i) = some (m, false) := by
    intro hnv
    unfold moveEnd
    cases hvar : (posOf d cs.length i).ty.isVar with
    | false => simp
    | true =>
      cases c0 with
      | null => simp [hptr, eltPtr]
      | bits v => have := hel.1; rw [isVar_not_bit hok hvar] at this; cases this
      | fixd b => have := hel.2.1; rw [hvar] at this; cases this
      | var b => exact absurd rfl (hnv b)
  rw [hp]
  by_cases hcv : ∃ b, c0 = .var b
  · obtain ⟨b, rfl⟩ := hcv
    obtain ⟨m', q, o', k1, k2, k3, k4, k5⟩ := moveEnd_ok hd hc r hci
    obtain ⟨hH, e'⟩ := Holds.of h.usable hc k2 hv
    obtain ⟨c1, hci', hp', h1', h2'⟩ := ptr_size hH hi (Or.inl rfl) rfl k2
    rw [hci] at hci'
    cases hci'
    obtain ⟨e1, e2, e3, e4, e5, e6, e7⟩ := hel
    have hbit := isVar_not_bit hok e1
    simp only [hbit, e1, Bool.false_eq_true, if_false, if_true, Elt.hlen] at h2 h2'
    refine ⟨m', q, _, _, hrun _ _ k1, hH, k4, k5, ?_, h1, h2, ?_, moveEnd_flag k1, ?_⟩
    · intro pa
      exact getElem_same hd hd (by rw [k4]; exact r.le) e' r.le e rfl rfl
    · simp only [eltPtr, e1, true_and, Option.some.injEq, exists_eq_left']
      have hdir : d.moveEnd m i (posOf d cs.length i) = some (m', q) → (q = true ↔ o i + b.length ≠ S) := by
        intro hh
        have hlim := r.lt_lim hd hc
        unfold lim at hlim
        unfold moveEnd at hh
        simp only [e1, Bool.not_true, Bool.false_eq_true, if_false, hptr, eltPtr, Option.bind_eq_bind,
          Option.bind_some, elt_size r hci, getSize_eq hd hc r] at hh
        rw [u32_eq (by omega)] at hh
        simp only [Option.bind_some] at hh
        split at hh
        · rename_i hs
          cases hh
          simp [hs]
        · rename_i hs
          simp only [Option.bind_eq_some_iff] at hh
          obtain ⟨_, _, _, _, _, _, _, _, _, _, _, _, hh⟩ := hh
          cases hh
          simp [hs]
      exact hdir k1
    · intro _ _
      refine ⟨h2', ?_⟩
      rw [h1']
      simp only [eltPtr]
      have : o' i = S - b.length := by omega
      rw [this]
  · have hs := hstay (fun b hb => hcv ⟨b, hb⟩)
    refine ⟨m, false, _, _, hrun _ _ hs, h, rfl, fun _ _ => rfl, fun _ => Or.inl rfl, h1, h2, ?_, fun _ => rfl, ?_⟩
    · simp only [Bool.false_eq_true, false_iff, not_and, not_exists]
      intro hvar q hq
      cases c0 with
      | null => cases hq
      | bits v => have := hel.1; rw [isVar_not_bit hok hvar] at this; cases this
      | fixd b => have := hel.2.1; rw [hvar] at this; cases this
      | var b => exact absurd ⟨b, rfl⟩ hcv
    · intro hvar hne
      cases c0 with
      | null => exact absurd rfl hne
      | bits v => have := hel.1; rw [isVar_not_bit hok hvar] at this; cases this
      | fixd b => have := hel.2.1; rw [hvar] at this; cases this
      | var b => exact absurd ⟨b, rfl⟩ hcv

/-- C67. `set_containee_to_NULL_in_container` answers 1 if and only if the type of the element can be
NULL, and then the element reads as NULL, all other elements read as before, and the container is smaller
by the size of the element if that is variable sized. Otherwise nothing is changed. -/
theorem C67_set_null {d t : Dti} {m : Bytes} {S n i : Nat} {c : Option PosInfo} (h : Holds d m S n) (hi : i < n)
    (hcur : Current d m i c) (ht : d.typeAt [i] = some t) :
    ∃ m' q S' sz, d.setNullIn m i c = some (m', q, d.posInfo m i) ∧ (q = true ↔ t.isNullable = true) ∧
      Holds d m' S' n ∧ m'.length = m.length ∧ (∀ k, S ≤ k → m'[k]? = m[k]?) ∧ (q = false → m' = m) ∧
      d.sizeIn m i c = some (sz, d.posInfo m i) ∧ S' = (if q = true ∧ t.isVar = true then S - sz else S) ∧
      (q = true → d.getElem m' [i] = some (some .null) ∧
        ∀ j pa, j ≠ i → Same (d.getElem m' (j :: pa)) (d.getElem m (j :: pa))) := by
  obtain ⟨cs, o, vs, rfl, r, hv, e⟩ := h.rep
  obtain ⟨c0, hci, hp, h1, h2⟩ := ptr_size h hi hcur rfl r
  have hd := h.usable.ok
  have hc := h.cont
  have hb := h.inBounds (i := i)
  have hok := posOf_ok hd hc r.countOk hi
  simp only [typeAt, tyAtNoData_pos hd hc r.countOk hi, Option.bind_eq_bind, Option.bind_some,
    Option.some.injEq] at ht
  subst ht
  have hel := r.elt i _ hci
  obtain ⟨m', k1, k2, k3, k4, k5⟩ := setNull_ok hd hc r hci
  have hrun : d.setNullIn m i c = some (m', (posOf d cs.length i).ty.isNullable, some (posOf d cs.length i)) := by
    simp [setNullIn, hb, hi, hcur.eq, hp, k1]
  rw [hp]
  cases hn : (posOf d cs.length i).ty.isNullable with
  | false =>
    have := k4 hn
    subst this
    rw [hn] at hrun
    exact ⟨m', false, S, _, hrun, by simp, h, rfl, fun _ _ => rfl, fun _ => rfl, h2, by simp, by simp⟩
  | true =>
    rw [hn] at hrun
    obtain ⟨o', r'⟩ := k5 hn
    have hv' : EVals d (cs.set i .null) (vs.set i .null) := by
      refine ⟨by simp [hv.1], ?_⟩
      intro j c1 y hj1 hj2
      rw [List.length_set]
      by_cases hji : j = i
      · subst hji
        rw [List.getElem?_set_self hi] at hj1
        rw [List.getElem?_set_self (by rw [hv.1]; exact hi)] at hj2
        cases hj1; cases hj2
        rfl
      · rw [List.getElem?_set_ne (Ne.symm hji)] at hj1 hj2
        exact hv.2 j _ _ hj1 hj2
    obtain ⟨hH, e'⟩ := Holds.of h.usable hc r' hv'
    rw [List.length_set] at hH
    refine ⟨m', true, S - c0.hlen, _, hrun, by simp, hH, k2, k3, by simp, h2, ?_, ?_⟩
    · cases hvar : (posOf d cs.length i).ty.isVar with
      | false =>
        have : c0.hlen = 0 := by
          cases c0 with
          | var b => have := hel.1; rw [hvar] at this; cases this
          | _ => rfl
        simp [this]
      | true => simp [isVar_not_bit hok hvar]
    · intro _
      constructor
      · have g := getElem_ok [i] hd hH.tuple.1 e'
        unfold GetOk at g
        have : (vs.set i .null)[i]? = some Val.null := List.getElem?_set_self (by rw [hv.1]; exact hi)
        simp only [Val.at', this] at g
        rcases g with g | ⟨t, dt, g1, g2, g3⟩
        · exact g.2
        · rw [g2]; exact congrArg (fun x => some (some x)) g3
      · intro j pa hji
        refine getElem_same hd hd hH.tuple.1 e' r.le e rfl ?_
        simp only [Val.at', List.getElem?_set_ne (Ne.symm hji)]

/-- C67. Reading and setting an element through the functions on containees is reading and setting it
through its path. -/
theorem C67_same_as_path {d : Dti} {m : Bytes} {S n i : Nat} {c : Option PosInfo} (h : Holds d m S n)
    (hcur : Current d m i c) (inc : Nat) (v : Datum) :
    (d.getIn m i c).map (·.1) = d.getElem m [i] ∧ (d.canSetIn m i inc v c).map (·.1) = d.canSetElem m inc v [i] ∧
      (i < n → (d.setIn m i inc v c).map (fun x => (x.1, x.2.1)) = d.setElem m [i] v inc) := by
  have hb := h.inBounds (i := i)
  obtain ⟨cs, o, vs, rfl, r, hv, e⟩ := h.rep
  by_cases hi : i < cs.length
  · have hp := posInfo_eq h.usable.ok h.cont r hi
    have ht := tyAtNoData_pos h.usable.ok h.cont r.countOk hi
    simp only [getIn, canSetIn, setIn, hb, hcur.eq, hp, hi, Dti.getElem, canSetElem, setElem, setElemI, typeAt, ht, getCont,
      canSetCont, setCont, h.cont, h.count, getContUnsafe, canSetContUnsafe, setContUnsafe, Option.bind_eq_bind,
      Option.bind_some, decide_true, Bool.not_true, Bool.false_eq_true, if_false, ge_iff_le, Nat.not_le.mpr hi]
    refine ⟨?_, ?_, fun _ => ?_⟩
    · cases d.getAt m (posOf d cs.length i) <;> rfl
    · cases d.canSetAt m (posOf d cs.length i) inc v <;> rfl
    · cases d.setAt m i (posOf d cs.length i) inc v <;> rfl
  · simp [getIn, canSetIn, hb, hi, Dti.getElem, canSetElem, getCont, canSetCont, h.cont, h.count, Nat.not_lt.mp hi]

/-- C67. Expanding a container and discarding elements of it are the same functions on the path of no
steps, of which C37 to C41 speak; a container whose number of elements is fixed refuses all of them and stays
as it is. -/
theorem C67_slots (d : Dti) (m : Bytes) (index slots inc : Nat) :
    d.canExpand m index slots inc = d.canExpandElem m [] index slots inc ∧
    d.expand m index slots inc = d.expandElem m [] index slots inc ∧
    d.canDiscard m index slots = d.canDiscardElem m [] index slots ∧
    d.discard m index slots = d.discardElem m [] index slots ∧
    (d.isVarCount = false → d.canExpand m index slots inc = some false ∧ d.expand m index slots inc = some (m, false) ∧
      d.canDiscard m index slots = some false ∧ d.discard m index slots = some (m, false)) := by
  cases hv : d.isVarCount <;>
    simp [canExpandElem, expandElem, canDiscardElem, discardElem, canExpandElemI, expandElemI, canDiscardElemI,
      discardElemI, typeAt, canExpand, expand, canDiscard, Dti.discard, hv]

/-! ### Caching positions -/

/-- A call of one of the functions. -/
inductive Ask
  | type | pos | isNull | ptr | size | get
  | canSet (inc : Nat) (v : Datum)
  | move | setNull
  | set (inc : Nat) (v : Datum)
  | hash (upd : UInt64 → UInt8 → UInt64) (x : UInt64)

/-- An answer. -/
inductive Ans
  | type (t : Option Dti)
  | flag (b : Bool)
  | ptr (o : Option Nat)
  | num (n : Nat)
  | datum (v : Option Datum)
  | hash (x : UInt64)

/-- Make the call for element `i` with the cache `c`: the memory, the answer and the cache after it. -/
def Ask.run (d : Dti) (m : Bytes) (i : Nat) (c : Option PosInfo) : Ask → Option (Bytes × Ans × Option PosInfo)
  | .type => (d.typeIn m i).map fun x => (m, .type x, c)
  | .pos => (d.posIn m i c).map fun x => (m, .flag x.1, x.2)
  | .isNull => (d.isNullIn m i c).map fun x => (m, .flag x.1, x.2)
  | .ptr => (d.ptrIn m i c).map fun x => (m, .ptr x.1, x.2)
  | .size => (d.sizeIn m i c).map fun x => (m, .num x.1, x.2)
  | .get => (d.getIn m i c).map fun x => (m, .datum x.1, x.2)
  | .canSet inc v => (d.canSetIn m i inc v c).map fun x => (m, .flag x.1, x.2)
  | .move => (d.moveEndIn m i c).map fun x => (x.1, .flag x.2.1, x.2.2)
  | .setNull => (d.setNullIn m i c).map fun x => (x.1, .flag x.2.1, x.2.2)
  | .set inc v => (d.setIn m i inc v c).map fun x => (x.1, .flag x.2.1, x.2.2)
  | .hash upd y => (hashIn upd y d m i c).map fun x => (m, .hash x.1, x.2)

/-- Calls one after the other, with one cache per index that is kept from call to call. -/
def runKept (d : Dti) : Bytes → (Nat → Option PosInfo) → List (Nat × Ask) → Option (Bytes × List Ans)
  | m, _, [] => some (m, [])
  | m, k, (i, a) :: r => do
    let (m, x, c) ← a.run d m i (k i)
    let (m, xs) ← runKept d m (fun j => if j = i then c else k j) r
    pure (m, x :: xs)

/-- The same calls, each with an invalid cache. -/
def runAfresh (d : Dti) : Bytes → List (Nat × Ask) → Option (Bytes × List Ans)
  | m, [] => some (m, [])
  | m, (i, a) :: r => do
    let (m, x, _) ← a.run d m i none
    let (m, xs) ← runAfresh d m r
    pure (m, x :: xs)

/-- The datum that is given suits the element. -/
def Ask.Suits (d : Dti) (i : Nat) : Ask → Prop
  | .canSet _ v | .set _ v => ∀ t, d.typeAt [i] = some t → Accepts t v
  | _ => True

/-- One call with a current cache. -/
theorem ask_step {d : Dti} {m : Bytes} {S n i : Nat} {c : Option PosInfo} (h : Holds d m S n)
    (hroom : d.isVar = true → d.hdr.maxSize ≤ m.length) (a : Ask) (ha : a.Suits d i) (hcur : Current d m i c) :
    ∃ m' x c1 c2 S', a.run d m i c = some (m', x, c1) ∧ a.run d m i none = some (m', x, c2) ∧
      Holds d m' S' n ∧ m'.length = m.length ∧ Current d m' i c1 := by
  by_cases hi : n ≤ i
  · have ho := fun inc v => C67_outside (d := d) (m := m) (i := i) c inc v (Or.inr ⟨n, h.count, hi⟩)
    have ho' := fun inc v => C67_outside (d := d) (m := m) (i := i) none inc v (Or.inr ⟨n, h.count, hi⟩)
    obtain ⟨p1, p2, p3, p4, p5, p6, p7, p8, p9, p10⟩ := ho 0 .null
    obtain ⟨q1, q2, q3, q4, q5, q6, q7, q8, q9, q10⟩ := ho' 0 .null
    cases a with
    | type => exact ⟨m, _, _, _, S, by simp only [Ask.run, p1]; rfl, by simp only [Ask.run, q1]; rfl, h, rfl, hcur⟩
    | pos => exact ⟨m, _, _, _, S, by simp only [Ask.run, p2]; rfl, by simp only [Ask.run, q2]; rfl, h, rfl, hcur⟩
    | isNull => exact ⟨m, _, _, _, S, by simp only [Ask.run, p3]; rfl, by simp only [Ask.run, q3]; rfl, h, rfl, hcur⟩
    | ptr => exact ⟨m, _, _, _, S, by simp only [Ask.run, p4]; rfl, by simp only [Ask.run, q4]; rfl, h, rfl, hcur⟩
    | size => exact ⟨m, _, _, _, S, by simp only [Ask.run, p5]; rfl, by simp only [Ask.run, q5]; rfl, h, rfl, hcur⟩
    | get => exact ⟨m, _, _, _, S, by simp only [Ask.run, p6]; rfl, by simp only [Ask.run, q6]; rfl, h, rfl, hcur⟩
    | canSet inc v =>
      exact ⟨m, _, _, _, S, by simp only [Ask.run, (ho inc v).2.2.2.2.2.2.1]; rfl,
        by simp only [Ask.run, (ho' inc v).2.2.2.2.2.2.1]; rfl, h, rfl, hcur⟩
    | move => exact ⟨m, _, _, _, S, by simp only [Ask.run, p8]; rfl, by simp only [Ask.run, q8]; rfl, h, rfl, hcur⟩
    | setNull => exact ⟨m, _, _, _, S, by simp only [Ask.run, p9]; rfl, by simp only [Ask.run, q9]; rfl, h, rfl, hcur⟩
    | set inc v =>
      exact ⟨m, _, _, _, S, by simp only [Ask.run, (ho inc v).2.2.2.2.2.2.2.2.2]; rfl,
        by simp only [Ask.run, (ho' inc v).2.2.2.2.2.2.2.2.2]; rfl, h, rfl, hcur⟩
    | hash upd y =>
      exact ⟨m, _, _, _, S, by simp only [Ask.run, ((C67_hash upd h hcur y).1 hi).1]; rfl,
        by simp only [Ask.run, ((C67_hash upd h (.inl rfl) y).1 hi).1]; rfl, h, rfl, hcur⟩
  have hi : i < n := by omega
  obtain ⟨p, b, y, k1, k2, k3, k4, k5, k6, k7, k8⟩ := C67_element h hi hcur
  obtain ⟨p', b', y', l1, l2, l3, l4, l5, l6, l7, l8⟩ := C67_element h hi (Or.inl rfl)
  rw [k1] at l1
  cases l1
  have hcur2 : ∀ {m'}, d.getCount m' = some n → Current d m' i (some p) := by
    intro m' hm
    right
    rw [posInfo_congr (m := m) (by rw [hm, h.count]), k1]
  have hsame : d.cached m i c = d.cached m i none := by rw [hcur.eq]; rfl
  cases a with
  | type => exact ⟨m, _, _, _, S, by simp only [Ask.run, k3]; rfl, by simp only [Ask.run, k3]; rfl, h, rfl, hcur⟩
  | pos =>
    exact ⟨m, _, _, _, S, by simp only [Ask.run, k4]; rfl, by simp only [Ask.run, l4]; rfl, h, rfl, hcur2 h.count⟩
  | isNull =>
    have : b' = b := by
      cases b <;> cases b' <;> simp_all
    subst this
    exact ⟨m, _, _, _, S, by simp only [Ask.run, k5]; rfl, by simp only [Ask.run, l5]; rfl, h, rfl, hcur2 h.count⟩
  | ptr =>
    obtain ⟨x, sz, q1, q2, _⟩ := C67_pointer h hi hcur k2
    have q3 : d.ptrIn m i none = some (x, d.posInfo m i) := by
      rw [← q1]; simp only [ptrIn, hsame, h.inBounds, hi]; rfl
    rw [k1] at q1 q3
    exact ⟨m, _, _, _, S, by simp only [Ask.run, q1]; rfl, by simp only [Ask.run, q3]; rfl, h, rfl, hcur2 h.count⟩
  | size =>
    obtain ⟨x, sz, q1, q2, _⟩ := C67_pointer h hi hcur k2
    have q3 : d.sizeIn m i none = some (sz, d.posInfo m i) := by
      rw [← q2]; simp only [sizeIn, hsame, h.inBounds, hi]; rfl
    rw [k1] at q2 q3
    exact ⟨m, _, _, _, S, by simp only [Ask.run, q2]; rfl, by simp only [Ask.run, q3]; rfl, h, rfl, hcur2 h.count⟩
  | get =>
    have : y' = y := by rw [k8] at l8; cases l8; rfl
    subst this
    exact ⟨m, _, _, _, S, by simp only [Ask.run, k7]; rfl, by simp only [Ask.run, l7]; rfl, h, rfl, hcur2 h.count⟩
  | canSet inc v =>
    obtain ⟨cs, o, vs, rfl, r, hv, e⟩ := h.rep
    have hd := h.usable.ok
    have hci := List.getElem?_eq_getElem hi
    have hp := posInfo_eq hd h.cont r hi
    have hp' := hp
    rw [k1] at hp'
    cases hp'
    have hok := posOf_ok hd h.cont r.countOk hi
    obtain ⟨m', q, S', c', o', j1, j2, j3, j4, j5, j6, j7, j8, j9⟩ := setContUnsafe_ok (inc := inc) hd h.cont r hci
      ((ha _ k2).den hok) (by
        intro hvar
        have hvs := (var_hasSize hd h.cont r.countOk hi hvar).2
        have := hroom hvs
        have := r.mx hvs
        omega)
    have := j2 m o r
    simp only [canSetContUnsafe, hp, Option.bind_eq_bind, Option.bind_some] at this
    refine ⟨m, .flag q, some (posOf d cs.length i), some (posOf d cs.length i), S, ?_, ?_, h, rfl, hcur2 h.count⟩
    · simp [Ask.run, canSetIn, h.inBounds, hi, hcur.eq, hp, this]
    · simp [Ask.run, canSetIn, h.inBounds, hi, Dti.cached, hp, this]
  | move =>
    obtain ⟨m', q, x, sz, q1, q2, q3, q4, _⟩ := C67_move h hi hcur k2
    have q5 : d.moveEndIn m i none = some (m', q, d.posInfo m i) := by
      rw [← q1]; simp only [moveEndIn, hsame, h.inBounds, hi]; rfl
    rw [k1] at q1 q5
    exact ⟨m', _, _, _, S, by simp only [Ask.run, q1]; rfl, by simp only [Ask.run, q5]; rfl, q2, q3, hcur2 q2.count⟩
  | setNull =>
    obtain ⟨m', q, S', sz, q1, _, q2, q3, _⟩ := C67_set_null h hi hcur k2
    have q5 : d.setNullIn m i none = some (m', q, d.posInfo m i) := by
      rw [← q1]; simp only [setNullIn, hsame, h.inBounds, hi]; rfl
    rw [k1] at q1 q5
    exact ⟨m', _, _, _, S', by simp only [Ask.run, q1]; rfl, by simp only [Ask.run, q5]; rfl, q2, q3, hcur2 q2.count⟩
  | set inc v =>
    obtain ⟨cs, o, vs, rfl, r, hv, e⟩ := h.rep
    have hd := h.usable.ok
    have hci := List.getElem?_eq_getElem hi
    have hvi := List.getElem?_eq_getElem (l := vs) (i := i) (by rw [hv.1]; exact hi)
    have hp := posInfo_eq hd h.cont r hi
    have hp' := hp
    rw [k1] at hp'
    cases hp'
    have hok := posOf_ok hd h.cont r.countOk hi
    obtain ⟨m', q, S', c', o', j1, j2, j3, j4, j5, j6, j7, j8, j9⟩ := setContUnsafe_ok (inc := inc) hd h.cont r hci
      ((ha _ k2).den hok) (by
        intro hvar
        have hvs := (var_hasSize hd h.cont r.countOk hi hvar).2
        have := hroom hvs
        have := r.mx hvs
        omega)
    simp only [setContUnsafe, hp, Option.bind_eq_bind, Option.bind_some] at j1
    have hnew : ∃ y, EVal (posOf d cs.length i).ty c' y := by
      cases q with
      | true => obtain ⟨y, hy, _⟩ := j9 rfl; exact ⟨y, hy⟩
      | false => rw [(j7 rfl).2]; exact ⟨_, hv.2 i _ _ hci hvi⟩
    obtain ⟨y2, hy2⟩ := hnew
    have hv' : EVals d (cs.set i c') (vs.set i y2) := by
      refine ⟨by simp [hv.1], ?_⟩
      intro j c1 z hj1 hj2
      rw [List.length_set]
      by_cases hji : j = i
      · subst hji
        rw [List.getElem?_set_self hi] at hj1
        rw [List.getElem?_set_self (by rw [hv.1]; exact hi)] at hj2
        cases hj1; cases hj2
        exact hy2
      · rw [List.getElem?_set_ne (Ne.symm hji)] at hj1 hj2
        exact hv.2 j _ _ hj1 hj2
    obtain ⟨hH, e'⟩ := Holds.of h.usable h.cont j4 hv'
    rw [List.length_set] at hH
    refine ⟨m', .flag q, some (posOf d cs.length i), some (posOf d cs.length i), S', ?_, ?_, hH, j3, hcur2 hH.count⟩
    · simp [Ask.run, setIn, h.inBounds, hi, hcur.eq, hp, j1]
    · simp [Ask.run, setIn, h.inBounds, hi, Dti.cached, hp, j1]
  | hash upd y =>
    obtain ⟨x1, q1, q2⟩ := (C67_hash upd h hcur y).2 hi
    obtain ⟨x2, q3, q4⟩ := (C67_hash upd h (.inl rfl) y).2 hi
    rw [q2] at q4
    cases q4
    rw [k1] at q1 q3
    exact ⟨m, _, _, _, S, by simp only [Ask.run, q1]; rfl, by simp only [Ask.run, q3]; rfl, h, rfl, hcur2 h.count⟩

/-- C67. Keeping the position of every element from its first use on does not change anything: any
sequence of calls gives the same answers and the same memory as if every call computed the position anew.
No call reads or writes outside of the memory. -/
theorem C67_kept_positions {d : Dti} {m : Bytes} {S n : Nat} (h : Holds d m S n)
    (hroom : d.isVar = true → d.hdr.maxSize ≤ m.length) (k : Nat → Option PosInfo) (hk : ∀ i, Current d m i (k i))
    (l : List (Nat × Ask)) (hl : ∀ i a, (i, a) ∈ l → a.Suits d i) :
    ∃ m' xs S', runKept d m k l = some (m', xs) ∧ runAfresh d m l = some (m', xs) ∧ Holds d m' S' n := by
  induction l generalizing m S k with
  | nil => exact ⟨m, [], S, rfl, rfl, h⟩
  | cons x r ih =>
    obtain ⟨i, a⟩ := x
    obtain ⟨m1, x, c1, c2, S1, h1, h2, h3, h4, h5⟩ := ask_step h hroom a (hl i a (by simp)) (hk i)
    have hk1 : ∀ j, Current d m1 j (if j = i then c1 else k j) := by
      intro j
      by_cases hj : j = i
      · subst hj; simpa using h5
      · simp only [hj, if_false]
        rcases hk j with hh | hh
        · exact Or.inl hh
        · right
          rw [hh, posInfo_congr (m := m) (m' := m1) (by rw [h3.count, h.count])]
    obtain ⟨m2, xs, S2, g1, g2, g3⟩ := ih h3 (by rw [h4]; exact hroom) _ hk1 (fun j b hb => hl j b (by simp [hb]))
    refine ⟨m2, x :: xs, S2, ?_, ?_, g3⟩
    · simp only [runKept, h1, Option.bind_eq_bind, Option.bind_some, g1]; rfl
    · simp only [runAfresh, h2, Option.bind_eq_bind, Option.bind_some, g2]; rfl

/-- C67. A position kept across a change of the element count: it is still the right one unless the
elements are fixed sized, nullable and not bit fields and the number of bytes of the bitmap is not the
same any more. -/
theorem C67_stale {d : Dti} {m m' : Bytes} {S S' n n' i : Nat} (h : Holds d m S n) (h' : Holds d m' S' n')
    (hi : i < n) (hi' : i < n') :
    d.posInfo m i = d.posInfo m' i ↔
      ¬ ∃ c, (∃ hh, d = .arr hh c) ∧ c.isBit = false ∧ c.isVar = false ∧ c.isNullable = true ∧
        (n + 7) / 8 ≠ (n' + 7) / 8 := by
  obtain ⟨cs, o, vs, rfl, r, -, -⟩ := h.rep
  obtain ⟨cs', o', vs', rfl, r', -, -⟩ := h'.rep
  rw [posInfo_eq h.usable.ok h.cont r hi, posInfo_eq h.usable.ok h.cont r' hi', Option.some.injEq]
  cases d with
  | prim => exact absurd h.cont (by simp [isCont])
  | str b hh => simp [posOf]
  | tup hh fs => simp [posOf]
  | arr hh c =>
    have hiff : (∃ c1, (∃ h1, Dti.arr hh c = .arr h1 c1) ∧ c1.isBit = false ∧ c1.isVar = false ∧ c1.isNullable = true ∧
        (cs.length + 7) / 8 ≠ (cs'.length + 7) / 8) ↔
        (c.isBit = false ∧ c.isVar = false ∧ c.isNullable = true ∧ (cs.length + 7) / 8 ≠ (cs'.length + 7) / 8) := by
      constructor
      · rintro ⟨c1, ⟨h1, hh1⟩, hr⟩
        cases hh1
        exact hr
      · intro hr; exact ⟨c, ⟨hh, rfl⟩, hr⟩
    rw [hiff]
    by_cases hb : c.isBit = true
    · simp [posOf, hb]
    · have hb : c.isBit = false := by simpa using hb
      by_cases hn : c.needsValid = true
      · have h1 : c.isVar = false ∧ c.isNullable = true := by
          simp only [needsValid, Bool.and_eq_true, Bool.not_eq_eq_eq_not, Bool.not_true] at hn
          simp [isNullable, hn]
        simp only [posOf, hb, hn, h1, bitmapBytes, Bool.toNat_true, Nat.mul_one, Bool.false_eq_true, if_false, true_and,
          PosInfo.mk.injEq, and_true, ne_eq, Classical.not_not]
        omega
      · have hn : c.needsValid = false := by simpa using hn
        have h1 : ¬ (c.isVar = false ∧ c.isNullable = true) := by
          rintro ⟨h1, h2⟩
          simp [needsValid, isNullable, h1] at hn h2
          rw [hn] at h2; cases h2
        simp only [posOf, hb, hn, Bool.toNat_false, Nat.mul_zero, Bool.false_eq_true, if_false, true_iff]
        rintro ⟨_, h2, h3, _⟩
        exact h1 ⟨h2, h3⟩

/-- An array of nullable integers of 2 bytes, and memory with eight of them, the first of them 5 and the
others NULL, and room for more. -/
def exNums : Dti := .arr { isFinal := true, isVar := true, varCount := true, maxSize := 40, size := 1 }
  (.prim .uint { isFinal := true, nullable := true, size := 2 })

def exNumsMem : Bytes := [8, 1, 5, 0] ++ List.replicate 40 0

/-- C67. The condition in `C67_stale` is real: after an expansion by one element the position of the
first element that was kept from before is off by the byte that the bitmap got longer, and the element is
not read as it is. -/
theorem C67_stale_misreads : ∃ p m', exNums.posIn exNumsMem 0 none = some (true, some p) ∧
    (exNums.getIn exNumsMem 0 (some p)).map (·.1) = some (some (.uint 5)) ∧
    exNums.expand exNumsMem 8 1 10 = some (m', true) ∧
    (exNums.getIn m' 0 none).map (·.1) = some (some (.uint 5)) ∧
    (exNums.getIn m' 0 (some p)).map (·.1) = some (some (.uint (5 * 256))) := by
  refine ⟨⟨2, 0, .prim .uint { isFinal := true, nullable := true, size := 2 }⟩, _, rfl, by decide +kernel, rfl, ?_, ?_⟩ <;>
    decide +kernel

theorem exNums_usable : Usable exNums :=
  ⟨.arr { varCount := true, maxSize := 40 } (.prim .uint { nullable := true, size := 2 }),
    .arr _ _ rfl (.prim _ _ rfl), rfl, .arr _ _ (.prim _ _) (by decide) (by decide)⟩

theorem exNums_tuple : IsTuple exNums exNumsMem 18 := by
  have h0 : IsTuple exNums ([0] ++ List.replicate 43 0) 1 := ⟨by decide, min_enc exNums_usable.ok rfl⟩
  obtain ⟨v, e0⟩ := h0.2
  have ga : GrowArgs exNums ([0] ++ List.replicate 43 0) 1 [] 8 20 := by
    refine ⟨exNums_usable, h0, ?_, by decide⟩
    intro t n h1 h2 h3
    cases h1
    have : (0 : Nat) = n := by
      have h4 : exNums.elemCount ([0] ++ List.replicate 43 0) [] = some 0 := by decide +kernel
      rw [h4] at h3
      cases h3
      rfl
    subst this
    refine ⟨by decide +kernel, ?_⟩
    intro c hc hb
    cases hc
    cases hb
  obtain ⟨m1, q1, S1, v1, k1, _, k3, k4, k5, _⟩ := expandElem_main (index := 0) ga e0
  have e1 : exNums.expandElem ([0] ++ List.replicate 43 0) [] 0 8 20 = some ([8] ++ List.replicate 43 0, true) := by
    decide +kernel
  rw [e1] at k1
  cases k1
  have h1 : IsTuple exNums ([8] ++ List.replicate 43 0) S1 := ⟨k4, _, k5⟩
  have hs : S1 = 18 := by
    have := (h1.size exNums_usable.ok).1
    have h4 : exNums.getSize ([8] ++ List.replicate 43 0) = some 18 := by decide +kernel
    rw [h4] at this
    cases this
    rfl
  subst hs
  have sa : SetArgs exNums ([8] ++ List.replicate 43 0) 18 [0] (.uint 5) 0 := by
    refine ⟨exNums_usable, h1, ?_, by decide⟩
    intro t ht
    cases ht
    exact Or.inr (Or.inr ⟨5, rfl⟩)
  have e2 : exNums.setElem ([8] ++ List.replicate 43 0) [0] (.uint 5) 0 = some (exNumsMem, true) := by decide +kernel
  obtain ⟨S', z1, z2, _⟩ := C37_growth sa e2
  have h4 : exNums.getSize exNumsMem = some 18 := by decide +kernel
  rw [h4] at z1
  cases z1
  exact z2

theorem exNums_holds : Holds exNums exNumsMem 18 8 := ⟨exNums_usable, rfl, exNums_tuple, by decide +kernel⟩

theorem exMemArr_holds : Holds exFinal exMemArr 18 4 := ⟨exFinal_usable, rfl, exMemArr_tuple, by decide +kernel⟩

/-- The array in the tuple, and elements of the array of numbers. -/
example : Holds exFinal exMemArr 18 4 ∧ (∃ t, exFinal.typeAt [3] = some t ∧ t.isVar = true) ∧
    (exFinal.ptrIn exMemArr 3 none).map (·.1) = some (some 11) ∧ (exFinal.sizeIn exMemArr 3 none).map (·.1) = some 7 ∧
    (exFinal.isNullIn exMemArr 2 none).map (·.1) = some true ∧ (exFinal.sizeIn exMemArr 2 none).map (·.1) = some 0 :=
  ⟨exMemArr_holds, ⟨_, rfl, rfl⟩, by decide +kernel, by decide +kernel, by decide +kernel, by decide +kernel⟩

/-- A string set behind the array; moving the array behind it. -/
example : (exFinal.setElem exMemArr [2] (.bytes [97]) 20).bind (fun x => (exFinal.moveEndIn x.1 3 none).bind (fun y =>
    (exFinal.ptrIn x.1 3 none).bind (fun a => (exFinal.ptrIn y.1 3 none).map (fun b => (y.2.1, a.1, b.1))))) =
      some (true, some 11, some 13) := by decide +kernel

example : Holds exNums exNumsMem 18 8 ∧ (∃ t, exNums.typeAt [0] = some t ∧ t.isBit = false) ∧
    (exNums.ptrIn exNumsMem 0 none).map (·.1) = some (some 2) ∧ (exNums.sizeIn exNumsMem 1 none).map (·.1) = some 2 ∧
    (exNums.ptrIn exNumsMem 1 none).map (·.1) = some none ∧ exNums.bitmapBits exNumsMem = some 8 ∧
    (exNums.setNullIn exNumsMem 0 none).bind (fun x => (exNums.getIn x.1 0 x.2.2).map (fun y => (x.2.1, y.1))) =
      some (true, some .null) :=
  ⟨exNums_holds, ⟨_, rfl, rfl⟩, by decide +kernel, by decide +kernel, by decide +kernel, by decide +kernel, by decide +kernel⟩

/-- Calls on the array with kept positions. -/
example : Holds exNums exNumsMem 18 8 ∧ (exNums.isVar = true → exNums.hdr.maxSize ≤ exNumsMem.length) ∧
    (∀ i a, (i, a) ∈ [(0, Ask.get), (1, .set 0 (.uint 7)), (0, .setNull), (9, .get), (1, .get), (0, .get)] →
      a.Suits exNums i) := by
  refine ⟨exNums_holds, by decide, ?_⟩
  intro i a h
  simp only [List.mem_cons, Prod.mk.injEq, List.not_mem_nil, or_false] at h
  rcases h with ⟨rfl, rfl⟩ | ⟨rfl, rfl⟩ | ⟨rfl, rfl⟩ | ⟨rfl, rfl⟩ | ⟨rfl, rfl⟩ | ⟨rfl, rfl⟩ <;> try trivial
  intro t ht
  cases ht
  exact Or.inr (Or.inr ⟨7, rfl⟩)

/-- Nine numbers. -/
theorem exNums_nine : ∃ m', exNums.expandElem exNumsMem [] 8 1 10 = some (m', true) ∧ Holds exNums m' 21 9 := by
  obtain ⟨v, e0⟩ := exNums_tuple.2
  have ga : GrowArgs exNums exNumsMem 18 [] 1 10 := by
    refine ⟨exNums_usable, exNums_tuple, ?_, by decide⟩
    intro t n h1 h2 h3
    cases h1
    have h4 : exNums.elemCount exNumsMem [] = some 8 := by decide +kernel
    rw [h4] at h3
    cases h3
    refine ⟨by decide +kernel, ?_⟩
    intro c hc hb
    cases hc
    cases hb
  obtain ⟨m1, q1, S1, v1, k1, _, k3, k4, k5, _⟩ := expandElem_main (index := 8) ga e0
  have e1 : exNums.expandElem exNumsMem [] 8 1 10 = some ([9, 1, 0, 5] ++ List.replicate 40 0, true) := by decide +kernel
  rw [e1] at k1
  cases k1
  have h1 : IsTuple exNums ([9, 1, 0, 5] ++ List.replicate 40 0) S1 := ⟨k4, _, k5⟩
  exact ⟨_, e1, exNums_usable, rfl, tuple_of_size (h1.size exNums_usable.ok).1 h1 (by decide +kernel), by decide +kernel⟩

example : Holds exNums exNumsMem 18 8 ∧ (∃ m', Holds exNums m' 21 9) ∧ (8 + 7) / 8 ≠ (9 + 7) / 8 :=
  ⟨exNums_holds, (exNums_nine).imp fun _ h => h.2, by decide⟩

example : (exFinal.isCont = false ∨ ∃ n, exFinal.getCount exMemArr = some n ∧ n ≤ 4) ∧
    (u8.isCont = false ∨ ∃ n, u8.getCount [] = some n ∧ n ≤ 0) :=
  ⟨Or.inr ⟨4, by decide +kernel, by decide⟩, Or.inl rfl⟩

end Props
end TS
