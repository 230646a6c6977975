import Verif.ContPath
/-
Where the elements of a tuple lie, and where they go when one of them is changed.
-/
namespace TS
namespace Dti

theorem tyAtNoData_pos {d : Dti} {n i : Nat} (h : TyOk d) (hc : d.isCont = true) (hn : CountOk d n) (hi : i < n) :
    d.tyAtNoData i = some (posOf d n i).ty := by
  cases ht : d.tyAtNoData i with
  | some t => rw [tyAt_pos h hn hi ht]
  | none =>
    exfalso
    unfold tyAtNoData at ht
    simp only [hc, Bool.not_true, Bool.false_eq_true, if_false] at ht
    split at ht
    · rename_i hh
      simp at hh
      have := hn hh.1
      omega
    · cases h with
      | prim => simp [isCont] at hc
      | str => simp [tyAt] at ht
      | tup hh fs a1 a2 a3 a4 =>
        have hn : n = hh.count := hn rfl
        simp [tyAt] at ht
        omega
      | arr => simp [tyAt] at ht

/-- The element at `pa` inside of the data at the start of `m` is stored in bytes: it begins at
offset `a`, has `n` bytes and type `t`. -/
def Spot (d : Dti) (m : Bytes) : List Nat → Nat → Nat → Dti → Prop
  | [], a, n, t => a = 0 ∧ t = d ∧ d.getSize m = some n
  | i :: pa, a, n, t => d.isCont = true ∧ ∃ k p o b, d.getCount m = some k ∧ i < k ∧ d.posInfo m i = some p ∧
      p.ty.isBit = false ∧ d.ptrAt m p = some (some o) ∧ a = o + b ∧ Spot p.ty (m.drop o) pa b n t

section
variable {d : Dti} {m : Bytes} {S : Nat} {cs : List Elt} {o : Nat → Nat}

/-- Where an element of a container lies. -/
theorem kid_of {vs : List Val} (h : TyOk d) (hc : d.isCont = true) (r : CRep d m S cs o) (hv : EVals d cs vs) {i a : Nat}
    (hi : i < cs.length) (hb : (posOf d cs.length i).ty.isBit = false)
    (hp : d.ptrAt m (posOf d cs.length i) = some (some a)) :
    ∃ n y, (posOf d cs.length i).ty.getSize (m.drop a) = some n ∧ 1 ≤ n ∧ a + n ≤ S ∧ vs[i]? = some y ∧
      n ≤ (m.drop a).length ∧
      Enc (posOf d cs.length i).ty ((m.drop a).take n) y ∧
      d.offBitmap + bitmapBytes (bitsOf d cs.length) ≤ a ∧
      (((posOf d cs.length i).ty.isVar = false ∧ cs[i]? = some (.fixd ((m.drop a).take n)) ∧
          a = (posOf d cs.length i).off ∧ n = (posOf d cs.length i).ty.hdr.size ∧ a + n ≤ fixedEnd d cs.length) ∨
        ((posOf d cs.length i).ty.isVar = true ∧ cs[i]? = some (.var ((m.drop a).take n)) ∧
          a = o i ∧ fixedEnd d cs.length ≤ a)) := by
  have hci := List.getElem?_eq_getElem hi
  have hvi := List.getElem?_eq_getElem (l := vs) (i := i) (by rw [hv.1]; exact hi)
  have hx := hv.2 i _ _ hci hvi
  have hel := r.elt i _ hci
  have hpp := ptrAt_eq h hc r hci
  have hok := posOf_ok h hc r.countOk hi
  have hlay := lay_of h hc r.countOk
  have hfe := fixedEnd_le r
  have hle := r.le
  have hbm := bitmap_le_fixedEnd h hc r.countOk
  rw [hpp] at hp
  injection hp with hp
  generalize cs[i] = c at hx hel hp hci
  cases c with
  | null => cases hp
  | bits v => rw [hel.1] at hb; cases hb
  | fixd b =>
    injection hp with hp
    subst hp
    obtain ⟨e1, e2, e3, e4⟩ := hel
    have hs := slot_ok h hc r hi e1
    have hf := hlay.fx i hi e1
    simp only [slot, e2, Bool.false_eq_true, if_false] at hs hf
    have hsz := enc_size hok hx
    have hbl := hsz.2.2.2.2.2 e2
    have htk : (m.drop (posOf d cs.length i).off).take b.length = b := by rw [hbl]; exact e4
    refine ⟨b.length, _, getSize_at hsz.1 htk, hsz.2.1, by omega, hvi, by simp; omega, by rw [htk]; exact hx,
      hf.1, Or.inl ⟨e2, by rw [htk]; exact hci, rfl, hbl, by omega⟩⟩
  | var b =>
    injection hp with hp
    subst hp
    obtain ⟨e1, e2, e3, e4, e5, e6, e7⟩ := hel
    refine ⟨b.length, _, getSize_at e7 e5, e6, e4, hvi, by simp; omega, ?_, by omega, Or.inr ⟨e1, ?_, rfl, e3⟩⟩
    · rw [show (m.drop (o i)).take b.length = b from e5]; exact hx
    · rw [show (m.drop (o i)).take b.length = b from e5]; exact hci

/-- Two elements of a container do not overlap. -/
theorem kids_apart {vs : List Val} (h : TyOk d) (hc : d.isCont = true) (r : CRep d m S cs o) (hv : EVals d cs vs)
    {i j a b n k : Nat} (hi : i < cs.length) (hj : j < cs.length) (hij : i ≠ j)
    (hbi : (posOf d cs.length i).ty.isBit = false) (hbj : (posOf d cs.length j).ty.isBit = false)
    (hp : d.ptrAt m (posOf d cs.length i) = some (some a)) (hq : d.ptrAt m (posOf d cs.length j) = some (some b))
    (hn : (posOf d cs.length i).ty.getSize (m.drop a) = some n)
    (hk : (posOf d cs.length j).ty.getSize (m.drop b) = some k) : a + n ≤ b ∨ b + k ≤ a := by
  obtain ⟨n', y, a1, a2, a3, a4, a5, a6, a7, a8⟩ := kid_of h hc r hv hi hbi hp
  obtain ⟨k', z, b1, b2, b3, b4, b5, b6, b7, b8⟩ := kid_of h hc r hv hj hbj hq
  rw [a1] at hn; cases hn
  rw [b1] at hk; cases hk
  have hlay := lay_of h hc r.countOk
  rcases a8 with ⟨c1, c2, c3, c4, c5⟩ | ⟨c1, c2, c3, c4⟩
  · rcases b8 with ⟨e1, e2, e3, e4, e5⟩ | ⟨e1, e2, e3, e4⟩
    · have := slot_disj hlay hi hj (Ne.symm hij) hbi hbj
      simp only [slot, c1, e1, Bool.false_eq_true, if_false] at this
      omega
    · omega
  · rcases b8 with ⟨e1, e2, e3, e4, e5⟩ | ⟨e1, e2, e3, e4⟩
    · omega
    · have := r.disj i j _ _ hij c2 e2
      simp only [List.length_take] at this
      omega

end

/-- The step from a container to an element of it. -/
theorem spot_step {d : Dti} {m : Bytes} {S : Nat} {val : Val} {i a n : Nat} {pa : List Nat} {t : Dti} (h : TyOk d)
    (hS : S ≤ m.length) (e : Enc d (m.take S) val) (hs : Spot d m (i :: pa) a n t) :
    d.isCont = true ∧ ∃ cs o vs b c k, val = .node vs ∧ CRep d m S cs o ∧ EVals d cs vs ∧ i < cs.length ∧
      (posOf d cs.length i).ty.isBit = false ∧
      d.ptrAt m (posOf d cs.length i) = some (some b) ∧ a = b + c ∧
      (posOf d cs.length i).ty.getSize (m.drop b) = some k ∧ Spot (posOf d cs.length i).ty (m.drop b) pa c n t := by
  obtain ⟨hc, k, p, b, c, h1, h2, h3, h4, h5, h6, h7⟩ := hs
  obtain ⟨cs, o, vs, hv, r, hvs⟩ := crep_of_enc h hc hS e
  have hcnt := getCount_eq h hc r
  rw [h1] at hcnt; cases hcnt
  have hpi := posInfo_eq h hc r h2
  rw [h3] at hpi; cases hpi
  obtain ⟨n', y, a1, _⟩ := kid_of h hc r hvs h2 h4 h5
  exact ⟨hc, cs, o, vs, b, c, n', hv, r, hvs, h2, h4, h5, h6, a1, h7⟩

/-- An element lies inside of the tuple and is data of its type. -/
theorem spot_in (pa : List Nat) : ∀ {d : Dti} {m : Bytes} {S : Nat} {val : Val} {a n : Nat} {t : Dti}, TyOk d →
    S ≤ m.length → Enc d (m.take S) val → Spot d m pa a n t →
    TyOk t ∧ a + n ≤ S ∧ 1 ≤ n ∧ d.typeAt pa = some t ∧ t.getSize (m.drop a) = some n ∧
      ∃ y, Enc t ((m.drop a).take n) y := by
  induction pa with
  | nil =>
    intro d m S val a n t h hS e hs
    obtain ⟨rfl, rfl, h3⟩ := hs
    have hl : (m.take S).length = S := by simp; omega
    have hz := enc_size h e
    rw [hl] at hz
    have hg : t.getSize m = some S := by
      have := getSize_append (r := m.drop S) hz.1
      rwa [List.take_append_drop] at this
    rw [hg] at h3; cases h3
    exact ⟨h, by omega, hz.2.1, rfl, hg, val, e⟩
  | cons i pa ih =>
    intro d m S val a n t h hS e hs
    obtain ⟨hc, cs, o, vs, b, c, k, hv, r, hvs, h2, h4, h5, h6, h7, h8⟩ := spot_step h hS e hs
    obtain ⟨k', y, a1, a2, a3, a4, a5, a6, a7, a8⟩ := kid_of h hc r hvs h2 h4 h5
    rw [a1] at h7; cases h7
    obtain ⟨b1, b2, b3, b4, b5, b6⟩ := ih (posOf_ok h hc r.countOk h2) a5 a6 h8
    have hty := tyAtNoData_pos h hc r.countOk h2
    refine ⟨b1, by omega, b3, ?_, ?_, ?_⟩
    · simp only [typeAt, hty, Option.bind_eq_bind, Option.bind_some]; exact b4
    · rw [h6, ← List.drop_drop]; exact b5
    · rw [h6, ← List.drop_drop]; exact b6

/-- Elements at positions of which none is inside of the other do not overlap. -/
theorem spot_apart (pa : List Nat) : ∀ {pb : List Nat} {d : Dti} {m : Bytes} {S : Nat} {val : Val} {a n b k : Nat} {t u : Dti},
    TyOk d → S ≤ m.length → Enc d (m.take S) val → Spot d m pa a n t → Spot d m pb b k u →
    ¬ pa <+: pb → ¬ pb <+: pa → a + n ≤ b ∨ b + k ≤ a := by
  induction pa with
  | nil => intro pb d m S val a n b k t u _ _ _ _ _ h1; exact absurd List.nil_prefix h1
  | cons i pa ih =>
    intro pb d m S val a n b k t u h hS e hs hs2 hp1 hp2
    cases pb with
    | nil => exact absurd List.nil_prefix hp2
    | cons j pb =>
      obtain ⟨hc, cs, o, vs, x, c, l, hv, r, hvs, h2, h4, h5, h6, h7, h8⟩ := spot_step h hS e hs
      obtain ⟨_, k2, p2, x2, c2, g1, g2, g3, g4, g5, g6, g7⟩ := hs2
      have hcnt := getCount_eq h hc r
      rw [g1] at hcnt; cases hcnt
      have hpi := posInfo_eq h hc r g2
      rw [g3] at hpi; cases hpi
      obtain ⟨k', y, a1, a2, a3, a4, a5, a6, a7, a8⟩ := kid_of h hc r hvs h2 h4 h5
      obtain ⟨k2', y2, b1, b2, b3, b4, b5, b6, b7, b8⟩ := kid_of h hc r hvs g2 g4 g5
      have e1 := (spot_in pa (posOf_ok h hc r.countOk h2) a5 a6 h8).2.1
      have e2 := (spot_in pb (posOf_ok h hc r.countOk g2) b5 b6 g7).2.1
      by_cases hij : i = j
      · subst hij
        rw [g5] at h5; cases h5
        have := ih (posOf_ok h hc r.countOk h2) a5 a6 h8 g7 (fun hh => hp1 (by simpa using hh))
          (fun hh => hp2 (by simpa using hh))
        omega
      · have := kids_apart h hc r hvs h2 g2 hij h4 g4 h5 g5 a1 b1
        omega

/-- A position inside of an element is inside of its bytes, behind its bitmap. -/
theorem spot_under (pa : List Nat) : ∀ {pb : List Nat} {d : Dti} {m : Bytes} {S : Nat} {val : Val} {a n b k : Nat} {t u : Dti},
    TyOk d → S ≤ m.length → Enc d (m.take S) val → Spot d m pa a n t → Spot d m (pa ++ pb) b k u →
    a ≤ b ∧ b + k ≤ a + n ∧ Spot t (m.drop a) pb (b - a) k u := by
  induction pa with
  | nil =>
    intro pb d m S val a n b k t u h hS e hs hs2
    obtain ⟨_, q2, _, _, q5, _⟩ := spot_in [] h hS e hs
    obtain ⟨rfl, rfl, h3⟩ := hs
    rw [List.nil_append] at hs2
    have hl : (m.take S).length = S := by simp; omega
    have hz := enc_size h e
    rw [hl] at hz
    have hg : t.getSize m = some S := by
      have := getSize_append (r := m.drop S) hz.1
      rwa [List.take_append_drop] at this
    rw [hg] at h3; cases h3
    have := (spot_in pb h hS e hs2).2.1
    exact ⟨by omega, by omega, by simpa using hs2⟩
  | cons i pa ih =>
    intro pb d m S val a n b k t u h hS e hs hs2
    obtain ⟨hc, cs, o, vs, x, c, l, hv, r, hvs, h2, h4, h5, h6, h7, h8⟩ := spot_step h hS e hs
    rw [List.cons_append] at hs2
    obtain ⟨_, k2, p2, x2, c2, g1, g2, g3, g4, g5, g6, g7⟩ := hs2
    have hcnt := getCount_eq h hc r
    rw [g1] at hcnt; cases hcnt
    have hpi := posInfo_eq h hc r g2
    rw [g3] at hpi; cases hpi
    rw [g5] at h5; cases h5
    obtain ⟨k', y, a1, a2, a3, a4, a5, a6, a7, a8⟩ := kid_of h hc r hvs h2 h4 g5
    obtain ⟨q1, q2, q3⟩ := ih (posOf_ok h hc r.countOk h2) a5 a6 h8 g7
    refine ⟨by omega, by omega, ?_⟩
    rw [h6, ← List.drop_drop]
    rw [show b - (x + c) = c2 - c by omega]
    exact q3

/-! ### Where the elements go when one of them is changed -/

/-- Where element `i` of the container at the start of `m` lies, its size and its type, if it is
stored in bytes. -/
def kid (d : Dti) (m : Bytes) (i : Nat) : Option (Nat × Nat × Dti) :=
  if !d.isCont then none
  else do
    let k ← d.getCount m
    if i ≥ k then none
    else do
      let p ← d.posInfo m i
      if p.ty.isBit then none
      else do
        let a ← ← d.ptrAt m p
        let n ← p.ty.getSize (m.drop a)
        some (a, n, p.ty)

/-- Where the byte at offset `x` of the data at the start of `m` goes when the element at `pa`, of
variable size, is changed: the element on the way to it goes to the end of every container, those
behind it move down by its size. -/
def goes (d : Dti) (m : Bytes) : List Nat → Nat → Nat
  | [], x => x
  | i :: pa, x =>
    match d.kid m i, d.getSize m with
    | some (a, n, t), some s =>
      if x < a then x else if a + n ≤ x then x - n else s - n + goes t (m.drop a) pa (x - a)
    | _, _ => x

theorem kid_eq {d : Dti} {m : Bytes} {S : Nat} {cs : List Elt} {o : Nat → Nat} {vs : List Val} (h : TyOk d)
    (hc : d.isCont = true) (r : CRep d m S cs o) (hv : EVals d cs vs) {i : Nat} {c : Elt} (hi : cs[i]? = some c) :
    d.kid m i = match c with
      | .fixd b => some ((posOf d cs.length i).off, b.length, (posOf d cs.length i).ty)
      | .var b => some (o i, b.length, (posOf d cs.length i).ty)
      | _ => none := by
  have hlt : i < cs.length := (List.getElem?_eq_some_iff.mp hi).1
  have hok := posOf_ok h hc r.countOk hlt
  have hel := r.elt i _ hi
  have hpp := ptrAt_eq h hc r hi
  unfold kid
  simp only [hc, Bool.not_true, Bool.false_eq_true, if_false, getCount_eq h hc r, posInfo_eq h hc r hlt,
    Option.bind_eq_bind, Option.bind_some, ge_iff_le, Nat.not_le.mpr hlt]
  have hkid : ∀ a, (posOf d cs.length i).ty.isBit = false → d.ptrAt m (posOf d cs.length i) = some (some a) →
      ∃ n, (posOf d cs.length i).ty.getSize (m.drop a) = some n ∧ n ≤ (m.drop a).length ∧
        (cs[i]? = some (.fixd ((m.drop a).take n)) ∨ cs[i]? = some (.var ((m.drop a).take n))) := by
    intro a hb hp
    obtain ⟨n, y, a1, a2, a3, a4, a5, a6, a7, a8⟩ := kid_of h hc r hv hlt hb hp
    refine ⟨n, a1, a5, ?_⟩
    rcases a8 with ⟨_, c2, _⟩ | ⟨_, c2, _⟩
    · exact Or.inl c2
    · exact Or.inr c2
  cases c with
  | null => 
    simp only [eltPtr] at hpp
    rw [hpp]
    split <;> rfl
  | bits v => rw [if_pos hel.1]
  | fixd b =>
    simp only [eltPtr] at hpp
    obtain ⟨n, g1, g2, g3⟩ := hkid _ hel.1 hpp
    rw [hi] at g3
    simp only [Option.some.injEq, Elt.fixd.injEq, reduceCtorEq, or_false] at g3
    have hn : b.length = n := by rw [g3]; simp only [List.length_take]; omega
    rw [hel.1, hpp]
    simp [g1, hn]
  | var b =>
    have hb := isVar_not_bit hok hel.1
    simp only [eltPtr] at hpp
    obtain ⟨n, g1, g2, g3⟩ := hkid _ hb hpp
    rw [hi] at g3
    simp only [Option.some.injEq, Elt.var.injEq, reduceCtorEq, false_or] at g3
    have hn : b.length = n := by rw [g3]; simp only [List.length_take]; omega
    rw [hb, hpp]
    simp [g1, hn]

theorem part_eq {m m2 : Bytes} {S b k : Nat} (h : m2.take S = m.take S) (hb : b + k ≤ S) :
    (m2.drop b).take k = (m.drop b).take k := by
  have := congrArg (fun l => (l.drop b).take k) h
  simpa [List.drop_take, List.take_take, Nat.min_eq_left (show k ≤ S - b by omega)] using this

/-- Where the elements are depends on the bytes of the tuple alone. -/
theorem spot_congr (pa : List Nat) : ∀ {d : Dti} {m m2 : Bytes} {S : Nat} {val : Val} {a n : Nat} {u : Dti}, TyOk d →
    S ≤ m.length → S ≤ m2.length → m2.take S = m.take S → Enc d (m.take S) val → Spot d m pa a n u → Spot d m2 pa a n u := by
  induction pa with
  | nil =>
    intro d m m2 S val a n u h hS hS2 he e hs
    obtain ⟨_, g2, _, _, g5, _⟩ := spot_in [] h hS e hs
    obtain ⟨rfl, rfl, h3⟩ := hs
    have hl : (m.take S).length = S := by simp; omega
    have hz := (enc_size h e).1
    rw [hl] at hz
    have k1 := getSize_append (r := m.drop S) hz
    have k2 := getSize_append (r := m2.drop S) hz
    rw [← he, List.take_append_drop] at k2
    rw [List.take_append_drop] at k1
    rw [k1] at h3; cases h3
    exact ⟨rfl, rfl, k2⟩
  | cons i pa ih =>
    intro d m m2 S val a n u h hS hS2 he e hs
    obtain ⟨hc, cs, o, vs, b, c, k, hv, r, hvs, h2, h4, h5, h6, h7, h8⟩ := spot_step h hS e hs
    have r2 : CRep d m2 S cs o := by
      refine CRep.of_take h hc hS2 ?_
      rw [he]; exact r.take h hc
    obtain ⟨k', y, a1, a2, a3, a4, a5, a6, a7, a8⟩ := kid_of h hc r hvs h2 h4 h5
    rw [a1] at h7; cases h7
    have hpp := ptrAt_eq h hc r (List.getElem?_eq_getElem h2)
    have hpp2 := ptrAt_eq h hc r2 (List.getElem?_eq_getElem h2)
    rw [← hpp, h5] at hpp2
    refine ⟨hc, _, _, b, c, getCount_eq h hc r2, h2, posInfo_eq h hc r2 h2, h4, hpp2, h6, ?_⟩
    exact ih (posOf_ok h hc r.countOk h2) a5 (by simp; omega) (part_eq he a3) a6 h8

theorem kid_congr {d : Dti} {m m2 : Bytes} {S : Nat} {val : Val} (h : TyOk d)
    (hS : S ≤ m.length) (hS2 : S ≤ m2.length) (he : m2.take S = m.take S) (e : Enc d (m.take S) val) (i : Nat) :
    d.kid m2 i = d.kid m i := by
  cases hc : d.isCont with
  | false => simp [kid, hc]
  | true =>
    obtain ⟨cs, o, vs, hv, r, hvs⟩ := crep_of_enc h hc hS e
    have r2 : CRep d m2 S cs o := by
      refine CRep.of_take h hc hS2 ?_
      rw [he]; exact r.take h hc
    by_cases hi : i < cs.length
    · rw [kid_eq h hc r hvs (List.getElem?_eq_getElem hi), kid_eq h hc r2 hvs (List.getElem?_eq_getElem hi)]
    · simp [kid, hc, getCount_eq h hc r, getCount_eq h hc r2, Nat.not_lt.mp hi]

theorem size_eq {d : Dti} {m : Bytes} {S : Nat} {val : Val} (h : TyOk d) (hS : S ≤ m.length) (e : Enc d (m.take S) val) :
    d.getSize m = some S := by
  have hl : (m.take S).length = S := by simp; omega
  have hz := (enc_size h e).1
  rw [hl] at hz
  have k1 := getSize_append (r := m.drop S) hz
  rwa [List.take_append_drop] at k1

/-- What `kid` finds is inside of the container and data of its type. -/
theorem kid_in {d t : Dti} {m : Bytes} {S : Nat} {val : Val} {i a n : Nat} (h : TyOk d) (hS : S ≤ m.length)
    (e : Enc d (m.take S) val) (hk : d.kid m i = some (a, n, t)) :
    TyOk t ∧ a + n ≤ S ∧ 1 ≤ n ∧ n ≤ (m.drop a).length ∧ Spot d m [i] a n t ∧ ∃ y, Enc t ((m.drop a).take n) y := by
  cases hc : d.isCont with
  | false => simp [kid, hc] at hk
  | true =>
    obtain ⟨cs, o, vs, hv, r, hvs⟩ := crep_of_enc h hc hS e
    by_cases hi : i < cs.length
    · have hs : Spot d m [i] a n t := by
        simp only [kid, hc, Bool.not_true, Bool.false_eq_true, if_false, getCount_eq h hc r, posInfo_eq h hc r hi,
          Option.bind_eq_bind, Option.bind_some, ge_iff_le, Nat.not_le.mpr hi] at hk
        split at hk
        · cases hk
        · rename_i hb
          obtain ⟨x, hx, hk⟩ := Option.bind_eq_some_iff.mp hk
          cases x with
          | none => cases hk
          | some a' =>
            rw [Option.bind_some] at hk
            obtain ⟨n', hn, hk⟩ := Option.bind_eq_some_iff.mp hk
            cases hk
            exact ⟨hc, _, _, a, 0, getCount_eq h hc r, hi, posInfo_eq h hc r hi, by simpa using hb, hx, rfl, rfl, rfl, hn⟩
      obtain ⟨g1, g2, g3, g4, g5, g6⟩ := spot_in [i] h hS e hs
      exact ⟨g1, g2, g3, by simp; omega, hs, g6⟩
    · simp [kid, hc, getCount_eq h hc r, Nat.not_lt.mp hi] at hk

theorem goes_congr (pa : List Nat) : ∀ {d : Dti} {m m2 : Bytes} {S : Nat} {val : Val} (_ : TyOk d)
    (_ : S ≤ m.length) (_ : S ≤ m2.length) (_ : m2.take S = m.take S) (_ : Enc d (m.take S) val) (x : Nat),
    d.goes m2 pa x = d.goes m pa x := by
  induction pa with
  | nil => intros; rfl
  | cons i pa ih =>
    intro d m m2 S val h hS hS2 he e x
    unfold goes
    rw [kid_congr h hS hS2 he e i, size_eq h hS e, size_eq (m := m2) h hS2 (by rw [he]; exact e)]
    cases hk : d.kid m i with
    | none => rfl
    | some z =>
      obtain ⟨a, n, t⟩ := z
      obtain ⟨g1, g2, g3, g4, g5, y, g6⟩ := kid_in h hS e hk
      simp only
      rw [ih (m := m.drop a) (m2 := m2.drop a) g1 g4 (by simp; omega) (part_eq he g2) g6 (x - a)]

/-- Element `i`, in terms of its bytes. -/
theorem spot_kid {d : Dti} {m : Bytes} {S : Nat} {cs : List Elt} {o : Nat → Nat} {vs : List Val} {i a n : Nat}
    {pa : List Nat} {u : Dti} (h : TyOk d) (hc : d.isCont = true) (r : CRep d m S cs o) (hv : EVals d cs vs) :
    Spot d m (i :: pa) a n u ↔ ∃ b q x y, (cs[i]? = some (.fixd b) ∧ q = (posOf d cs.length i).off ∨
        cs[i]? = some (.var b) ∧ q = o i) ∧ Enc (posOf d cs.length i).ty b y ∧ rd m q b.length = b ∧ q + b.length ≤ S ∧
      1 ≤ b.length ∧ a = q + x ∧ Spot (posOf d cs.length i).ty b pa x n u := by
  constructor
  · intro hs
    have hS := r.le
    have hs' := hs
    obtain ⟨_, k, p, q, x, h1, h2, h3, h4, h5, h6, h7⟩ := hs
    have hcnt := getCount_eq h hc r
    rw [h1] at hcnt; cases hcnt
    have hpi := posInfo_eq h hc r h2
    rw [h3] at hpi; cases hpi
    obtain ⟨n', y, a1, a2, a3, a4, a5, a6, a7, a8⟩ := kid_of h hc r hv h2 h4 h5
    have hl : ((m.drop q).take n').length = n' := by simp only [List.length_take]; omega
    refine ⟨(m.drop q).take n', q, x, y, ?_, a6, by rw [hl]; rfl, by omega, by omega, h6, ?_⟩
    · rcases a8 with ⟨_, c2, c3, _⟩ | ⟨_, c2, c3, _⟩
      · exact Or.inl ⟨c2, c3⟩
      · exact Or.inr ⟨c2, c3⟩
    · exact spot_congr pa (posOf_ok h hc r.countOk h2) a5 (by omega) (by rw [List.take_take, Nat.min_self]) a6 h7
  · rintro ⟨b, q, x, y, h1, h2, h3, h4, h5, h6, h7⟩
    have hi : i < cs.length := by
      rcases h1 with ⟨h1, _⟩ | ⟨h1, _⟩ <;> exact (List.getElem?_eq_some_iff.mp h1).1
    have hok := posOf_ok h hc r.countOk hi
    have hle := r.le
    have hb : (posOf d cs.length i).ty.isBit = false ∧ d.ptrAt m (posOf d cs.length i) = some (some q) := by
      rcases h1 with ⟨h1, rfl⟩ | ⟨h1, rfl⟩
      · exact ⟨(r.elt i _ h1).1, ptrAt_eq h hc r h1⟩
      · exact ⟨isVar_not_bit hok (r.elt i _ h1).1, ptrAt_eq h hc r h1⟩
    refine ⟨hc, _, _, q, x, getCount_eq h hc r, hi, posInfo_eq h hc r hi, hb.1, hb.2, h6, ?_⟩
    refine spot_congr pa hok (Nat.le_refl b.length) (by simp only [List.length_drop]; omega) ?_ (by rw [List.take_length]; exact h2) h7
    rw [List.take_length]; exact h3

/-- Where the elements are after the element at `pa` of the data of size `S` at the start of `m` was
changed: `m'` has the data, now of size `S'`. If the element has a variable size (`mv`) the others
have moved as `goes` says, otherwise they are where they were; each keeps its bytes. -/
structure Keeps (d : Dti) (m : Bytes) (S : Nat) (m' : Bytes) (S' : Nat) (mv : Bool) (pa : List Nat) : Prop where
  /-- elements that neither contain the changed one nor are inside of it -/
  other : ∀ pb a n u, ¬ pa <+: pb → ¬ pb <+: pa → Spot d m pb a n u →
    Spot d m' pb (if mv then d.goes m pa a else a) n u ∧ rd m' (if mv then d.goes m pa a else a) n = rd m a n
  /-- containers of the changed element -/
  above : ∀ pb a n u, pb <+: pa → pb ≠ pa → Spot d m pb a n u →
    ∃ n', Spot d m' pb (if mv then d.goes m pa a else a) n' u ∧ n' + S = n + S'
  /-- the changed element and its containers all end where the tuple ends -/
  ends : mv = true → ∀ pb a n u, pb <+: pa → Spot d m' pb a n u → a + n = S'

theorem keeps_nil {d : Dti} {m m' : Bytes} {S S' : Nat} {mv : Bool} (h : d.getSize m' = some S') :
    Keeps d m S m' S' mv [] := by
  refine ⟨fun pb a n u h1 => absurd List.nil_prefix h1, fun pb a n u h1 h2 => absurd (List.prefix_nil.mp h1) h2, ?_⟩
  intro _ pb a n u h1 h2
  rw [List.prefix_nil.mp h1] at h2
  obtain ⟨rfl, rfl, h3⟩ := h2
  rw [h] at h3; cases h3; omega

/-- Nothing was changed. -/
theorem keeps_refl {d : Dti} {m : Bytes} {S : Nat} {pa : List Nat} : Keeps d m S m S false pa :=
  ⟨fun _ _ _ _ _ _ h => ⟨h, rfl⟩, fun _ _ n _ _ _ h => ⟨n, h, rfl⟩, by simp⟩

theorem rd_rd {m b : Bytes} {q x n : Nat} (h : rd m q b.length = b) (hx : x + n ≤ b.length) : rd m (q + x) n = rd b x n := by
  conv => rhs; rw [← h]
  apply List.ext_getElem?
  intro j
  simp only [rd_getElem?]
  split
  · rw [if_pos (by omega), Nat.add_assoc]
  · rfl

/-- The elements of a container of which element `i` was changed, if those of element `i` are known. -/
theorem keeps_step {d : Dti} {m m' : Bytes} {S S' : Nat} {cs : List Elt} {o o' : Nat → Nat} {vs vs' : List Val} {i : Nat}
    {c c' : Elt} {mv : Bool} {pa : List Nat} (h : TyOk d) (hc : d.isCont = true) (r : CRep d m S cs o) (hv : EVals d cs vs)
    (r' : CRep d m' S' (cs.set i c') o') (hv' : EVals d (cs.set i c') vs') (hi : cs[i]? = some c)
    (hmv : mv = true → (posOf d cs.length i).ty.isVar = true) (hsh : mv = true → Shift cs i c o o')
    (hst : mv = false → ∀ j b, cs[j]? = some (.var b) → o' j = o j)
    (hend : mv = true → ∀ b, c' = .var b → o' i + b.length = S')
    (hkid : pa ≠ [] → (∀ b, c ≠ .fixd b ∧ c ≠ .var b ∧ c' ≠ .fixd b ∧ c' ≠ .var b) ∨
      ∃ b b', (c = .var b ∧ c' = .var b' ∨ c = .fixd b ∧ c' = .fixd b') ∧
        Keeps (posOf d cs.length i).ty b b.length b' b'.length mv pa) :
    Keeps d m S m' S' mv (i :: pa) := by
  have hlt : i < cs.length := (List.getElem?_eq_some_iff.mp hi).1
  have hlen : (cs.set i c').length = cs.length := by simp
  have hci' : (cs.set i c')[i]? = some c' := by simp [hlt]
  have hcj' : ∀ j, j ≠ i → (cs.set i c')[j]? = cs[j]? := by
    intro j hj; rw [List.getElem?_set, if_neg (Ne.symm hj)]
  have hok := fun j hj => posOf_ok (i := j) h hc r.countOk hj
  have hlay := lay_of h hc r.countOk
  have hgs := getSize_eq h hc r
  have hsum := r.sum
  have hsum' := r'.sum
  have hhs := heap_set (c' := c') hi
  rw [hlen] at hsum'
  have hle := r.le
  have hfe := fixedEnd_le r
  -- where element `i` is, if things move
  have hel : mv = true → c = .null ∨ ∃ b, c = .var b := fun hm => var_elt h hc r hi (hmv hm)
  have hgo : ∀ x, mv = true → c = .null → d.goes m (i :: pa) x = x := by
    intro x hm hn
    have hk := kid_eq h hc r hv (hn ▸ hi : cs[i]? = some .null)
    rw [goes, hk]
  have hgo2 : ∀ b x, mv = true → c = .var b → d.goes m (i :: pa) x =
      if x < o i then x else if o i + b.length ≤ x then x - b.length else
        S - b.length + (posOf d cs.length i).ty.goes (m.drop (o i)) pa (x - o i) := by
    intro b x hm hn
    have hk := kid_eq h hc r hv (hn ▸ hi : cs[i]? = some (.var b))
    rw [goes, hk, hgs]
  -- the elements inside of element `i`
  have inside : ∀ pb a n u, pa ≠ [] → Spot d m (i :: pb) a n u → ∃ b b' q q' x, Enc (posOf d cs.length i).ty b (vs[i]?.getD .null) ∧
      Keeps (posOf d cs.length i).ty b b.length b' b'.length mv pa ∧ Spot (posOf d cs.length i).ty b pb x n u ∧ x + n ≤ b.length ∧
      a = q + x ∧ rd m q b.length = b ∧ rd m' q' b'.length = b' ∧ b'.length + S = b.length + S' ∧
      (if mv then d.goes m (i :: pa) a else a) = q' + (if mv then (posOf d cs.length i).ty.goes b pa x else x) ∧
      (∀ y n' u', Spot (posOf d cs.length i).ty b' pb y n' u' → Spot d m' (i :: pb) (q' + y) n' u') ∧
      Enc (posOf d cs.length i).ty b' (vs'[i]?.getD .null) := by
    intro pb a n u hne hs
    obtain ⟨b, q, x, y, h1, h2, h3, h4, h5, h6, h7⟩ := (spot_kid h hc r hv).mp hs
    have hvi : vs[i]? = some (vs[i]?.getD .null) := by
      have : i < vs.length := by rw [hv.1]; exact hlt
      simp [this]
    have hin := spot_in pb (hok i hlt) (Nat.le_refl b.length) (by rw [List.take_length]; exact h2) h7
    have henc : Enc (posOf d cs.length i).ty b (vs[i]?.getD .null) := by
      rcases h1 with ⟨h1, _⟩ | ⟨h1, _⟩ <;> exact hv.2 i _ _ h1 hvi
    have hv'i : ∃ y', vs'[i]? = some y' := ⟨_, List.getElem?_eq_getElem (by rw [hv'.1, hlen]; exact hlt)⟩
    obtain ⟨y', hv'i⟩ := hv'i
    have henc' := hv'.2 i _ _ hci' hv'i
    rw [hlen] at henc'
    have hgd : vs'[i]?.getD .null = y' := by rw [hv'i]; rfl
    rw [hgd]
    rcases hkid hne with hno | ⟨b0, b', hb, hk⟩
    · exfalso
      rcases h1 with ⟨h1, _⟩ | ⟨h1, _⟩ <;> rw [hi] at h1 <;> cases h1
      · exact (hno b).1 rfl
      · exact (hno b).2.1 rfl
    rcases hb with ⟨rfl, rfl⟩ | ⟨rfl, rfl⟩
    · rw [hi] at h1
      simp only [Option.some.injEq, reduceCtorEq, Elt.var.injEq, false_and, false_or] at h1
      obtain ⟨rfl, rfl⟩ := h1
      have e1 := r'.elt i _ hci'
      rw [hlen] at e1
      obtain ⟨e1, e2, e3, e4, e5, e6, e7⟩ := e1
      simp only [Elt.hlen] at hhs
      refine ⟨b0, b', o i, o' i, x, henc, hk, h7, hin.2.1, h6, h3, e5, by omega, ?_, ?_, henc'⟩
      · cases hm : mv with
        | false => simp only [Bool.false_eq_true, if_false]; rw [hst hm i _ hi, h6]
        | true =>
          simp only [if_true]
          rw [hgo2 b0 a hm rfl, if_neg (by omega), if_neg (by omega), show a - o i = x by omega]
          have := hend hm b' rfl
          rw [goes_congr pa (m := b0) (m2 := m.drop (o i)) (S := b0.length) (hok i hlt) (Nat.le_refl _) (by simp only [List.length_drop]; omega)
            (by rw [List.take_length]; exact h3) (by rw [List.take_length]; exact h2) x]
          omega
      · intro z n' u' hz
        rw [spot_kid h hc r' hv']
        rw [hlen]
        exact ⟨b', o' i, z, y', Or.inr ⟨hci', rfl⟩, henc', e5, e4, e6, rfl, hz⟩
    · rw [hi] at h1
      simp only [Option.some.injEq, reduceCtorEq, Elt.fixd.injEq, false_and, or_false] at h1
      obtain ⟨rfl, rfl⟩ := h1
      have e1 := r'.elt i _ hci'
      rw [hlen] at e1
      obtain ⟨e1, e2, e3, e4⟩ := e1
      simp only [Elt.hlen] at hhs
      have hm : mv = false := by
        cases hm : mv with
        | false => rfl
        | true => have := hmv hm; rw [e2] at this; cases this
      have l1 := (enc_size (hok i hlt) h2).2.2.2.2.2 e2
      have l2 := (enc_size (hok i hlt) henc').2.2.2.2.2 e2
      refine ⟨b0, b', (posOf d cs.length i).off, (posOf d cs.length i).off, x, henc, hk, h7, hin.2.1, h6, h3,
        by rw [l2]; exact e4, by omega, ?_, ?_, henc'⟩
      · simp only [hm, Bool.false_eq_true, if_false]; exact h6
      · intro z n' u' hz
        rw [spot_kid h hc r' hv']
        rw [hlen]
        have hs := hlay.fx i hlt e1
        simp only [slot, e2, Bool.false_eq_true, if_false] at hs
        exact ⟨b', _, z, y', Or.inl ⟨hci', rfl⟩, henc', by rw [l2]; exact e4, by omega, by omega, rfl, hz⟩
  refine ⟨?_, ?_, ?_⟩
  · intro pb a n u hp1 hp2 hs
    cases pb with
    | nil => exact absurd List.nil_prefix hp2
    | cons j pb =>
      by_cases hji : j = i
      · subst hji
        have hne : pa ≠ [] := by rintro rfl; exact hp1 (by simp)
        obtain ⟨b, b', q, q', x, g1, g2, g3, g4, g5, g6, g7, g8, g9, g10, g11⟩ := inside pb a n u hne hs
        obtain ⟨k1, k2⟩ := g2.other pb x n u (fun hh => hp1 (by simpa using hh)) (fun hh => hp2 (by simpa using hh)) g3
        rw [g9]
        refine ⟨g10 _ _ _ k1, ?_⟩
        have hin := spot_in pb (hok j hlt) (Nat.le_refl b'.length) (by rw [List.take_length]; exact g11) k1
        rw [rd_rd g7 hin.2.1, k2, g5, rd_rd g6 g4]
      · obtain ⟨b, q, x, y, h1, h2, h3, h4, h5, h6, h7⟩ := (spot_kid h hc r hv).mp hs
        have hj : j < cs.length := by
          rcases h1 with ⟨h1, _⟩ | ⟨h1, _⟩ <;> exact (List.getElem?_eq_some_iff.mp h1).1
        have hin := spot_in pb (hok j hj) (Nat.le_refl b.length) (by rw [List.take_length]; exact h2) h7
        -- where element `j` is now
        have hq : ∃ q', (cs[j]? = some (.fixd b) ∧ q' = (posOf d cs.length j).off ∨ cs[j]? = some (.var b) ∧ q' = o' j) ∧
            rd m' q' b.length = b ∧ q' + b.length ≤ S' ∧ (if mv then d.goes m (i :: pa) a else a) = q' + x := by
          rcases h1 with ⟨h1, rfl⟩ | ⟨h1, rfl⟩
          · have e := r'.elt j _ (by rw [hcj' j hji]; exact h1)
            rw [hlen] at e
            obtain ⟨e1, e2, e3, e4⟩ := e
            have l1 := (enc_size (hok j hj) h2).2.2.2.2.2 e2
            have hs := hlay.fx j hj e1
            simp only [slot, e2, Bool.false_eq_true, if_false] at hs
            refine ⟨_, Or.inl ⟨h1, rfl⟩, by rw [l1]; exact e4, by omega, ?_⟩
            cases hm : mv with
            | false => simpa using h6
            | true =>
              simp only [if_true]
              rcases hel hm with hn | ⟨bi, hn⟩
              · rw [hgo a hm hn]; exact h6
              · have := (r.elt i (.var bi) (hn ▸ hi)).2.2.1
                rw [hgo2 bi a hm hn, if_pos (by omega)]; exact h6
          · have e := r'.elt j _ (by rw [hcj' j hji]; exact h1)
            obtain ⟨e1, e2, e3, e4, e5, e6, e7⟩ := e
            refine ⟨_, Or.inr ⟨h1, rfl⟩, e5, e4, ?_⟩
            cases hm : mv with
            | false => simp only [Bool.false_eq_true, if_false]; rw [hst hm j b h1]; exact h6
            | true =>
              simp only [if_true]
              rw [hsh hm j b hji h1]
              rcases hel hm with hn | ⟨bi, hn⟩
              · rw [hgo a hm hn, hn]; simp only [Elt.hlen, Nat.sub_zero, ite_self]; exact h6
              · have hdj := r.disj j i b bi hji h1 (hn ▸ hi)
                have := (r.elt i (.var bi) (hn ▸ hi)).2.2.2.2.2.1
                rw [hgo2 bi a hm hn, hn]
                simp only [Elt.hlen]
                by_cases hlt' : o i < o j
                · rw [if_pos hlt', if_neg (by omega), if_pos (by omega)]; omega
                · rw [if_neg hlt', if_pos (by omega)]; omega
        obtain ⟨q', k1, k2, k3, k4⟩ := hq
        rw [k4]
        refine ⟨?_, by rw [rd_rd k2 hin.2.1, h6, rd_rd h3 hin.2.1]⟩
        rw [spot_kid h hc r' hv', hlen, hcj' j hji]
        exact ⟨b, q', x, y, k1, h2, k2, k3, h5, rfl, h7⟩
  · intro pb a n u hp1 hp2 hs
    cases pb with
    | nil =>
      obtain ⟨rfl, rfl, h3⟩ := hs
      rw [hgs] at h3; cases h3
      refine ⟨S', ⟨?_, rfl, getSize_eq h hc r'⟩, by omega⟩
      cases hm : mv with
      | false => rfl
      | true =>
        simp only [if_true]
        rcases hel hm with hn | ⟨bi, hn⟩
        · exact hgo 0 hm hn
        · have := (r.elt i (.var bi) (hn ▸ hi)).2.2.1
          have := fixedEnd_pos h hc r.countOk hlt (hmv hm)
          rw [hgo2 bi 0 hm hn, if_pos (by omega)]
    | cons j pb =>
      obtain ⟨rfl, hp⟩ : j = i ∧ pb <+: pa := by simpa using hp1
      have hpn : pb ≠ pa := fun hh => hp2 (by rw [hh])
      have hne : pa ≠ [] := by rintro rfl; exact hpn (List.prefix_nil.mp hp)
      obtain ⟨b, b', q, q', x, g1, g2, g3, g4, g5, g6, g7, g8, g9, g10, g11⟩ := inside pb a n u hne hs
      obtain ⟨n', k1, k2⟩ := g2.above pb x n u hp hpn g3
      rw [g9]
      exact ⟨n', g10 _ _ _ k1, by omega⟩
  · intro hm pb a n u hp hs
    cases pb with
    | nil =>
      obtain ⟨rfl, rfl, h3⟩ := hs
      rw [getSize_eq h hc r'] at h3; cases h3; omega
    | cons j pb =>
      obtain ⟨rfl, hp'⟩ : j = i ∧ pb <+: pa := by simpa using hp
      obtain ⟨b', q, x, y, h1, h2, h3, h4, h5, h6, h7⟩ := (spot_kid h hc r' hv').mp hs
      rw [hlen] at h1 h2 h7
      rcases h1 with ⟨h1, rfl⟩ | ⟨h1, rfl⟩
      · have e := (r'.elt j _ h1).2.1
        rw [hlen, hmv hm] at e; cases e
      · rw [hci'] at h1
        cases h1
        have := hend hm b' rfl
        cases pb with
        | nil =>
          obtain ⟨rfl, rfl, h8⟩ := h7
          have hz := (enc_size (hok j hlt) h2).1
          rw [h8] at hz; cases hz; omega
        | cons k pb =>
          have hne : pa ≠ [] := by rintro rfl; cases List.prefix_nil.mp hp'
          rcases hkid hne with hno | ⟨b0, b'', hb, hk⟩
          · exact absurd rfl (hno b').2.2.2
          · rcases hb with ⟨rfl, hb⟩ | ⟨rfl, hb⟩
            · cases hb
              have := hk.ends hm _ _ _ _ hp' h7
              omega
            · cases hb

/-- `Keeps` only looks at the bytes of the data. -/
theorem keeps_congr {d : Dti} {m m2 m' m2' : Bytes} {S S' : Nat} {val val' : Val} {mv : Bool} {pa : List Nat} (h : TyOk d)
    (hS : S ≤ m.length) (hS2 : S ≤ m2.length) (he : m2.take S = m.take S) (e : Enc d (m.take S) val)
    (hS' : S' ≤ m'.length) (hS2' : S' ≤ m2'.length) (he' : m2'.take S' = m'.take S') (e' : Enc d (m'.take S') val')
    (hk : Keeps d m S m' S' mv pa) : Keeps d m2 S m2' S' mv pa := by
  have e2 : Enc d (m2.take S) val := by rw [he]; exact e
  have e2' : Enc d (m2'.take S') val' := by rw [he']; exact e'
  have hg := goes_congr pa h hS hS2 he e
  have hrd : ∀ {x y : Bytes} {T a n : Nat}, y.take T = x.take T → a + n ≤ T → rd y a n = rd x a n := by
    intro x y T a n hxy ha
    apply rd_ext
    intro z hz
    have := congrArg (·[a + z]?) hxy
    simpa [show a + z < T by omega] using this
  refine ⟨?_, ?_, ?_⟩
  · intro pb a n u h1 h2 hs
    have hs1 := spot_congr pb h hS2 hS he.symm e2 hs
    obtain ⟨k1, k2⟩ := hk.other pb a n u h1 h2 hs1
    have i1 := spot_in pb h hS e hs1
    have i2 := spot_in pb h hS' e' k1
    rw [hg a]
    exact ⟨spot_congr pb h hS' hS2' he' e' k1, by rw [hrd he' i2.2.1, k2, hrd he i1.2.1]⟩
  · intro pb a n u h1 h2 hs
    obtain ⟨n', k1, k2⟩ := hk.above pb a n u h1 h2 (spot_congr pb h hS2 hS he.symm e2 hs)
    rw [hg a]
    exact ⟨n', spot_congr pb h hS' hS2' he' e' k1, k2⟩
  · intro hm pb a n u h1 hs
    exact hk.ends hm pb a n u h1 (spot_congr pb h hS2' hS' he'.symm e2' hs)

/-- There is no element at the path. -/
theorem keeps_out {d : Dti} {m : Bytes} {S : Nat} {cs : List Elt} {o : Nat → Nat} {vs : List Val} {mv : Bool} {i : Nat}
    {pa : List Nat} (h : TyOk d) (hc : d.isCont = true) (r : CRep d m S cs o) (hv : EVals d cs vs) (hi : cs.length ≤ i) :
    Keeps d m S m S mv (i :: pa) := by
  have hk : d.kid m i = none := by simp [kid, hc, getCount_eq h hc r, hi]
  have hg : ∀ x, (if mv then d.goes m (i :: pa) x else x) = x := by
    intro x; rw [goes, hk]; simp
  refine ⟨fun pb a n u _ _ hs => by rw [hg]; exact ⟨hs, rfl⟩, fun pb a n u _ _ hs => by rw [hg]; exact ⟨n, hs, rfl⟩, ?_⟩
  intro _ pb a n u hp hs
  cases pb with
  | nil => obtain ⟨rfl, rfl, h3⟩ := hs; rw [getSize_eq h hc r] at h3; cases h3; omega
  | cons j pb =>
    obtain ⟨rfl, _⟩ : j = i ∧ pb <+: pa := by simpa using hp
    obtain ⟨b, q, x, y, h1, _⟩ := (spot_kid h hc r hv).mp hs
    rcases h1 with ⟨h1, _⟩ | ⟨h1, _⟩ <;> have := (List.getElem?_eq_some_iff.mp h1).1 <;> omega

end Dti
end TS
