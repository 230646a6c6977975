import Verif.ContWalk
import Verif.PropsMin
/-
Properties C37-C40 of `expand_element_count_for_element_in_tuple` and
`discard_elements_from_element_in_tuple`.
-/
namespace TS
namespace Props
open Dti

/-- The hypotheses of the theorems about expansion. The element addressed, if it is a container with
a variable number of elements, obeys the documented limit (`GrowPre`); behind the tuple there is
memory for the growth allowed. -/
structure GrowArgs (d : Dti) (m : Bytes) (S : Nat) (pa : List Nat) (slots inc : Nat) : Prop where
  usable : Usable d
  tuple : IsTuple d m S
  limit : ∀ t n, d.typeAt pa = some t → t.isVarCount = true → d.elemCount m pa = some n → GrowPre t n slots
  room : d.isVar = true → min (S + inc) d.hdr.maxSize ≤ m.length

/-- Everything about one call of `expand_element_count_for_element_in_tuple`. -/
theorem expandElem_main {d : Dti} {m : Bytes} {S : Nat} {pa : List Nat} {index slots inc : Nat} {val : Val}
    (ha : GrowArgs d m S pa slots inc) (he : Enc d (m.take S) val) :
    ∃ m' q S' val', d.expandElem m pa index slots inc = some (m', q) ∧
      d.canExpandElem m pa index slots inc = some q ∧
      m'.length = m.length ∧ S' ≤ m.length ∧ Enc d (m'.take S') val' ∧ S' ≤ S + inc ∧
      (∀ x, S ≤ x → S' ≤ x → m'[x]? = m[x]?) ∧ (q = false → S' = S ∧ val' = val) ∧
      (q = true → ∃ t c, d.typeAt pa = some t ∧ t.isVarCount = true ∧ t.cont = some c ∧
        AtPath (Ins c index slots) pa val val') := by
  have hd := ha.usable.ok
  have hS := ha.tuple.1
  unfold expandElem canExpandElem
  cases ht : d.typeAt pa with
  | none =>
    exact ⟨m, false, S, val, rfl, rfl, rfl, hS, he, by omega, fun _ _ _ => rfl, fun _ => ⟨rfl, rfl⟩, by simp⟩
  | some t =>
    cases hvc : t.isVarCount with
    | false =>
      simp only [hvc, Bool.not_false, if_true]
      exact ⟨m, false, S, val, rfl, rfl, rfl, hS, he, by omega, fun _ _ _ => rfl, fun _ => ⟨rfl, rfl⟩, by simp⟩
    | true =>
      obtain ⟨ht1, ht2⟩ := typeAt_ok pa hd ht
      obtain ⟨htc, htv, c, hcd, hok, _⟩ := varCount_cont ht1 hvc
      have hcnt := elemCount_ok pa hd hS he ht htc
      obtain ⟨m', q, S', val', k1, k2, k3, k4, k5, k6, k7, k8, k9⟩ :=
        expandElemI_ok pa (index := index) (slots := slots) (inc := inc) hd hS he ht hvc hcd
          (fun vs hvs => ha.limit t _ ht hvc (by rw [hcnt, hvs]; rfl)) (ha.room (ht2 htv))
      simp only [hvc, Bool.not_true, Bool.false_eq_true, if_false]
      exact ⟨m', q, S', val', k1, k2 m hS rfl, k3, k4, k5, k6, k7, k8, fun hq => ⟨t, c, rfl, hvc, hcd, k9 hq⟩⟩

/-- Everything about one call of `discard_elements_from_element_in_tuple`. -/
theorem discardElem_main {d : Dti} {m : Bytes} {S : Nat} {pa : List Nat} {index slots : Nat} {val : Val}
    (hd : TyOk d) (hS : S ≤ m.length) (he : Enc d (m.take S) val)
    (hbits : ∀ t c, d.typeAt pa = some t → t.cont = some c → c.isBit = true → c.eltBits ≤ 64) :
    ∃ m' q S' val', d.discardElem m pa index slots = some (m', q) ∧
      d.canDiscardElem m pa index slots = some q ∧
      m'.length = m.length ∧ S' ≤ m.length ∧ Enc d (m'.take S') val' ∧ S' ≤ S ∧
      (∀ x, S ≤ x → m'[x]? = m[x]?) ∧ (q = false → S' = S ∧ val' = val) ∧
      (q = true → ∃ t c, d.typeAt pa = some t ∧ t.isVarCount = true ∧ t.cont = some c ∧
        AtPath (Rem index slots) pa val val') := by
  unfold discardElem canDiscardElem
  cases ht : d.typeAt pa with
  | none =>
    exact ⟨m, false, S, val, rfl, rfl, rfl, hS, he, by omega, fun _ _ => rfl, fun _ => ⟨rfl, rfl⟩, by simp⟩
  | some t =>
    cases hvc : t.isVarCount with
    | false =>
      simp only [hvc, Bool.not_false, if_true]
      exact ⟨m, false, S, val, rfl, rfl, rfl, hS, he, by omega, fun _ _ => rfl, fun _ => ⟨rfl, rfl⟩, by simp⟩
    | true =>
      obtain ⟨ht1, ht2⟩ := typeAt_ok pa hd ht
      obtain ⟨htc, htv, c, hcd, hok, _⟩ := varCount_cont ht1 hvc
      obtain ⟨m', q, S', val', k1, k2, k3, k4, k5, k6, k7, k8, k9⟩ :=
        discardElemI_ok pa (index := index) (slots := slots) hd hS he ht hvc hcd (fun hb => hbits t c ht hcd hb)
      simp only [hvc, Bool.not_true, Bool.false_eq_true, if_false]
      exact ⟨m', q, S', val', k1, k2 m hS rfl, k3, k4, k5, k6, fun x hx => k7 x hx (by omega), k8,
        fun hq => ⟨t, c, rfl, hvc, hcd, k9 hq⟩⟩

/-! ### reading behind the change -/

theorem at_append (val : Val) (pa pb : List Nat) {y : Val} (hh : val.has pa) (h : val.at' pa = some y) :
    val.at' (pa ++ pb) = y.at' pb := by
  induction pa generalizing val with
  | nil => simp [Val.at'] at h; rw [h]; rfl
  | cons i pa ih =>
    cases val with
    | node vs =>
      simp only [Val.has] at hh
      cases hi : vs[i]? with
      | none => rw [hi] at hh; exact absurd hh id
      | some z =>
        rw [hi] at hh
        simp only [Val.at', hi] at h
        simp only [List.cons_append, Val.at', hi]
        exact ih z hh h
    | _ => simp [Val.has] at hh

theorem varCount_tyAt {t c : Dti} (ht : TyOk t) (hvc : t.isVarCount = true) (hcd : t.cont = some c) (i : Nat) :
    t.tyAtNoData i = some c := by
  cases ht with
  | prim => simp [isVarCount] at hvc
  | tup => simp [isVarCount] at hvc
  | str b h =>
    simp only [cont, Option.some.injEq] at hcd
    subst hcd
    simp [tyAtNoData, isCont, hvc, tyAt, u8]
  | arr h c' =>
    simp only [cont, Option.some.injEq] at hcd
    subst hcd
    simp [tyAtNoData, isCont, hvc, tyAt]

/-- Types of elements of a container with a variable number of elements do not depend on the index. -/
theorem typeAt_idx {d t c : Dti} {pa pb : List Nat} {i j : Nat} (hd : TyOk d) (ht : d.typeAt pa = some t)
    (hvc : t.isVarCount = true) (hcd : t.cont = some c) :
    d.typeAt (pa ++ i :: pb) = d.typeAt (pa ++ j :: pb) ∧ d.typeAt (pa ++ j :: pb) = c.typeAt pb := by
  have htk := (typeAt_ok pa hd ht).1
  have : ∀ i, d.typeAt (pa ++ i :: pb) = c.typeAt pb := by
    intro i
    rw [typeAt_append, ht]
    simp [typeAt, varCount_tyAt htk hvc hcd i]
  exact ⟨by rw [this, this], this j⟩

/-- C38. After `expand_element_count_for_element_in_tuple` succeeded for `slots` slots at `index` of
the element at `pa`, that element has `slots` elements more; what was inside of its element `j`
reads the same, at index `j` if `j < index` and at index `j + slots` otherwise; the new elements,
and everything in them, are NULL, or zero if they are not nullable; and everything that is not
inside of the element nor contains it reads as before. -/
theorem C38_expand {d : Dti} {m m' : Bytes} {S : Nat} {pa : List Nat} {index slots inc : Nat}
    (ha : GrowArgs d m S pa slots inc) (hx : d.expandElem m pa index slots inc = some (m', true)) :
    ∃ t c n, d.typeAt pa = some t ∧ t.cont = some c ∧ d.elemCount m pa = some n ∧ index ≤ n ∧
      d.elemCount m' pa = some (n + slots) ∧
      (∀ j pb, j < index → Same (d.getElem m' (pa ++ j :: pb)) (d.getElem m (pa ++ j :: pb))) ∧
      (∀ j pb, index ≤ j → Same (d.getElem m' (pa ++ (j + slots) :: pb)) (d.getElem m (pa ++ j :: pb))) ∧
      (∀ k, k < slots →
        (c.isNullable = true → d.getElem m' (pa ++ [index + k]) = some (some .null)) ∧
        (c.isNullable = false → ∃ dt, d.getElem m' (pa ++ [index + k]) = some (some dt) ∧ ZeroRead c dt) ∧
        ∀ pb, Blank d m' (pa ++ (index + k) :: pb)) ∧
      (∀ pb, ¬ pa <+: pb → ¬ pb <+: pa → Same (d.getElem m' pb) (d.getElem m pb)) := by
  have hd := ha.usable.ok
  obtain ⟨hS, val, he⟩ := ha.tuple
  obtain ⟨m2, q, S', val', k1, k2, k3, k4, k5, k6, k7, k8, k9⟩ := expandElem_main (index := index) ha he
  rw [hx] at k1
  cases k1
  obtain ⟨t, c, ht, hvc, hcd, hpath⟩ := k9 rfl
  obtain ⟨hhas, vs, vs', hat, ⟨hidx, y0, hy0, rfl⟩, rfl⟩ := hpath
  obtain ⟨ht1, _⟩ := typeAt_ok pa hd ht
  obtain ⟨htc, htv, c', hcd', hok, _⟩ := varCount_cont ht1 hvc
  rw [hcd] at hcd'
  cases hcd'
  have hS' : S' ≤ m'.length := by rw [k3]; exact k4
  have hcnt := elemCount_ok pa hd hS he ht htc
  have hcnt' := elemCount_ok pa hd hS' k5 ht htc
  rw [hat] at hcnt
  rw [Val.at_upd_same val pa _ hhas] at hcnt'
  have hnew : ∀ i pb, (val.upd pa (.node (insertAt vs index slots y0))).at' (pa ++ i :: pb) =
      (Val.node (insertAt vs index slots y0)).at' (i :: pb) := fun i pb => at_upd_append val pa (i :: pb) _ hhas
  have hold : ∀ i pb, val.at' (pa ++ i :: pb) = (Val.node vs).at' (i :: pb) :=
    fun i pb => at_append val pa (i :: pb) hhas hat
  have hmoved : ∀ j pb, (Val.node (insertAt vs index slots y0)).at' (insIdx index slots j :: pb) =
      (Val.node vs).at' (j :: pb) := by
    intro j pb
    simp only [Val.at', insertAt_old vs j y0 hidx]
  refine ⟨t, c, vs.length, ht, hcd, hcnt, hidx, ?_, ?_, ?_, ?_, ?_⟩
  · rw [hcnt']
    simp only [valCount, insertAt_length vs slots y0 hidx]
  · intro j pb hj
    refine getElem_same hd hd hS' k5 hS he rfl ?_
    rw [hnew, hold]
    have := hmoved j pb
    rwa [show insIdx index slots j = j by simp [insIdx, hj]] at this
  · intro j pb hj
    refine getElem_same hd hd hS' k5 hS he (typeAt_idx hd ht hvc hcd).1 ?_
    rw [hnew, hold]
    have := hmoved j pb
    rwa [show insIdx index slots j = j + slots by simp [insIdx, Nat.not_lt.mpr hj]] at this
  · intro k hk
    have hval : ∀ pb, (val.upd pa (.node (insertAt vs index slots y0))).at' (pa ++ (index + k) :: pb) = y0.at' pb := by
      intro pb
      rw [hnew]
      simp only [Val.at', insertAt_new vs y0 hidx hk]
    have hty : ∀ pb, d.typeAt (pa ++ (index + k) :: pb) = c.typeAt pb :=
      fun pb => (typeAt_idx (i := 0) hd ht hvc hcd).2
    have hnull : c.isNullable = true → ∀ pb, d.getElem m' (pa ++ (index + k) :: pb) = some (some .null) := by
      intro hn pb
      have hg := getElem_ok (pa ++ (index + k) :: pb) hd hS' k5
      have : y0 = .null := by simpa [blank, hn, EVal] using hy0
      subst this
      unfold GetOk at hg
      rw [hval, at_null] at hg
      rcases hg with ⟨_, hg⟩ | ⟨t', dt, _, hg, hs⟩
      · exact hg
      · simp only [Shows] at hs; rw [hg, hs]
    have hzero : c.isNullable = false → ZeroVal c y0 := by
      intro hn
      cases hb : c.isBit with
      | true => left; exact ⟨by simpa [blank, hn, hb, EVal] using hy0, hb⟩
      | false => right; exact ⟨hb, by simpa [blank, hn, hb, EVal] using hy0⟩
    have hzread : c.isNullable = false →
        ∃ dt, d.getElem m' (pa ++ [index + k]) = some (some dt) ∧ ZeroRead c dt := by
      intro hn
      have hg := getElem_ok (pa ++ [index + k]) hd hS' k5
      unfold GetOk at hg
      rw [hval] at hg
      rcases hg with ⟨hy, _⟩ | ⟨t', dt, h1, hg, hs⟩
      · exfalso
        subst hy
        rcases hzero hn with ⟨h1, _⟩ | ⟨h1, h2⟩
        · cases h1
        · cases h2
      · rw [hty] at h1
        cases h1
        exact ⟨dt, hg, zero_shows hok hn (hzero hn) hs⟩
    refine ⟨fun hn => hnull hn [], hzread, ?_⟩
    intro pb
    cases hn : c.isNullable with
    | true => right; left; exact hnull hn pb
    | false =>
      cases pb with
      | nil =>
        obtain ⟨dt, h1, h2⟩ := hzread hn
        right; right; exact ⟨c, dt, hty [], hn, h1, h2⟩
      | cons i pb =>
        have hg := getElem_ok (pa ++ (index + k) :: i :: pb) hd hS' k5
        unfold GetOk at hg
        rw [hval, hty] at hg
        rcases hzero hn with ⟨rfl, _⟩ | ⟨hb, he0⟩
        · left; exact hg
        · have := zero_at pb (i := i) (m := List.replicate c.hdr.size 0) (S := c.hdr.size) hok (by simp)
            (by simpa using he0) (by intro x _ hx; simp [hx])
          rcases this with h1 | h1 | ⟨t', y, h1, h2, h3, h4, h5⟩
          · rw [h1] at hg; exact Or.inl hg
          · rw [h1] at hg
            right; left
            rcases hg with ⟨_, hg⟩ | ⟨t', dt, _, hg, hs⟩
            · exact hg
            · simp only [Shows] at hs; rw [hg, hs]
          · rw [h2] at hg
            right
            rcases hg with ⟨_, hg⟩ | ⟨t2, dt, g1, g2, g3⟩
            · exact Or.inl hg
            · rw [h1] at g1
              cases g1
              exact Or.inr ⟨t', dt, by rw [hty]; exact h1, h4, g2, zero_shows h3 h4 h5 g3⟩
  · intro pb h1 h2
    exact getElem_same hd hd hS' k5 hS he rfl (Val.at_upd_other val pa pb _ h1 h2)

/-- C39. After `discard_elements_from_element_in_tuple` succeeded, the element addressed has `slots`
elements fewer; what was inside of its element `j` reads the same, at index `j` if `j < index` and
at `j - slots` if `j ≥ index + slots`; everything that is not inside of the element nor contains it
reads as before. -/
theorem C39_discard {d : Dti} {m m' : Bytes} {S : Nat} {pa : List Nat} {index slots : Nat}
    (hu : Usable d) (htup : IsTuple d m S)
    (hbits : ∀ t c, d.typeAt pa = some t → t.cont = some c → c.isBit = true → c.eltBits ≤ 64)
    (hx : d.discardElem m pa index slots = some (m', true)) :
    ∃ n, d.elemCount m pa = some n ∧ index < n ∧ index + slots ≤ n ∧ d.elemCount m' pa = some (n - slots) ∧
      (∀ j pb, j < index → Same (d.getElem m' (pa ++ j :: pb)) (d.getElem m (pa ++ j :: pb))) ∧
      (∀ j pb, index + slots ≤ j → Same (d.getElem m' (pa ++ (j - slots) :: pb)) (d.getElem m (pa ++ j :: pb))) ∧
      (∀ pb, ¬ pa <+: pb → ¬ pb <+: pa → Same (d.getElem m' pb) (d.getElem m pb)) := by
  have hd := hu.ok
  obtain ⟨hS, val, he⟩ := htup
  obtain ⟨m2, q, S', val', k1, k2, k3, k4, k5, k6, k7, k8, k9⟩ :=
    discardElem_main (index := index) (slots := slots) hd hS he hbits
  rw [hx] at k1
  cases k1
  obtain ⟨t, c, ht, hvc, hcd, hpath⟩ := k9 rfl
  obtain ⟨hhas, vs, vs', hat, ⟨hidx, hsl, rfl⟩, rfl⟩ := hpath
  obtain ⟨ht1, _⟩ := typeAt_ok pa hd ht
  obtain ⟨htc, _⟩ := varCount_cont ht1 hvc
  have hS' : S' ≤ m'.length := by rw [k3]; exact k4
  have hcnt := elemCount_ok pa hd hS he ht htc
  have hcnt' := elemCount_ok pa hd hS' k5 ht htc
  rw [hat] at hcnt
  rw [Val.at_upd_same val pa _ hhas] at hcnt'
  have hnew : ∀ i pb, (val.upd pa (.node (removeAt vs index slots))).at' (pa ++ i :: pb) =
      (Val.node vs).at' (insIdx index slots i :: pb) := by
    intro i pb
    rw [at_upd_append val pa (i :: pb) _ hhas]
    simp only [Val.at', removeAt_get vs i hsl]
  have hold : ∀ i pb, val.at' (pa ++ i :: pb) = (Val.node vs).at' (i :: pb) :=
    fun i pb => at_append val pa (i :: pb) hhas hat
  refine ⟨vs.length, hcnt, hidx, hsl, ?_, ?_, ?_, ?_⟩
  · rw [hcnt']
    simp only [valCount, removeAt_length vs hsl]
  · intro j pb hj
    refine getElem_same hd hd hS' k5 hS he rfl ?_
    rw [hnew, hold, show insIdx index slots j = j by simp [insIdx, hj]]
  · intro j pb hj
    refine getElem_same hd hd hS' k5 hS he (typeAt_idx hd ht hvc hcd).1 ?_
    rw [hnew, hold, show insIdx index slots (j - slots) = j by
      unfold insIdx; rw [if_neg (by omega)]; omega]
  · intro pb h1 h2
    exact getElem_same hd hd hS' k5 hS he rfl (Val.at_upd_other val pa pb _ h1 h2)

/-- C37 for expansion. -/
theorem C37_growth_expand {d : Dti} {m : Bytes} {S : Nat} {pa : List Nat} {index slots inc : Nat}
    (ha : GrowArgs d m S pa slots inc) :
    ∃ m' q S', d.expandElem m pa index slots inc = some (m', q) ∧
      d.canExpandElem m pa index slots inc = some q ∧ d.getSize m' = some S' ∧ IsTuple d m' S' ∧ S' ≤ S + inc ∧
      (d.isVar = true → S' ≤ d.hdr.maxSize) ∧ (q = false → S' = S ∧ ∀ pb, Same (d.getElem m' pb) (d.getElem m pb)) ∧
      m'.length = m.length ∧ ∀ x, S ≤ x → S' ≤ x → m'[x]? = m[x]? := by
  have hd := ha.usable.ok
  obtain ⟨hS, val, he⟩ := ha.tuple
  obtain ⟨m', q, S', val', k1, k2, k3, k4, k5, k6, k7, k8, k9⟩ := expandElem_main (index := index) ha he
  have ht : IsTuple d m' S' := ⟨by rw [k3]; exact k4, _, k5⟩
  obtain ⟨z1, z2, z3, z4⟩ := ht.size hd
  refine ⟨m', q, S', k1, k2, z1, ht, k6, fun hh => (z3 hh).2, fun hq => ⟨(k8 hq).1, fun pb => ?_⟩, k3, k7⟩
  exact getElem_same hd hd ht.1 k5 hS he rfl (by rw [(k8 hq).2])

/-- C37 for discarding. -/
theorem C37_growth_discard {d : Dti} {m : Bytes} {S : Nat} {pa : List Nat} {index slots : Nat}
    (hu : Usable d) (htup : IsTuple d m S)
    (hbits : ∀ t c, d.typeAt pa = some t → t.cont = some c → c.isBit = true → c.eltBits ≤ 64) :
    ∃ m' q S', d.discardElem m pa index slots = some (m', q) ∧
      d.canDiscardElem m pa index slots = some q ∧ d.getSize m' = some S' ∧ IsTuple d m' S' ∧ S' ≤ S ∧
      (q = false → S' = S ∧ ∀ pb, Same (d.getElem m' pb) (d.getElem m pb)) ∧
      m'.length = m.length ∧ ∀ x, S ≤ x → m'[x]? = m[x]? := by
  have hd := hu.ok
  obtain ⟨hS, val, he⟩ := htup
  obtain ⟨m', q, S', val', k1, k2, k3, k4, k5, k6, k7, k8, k9⟩ :=
    discardElem_main (index := index) (slots := slots) hd hS he hbits
  have ht : IsTuple d m' S' := ⟨by rw [k3]; exact k4, _, k5⟩
  obtain ⟨z1, z2, z3, z4⟩ := ht.size hd
  refine ⟨m', q, S', k1, k2, z1, ht, k6, fun hq => ⟨(k8 hq).1, fun pb => ?_⟩, k3, k7⟩
  exact getElem_same hd hd ht.1 k5 hS he rfl (by rw [(k8 hq).2])

/-- A container is there exactly if reading the element gives something but NULL. -/
theorem node_iff_read {d t : Dti} {m : Bytes} {S : Nat} {pa : List Nat} {val : Val} (hd : TyOk d)
    (hS : S ≤ m.length) (he : Enc d (m.take S) val) (ht : d.typeAt pa = some t) (htc : t.isCont = true) :
    (∃ vs, val.at' pa = some (.node vs)) ↔
      (d.getElem m pa ≠ some none ∧ d.getElem m pa ≠ some (some .null)) := by
  have hg := getElem_ok pa hd hS he
  unfold GetOk at hg
  cases hv : val.at' pa with
  | none => rw [hv] at hg; simp [hg]
  | some y =>
    rw [hv] at hg
    cases y with
    | node vs =>
      rcases hg with ⟨hg, _⟩ | ⟨t', dt, g1, g2, g3⟩
      · cases hg
      · have hdt : dt ≠ .null := by
          intro hh
          subst hh
          cases t' with
          | prim => exact g3.elim
          | str b hh => obtain ⟨x, _, hx⟩ := g3; cases hx
          | tup => obtain ⟨_, _, hx, _⟩ := g3; cases hx
          | arr => obtain ⟨_, _, hx, _⟩ := g3; cases hx
        rw [g2]
        simp [hdt]
    | null =>
      rcases hg with ⟨_, hg⟩ | ⟨t', dt, g1, g2, g3⟩
      · simp [hg]
      · simp only [Shows] at g3; simp [g2, g3]
    | bits w =>
      rcases hg with ⟨hg, _⟩ | ⟨t', dt, g1, g2, g3⟩
      · cases hg
      · rw [ht] at g1
        cases g1
        have := isCont_not_bit htc
        rw [g3.1] at this; cases this
    | raw b =>
      rcases hg with ⟨hg, _⟩ | ⟨t', dt, g1, g2, g3⟩
      · cases hg
      · rw [ht] at g1
        cases g1
        cases t with
        | prim => simp [isCont] at htc
        | _ => exact g3.elim

/-- C40. Within the documented limit an expansion succeeds exactly if the element exists and is not
NULL, is a container with a variable number of elements, the index is in range, and the bytes that
its fixed part grows by are at most the growth allowed, and at most what
`get_max_size_increment_allowed_for_element_in_tuple` says, which is the least distance of a
container on the way to the element from its maximum size. -/
theorem C40_expand_iff {d : Dti} {m : Bytes} {S : Nat} {pa : List Nat} {index slots inc : Nat}
    (ha : GrowArgs d m S pa slots inc) :
    d.canExpandElem m pa index slots inc = some true ↔
      ∃ t n k, d.typeAt pa = some t ∧ t.isVarCount = true ∧ d.elemCount m pa = some n ∧
        d.getElem m pa ≠ some none ∧ d.getElem m pa ≠ some (some .null) ∧
        d.maxInc m 4294967295 pa = some k ∧ index ≤ n ∧
        fixedEnd t (n + slots) - fixedEnd t n ≤ min inc k := by
  have hd := ha.usable.ok
  obtain ⟨hS, val, he⟩ := ha.tuple
  unfold canExpandElem
  cases ht : d.typeAt pa with
  | none => simp
  | some t =>
    cases hvc : t.isVarCount with
    | false => simp [hvc]
    | true =>
      obtain ⟨ht1, ht2⟩ := typeAt_ok pa hd ht
      obtain ⟨htc, htv, c, hcd, hok, _⟩ := varCount_cont ht1 hvc
      have hcnt := elemCount_ok pa hd hS he ht htc
      have hlim : ∀ vs, val.at' pa = some (.node vs) → GrowPre t vs.length slots :=
        fun vs hvs => ha.limit t _ ht hvc (by rw [hcnt, hvs]; rfl)
      obtain ⟨k, q, h1, h2, h3⟩ := canExpandElemI_iff pa (index := index) (slots := slots) (inc := inc) hd hS he ht hvc hlim
      obtain ⟨k', q', h1', _, _⟩ := canExpandElemI_iff pa (index := index) (slots := slots) (inc := 4294967295)
        hd hS he ht hvc hlim
      have hmono : ∀ n, fixedEnd t n ≤ fixedEnd t (n + slots) := fun n => fixedEnd_mono hcd (by omega)
      -- the allowance is at most 2^32-1 in the code; a larger one changes nothing
      have hk : k = min inc k' ∨ (4294967295 < inc ∧ k' ≤ k) := by
        by_cases hi : inc ≤ 4294967295
        · left
          have := maxInc_min pa d m inc 4294967295
          rw [Nat.min_eq_left hi, h1, h1'] at this
          simpa using this
        · right
          have := maxInc_min pa d m 4294967295 inc
          rw [Nat.min_eq_left (by omega), h1, h1'] at this
          simp at this
          omega
      have hlimk : k' ≤ 4294967295 := by
        have := maxInc_min pa d m 4294967295 4294967295
        rw [Nat.min_self, h1'] at this
        simp at this
        omega
      have hread := node_iff_read hd hS he ht htc
      simp only [hvc, Bool.not_true, Bool.false_eq_true, if_false, h2, Option.some.injEq, h3]
      constructor
      · intro ⟨vs, g1, g2, g3⟩
        have hr := hread.mp ⟨vs, g1⟩
        have hg32 := (hlim vs g1).1
        unfold lim at hg32
        refine ⟨t, vs.length, k', rfl, hvc, by rw [hcnt, g1]; rfl, hr.1, hr.2, h1', g2, ?_⟩
        rcases hk with hk | ⟨hk1, hk2⟩
        · omega
        · have h5 := maxInc_min pa d m 4294967295 inc
          rw [Nat.min_eq_left (by omega), h1, h1'] at h5
          simp at h5
          omega
      · intro ⟨t', n, k2, e1, _, e2, e3, e4, e5, e6, e7⟩
        cases e1
        obtain ⟨vs, g1⟩ := hread.mpr ⟨e3, e4⟩
        rw [hcnt, g1] at e2
        cases e2
        rw [h1'] at e5
        cases e5
        refine ⟨vs, g1, e6, ?_⟩
        have := hmono vs.length
        simp only [valCount] at e7
        rcases hk with hk | ⟨hk1, hk2⟩ <;> omega

/-- C39. Discarding succeeds exactly if the element exists and is not NULL, is a container with a
variable number of elements and the slots to be discarded are all there (and the index is, also if
no slots are to be discarded). -/
theorem C39_discard_iff {d : Dti} {m : Bytes} {S : Nat} {pa : List Nat} {index slots : Nat}
    (hu : Usable d) (htup : IsTuple d m S) :
    d.canDiscardElem m pa index slots = some true ↔
      ∃ t n, d.typeAt pa = some t ∧ t.isVarCount = true ∧ d.elemCount m pa = some n ∧
        d.getElem m pa ≠ some none ∧ d.getElem m pa ≠ some (some .null) ∧ index < n ∧ index + slots ≤ n := by
  have hd := hu.ok
  obtain ⟨hS, val, he⟩ := htup
  unfold canDiscardElem
  cases ht : d.typeAt pa with
  | none => simp
  | some t =>
    cases hvc : t.isVarCount with
    | false => simp [hvc]
    | true =>
      obtain ⟨htc, _⟩ := varCount_cont (typeAt_ok pa hd ht).1 hvc
      have hcnt := elemCount_ok pa hd hS he ht htc
      have hread := node_iff_read hd hS he ht htc
      obtain ⟨q, h2, h3⟩ := canDiscardElemI_iff pa (index := index) (slots := slots) hd hS he ht hvc
      simp only [hvc, Bool.not_true, Bool.false_eq_true, if_false, h2, Option.some.injEq, h3]
      constructor
      · intro ⟨vs, g1, g2, g3⟩
        have hr := hread.mp ⟨vs, g1⟩
        exact ⟨t, vs.length, rfl, hvc, by rw [hcnt, g1]; rfl, hr.1, hr.2, g2, g3⟩
      · intro ⟨t', n, e1, _, e2, e3, e4, e5, e6⟩
        obtain ⟨vs, g1⟩ := hread.mpr ⟨e3, e4⟩
        rw [hcnt, g1] at e2
        cases e2
        exact ⟨vs, g1, e5, e6⟩

/-! ### examples -/

/-- The tuple of the examples with an array of the two elements 5 and NULL set. -/
def exMemArr : Bytes :=
  [18, 0, 0, 0, 0, 0, 0, 0, 0, 11, 0, 2, 0, 1, 5, 0, 0, 0] ++ List.replicate 23 255

theorem tuple_of_size {d : Dti} {m : Bytes} {S S' : Nat} (h1 : d.getSize m = some S') (h2 : IsTuple d m S')
    (h3 : d.getSize m = some S) : IsTuple d m S := by
  rw [h3] at h1
  cases h1
  exact h2

/-- The array set to an empty array. -/
def exMemA : Bytes := [13, 0, 0, 0, 0, 0, 0, 0, 0, 11, 0, 0, 0] ++ List.replicate 28 255

/-- The array expanded by two elements. -/
def exMemB : Bytes := [18, 0, 0, 0, 0, 0, 0, 0, 0, 11, 0, 2, 0, 0, 0, 0, 0, 0] ++ List.replicate 23 255

theorem exMemA_tuple : IsTuple exFinal exMemA 13 := by
  have hset : exFinal.setElem exMem [3] .empty 20 = some (exMemA, true) := by decide +kernel
  obtain ⟨S', h1, h2, _⟩ := C37_growth ⟨exFinal_usable, exMem_tuple, fun t ht => Or.inr (Or.inl rfl), by decide⟩ hset
  exact tuple_of_size h1 h2 (by decide +kernel)

theorem exMemA_grow : GrowArgs exFinal exMemA 13 [3] 2 20 := by
  refine ⟨exFinal_usable, exMemA_tuple, ?_, by decide⟩
  intro t n ht _ hn
  cases ht
  have : exFinal.elemCount exMemA [3] = some 0 := by decide +kernel
  rw [this] at hn
  cases hn
  refine ⟨by decide +kernel, fun c hc hb => ?_⟩
  cases hc
  cases hb

theorem exMemB_tuple : IsTuple exFinal exMemB 18 := by
  obtain ⟨m', q, S', h0, _, h1, h2, _⟩ := C37_growth_expand (index := 0) exMemA_grow
  have hx : exFinal.expandElem exMemA [3] 0 2 20 = some (exMemB, true) := by decide +kernel
  rw [hx] at h0
  cases h0
  exact tuple_of_size h1 h2 (by decide +kernel)

theorem exMemArr_tuple : IsTuple exFinal exMemArr 18 := by
  have hset : exFinal.setElem exMemB [3, 0] (.uint 5) 20 = some (exMemArr, true) := by decide +kernel
  obtain ⟨S', h1, h2, _⟩ := C37_growth ⟨exFinal_usable, exMemB_tuple,
    (fun t ht => by cases ht; exact Or.inr (Or.inr ⟨_, rfl⟩)), by decide⟩ hset
  exact tuple_of_size h1 h2 (by decide +kernel)

theorem exMemArr_grow : GrowArgs exFinal exMemArr 18 [3] 3 20 := by
  refine ⟨exFinal_usable, exMemArr_tuple, ?_, by decide⟩
  intro t n ht _ hn
  cases ht
  have : exFinal.elemCount exMemArr [3] = some 2 := by decide +kernel
  rw [this] at hn
  cases hn
  refine ⟨by decide +kernel, fun c hc hb => ?_⟩
  cases hc
  cases hb

/-- Three elements inserted between the two: possible with 6 more bytes, not with 5. -/
example : GrowArgs exFinal exMemArr 18 [3] 3 20 ∧
    (exFinal.expandElem exMemArr [3] 1 3 20).bind (fun x => (exFinal.getElem x.1 [3, 0]).bind
      (fun a => (exFinal.getElem x.1 [3, 3]).map (fun b => (x.2, a, b)))) =
        some (true, some (.uint 5), some .null) ∧
    exFinal.canExpandElem exMemArr [3] 1 3 6 = some true ∧
    exFinal.canExpandElem exMemArr [3] 1 3 5 = some false ∧
    exFinal.canExpandElem exMemArr [3] 3 3 6 = some false :=
  ⟨exMemArr_grow, by decide +kernel, by decide +kernel, by decide +kernel, by decide +kernel⟩

/-- The first of the two elements discarded: what was the second is now the first. -/
example : IsTuple exFinal exMemArr 18 ∧
    (exFinal.discardElem exMemArr [3] 0 1).bind (fun x => (exFinal.getElem x.1 [3, 0]).bind
      (fun a => (exFinal.elemCount x.1 [3]).map (fun b => (x.2, a, b)))) =
        some (true, some .null, 1) ∧
    exFinal.canDiscardElem exMemArr [3] 1 2 = some false :=
  ⟨exMemArr_tuple, by decide +kernel, by decide +kernel⟩

/-! ### beyond the documented limit -/

/-- An array of 4 byte integers of at most 300 bytes. -/
def exWide : Dti := .arr { varCount := true, maxSize := 300 } (.prim .uint { size := 4 })

/-- C40 does not hold for all slot counts: an empty array of 4 byte integers of at most 300 bytes is
expanded by 2^30 + 1 elements with 4 bytes of growth allowed, since the size wraps around; the array
then has one element. /repo/inc/tuplestore/data_type_info.h:1522-1527. -/
theorem C40_wraps_beyond_limit : ∃ d, finalize exWide = some d ∧ d.hdr.maxSize = 300 ∧
    d.initMin (List.replicate 8 0) = some (List.replicate 8 0, 2) ∧
    d.expandElem (List.replicate 8 0) [] 0 1073741825 4 = some ([1, 0, 0, 0, 0, 0, 0, 0], true) ∧
    d.canExpandElem (List.replicate 8 0) [] 0 1073741825 4 = some true ∧
    d.elemCount [1, 0, 0, 0, 0, 0, 0, 0] [] = some 1 :=
  ⟨_, rfl, rfl, by decide +kernel, by decide +kernel, by decide +kernel, by decide +kernel⟩

/-- An array of bit fields of one bit of at most 256 bytes. -/
def exBits : Dti := .arr { varCount := true, maxSize := 256 } (.prim .bitField { size := 1 })

/-- C38 needs the condition on the element count of arrays of bit fields in `GrowPre`: the element
count is stored in as many bytes as the maximum size needs, but there can be more elements than
bytes. After expanding an empty array of one bit fields by 300 elements it has 44. -/
theorem C38_count_truncated : ∃ d, finalize exBits = some d ∧
    d.initMin (List.replicate 50 0) = some (List.replicate 50 0, 1) ∧
    d.expandElem (List.replicate 50 0) [] 0 300 100 = some (44 :: List.replicate 49 0, true) ∧
    d.elemCount (44 :: List.replicate 49 0) [] = some 44 :=
  ⟨_, rfl, by decide +kernel, by decide +kernel, by decide +kernel⟩

/-- C38 and C39 need the condition on the width of bit fields: in an array of nullable bit fields of 64 bits, each of which takes 65
bits, the element moved does not fit in the `uint64_t` that `get_bits` returns. Any expansion that is accepted and adds a slot, and
any discarding that moves an element, is a fault. -/
theorem C38_wide_bits {h hc : Hdr} {m : Bytes} (hn : hc.nullable = true) (hf : hc.isVar = false) (hs : hc.size = 64) {index slots : Nat} (h1 : 1 ≤ slots) :
    (∀ inc, canExpandElem (.arr h (.prim .bitField hc)) m [] index slots inc = some true →
      expandElem (.arr h (.prim .bitField hc)) m [] index slots inc = none) ∧
    (∀ n, getCount (.arr h (.prim .bitField hc)) m = some n → index + slots < n → isVarCount (.arr h (.prim .bitField hc)) = true →
      discardElem (.arr h (.prim .bitField hc)) m [] index slots = none) := by
  have he : eltBits (.prim .bitField hc) = 65 := by simp [eltBits, needsValid, isVar, hdr, hn, hs, hf]
  constructor
  · intro inc hx
    simp only [canExpandElem, typeAt, canExpandElemI, canExpand] at hx
    simp only [expandElem, typeAt, expandElemI, expand]
    split at hx
    · simp at hx
    · rename_i hv
      rw [if_neg hv, if_neg hv]
      simp only [Option.bind_eq_bind] at hx ⊢
      obtain ⟨n, hn, hx⟩ := Option.bind_eq_some_iff.mp hx
      rw [hn]
      simp only [Option.bind_some]
      split at hx
      · simp at hx
      split at hx
      · simp at hx
      rw [if_neg (by omega)] at hx
      rw [if_neg (by omega), if_neg (by omega), if_neg (by omega)]
      simp only [cont, Option.bind_some] at hx ⊢
      obtain ⟨old, ho, hx⟩ := Option.bind_eq_some_iff.mp hx
      rw [ho]
      simp only [Option.pure_def, Option.some.injEq] at hx
      simp only [Option.bind_some, hx, Bool.not_true, Bool.false_eq_true, if_false, growBody, isBit, if_true, growBit, he, Option.bind_eq_bind]
      obtain ⟨k, rfl⟩ : ∃ k, slots = k + 1 := ⟨slots - 1, by omega⟩
      cases copyBits (offBitmap (.arr h (.prim .bitField hc))) 65 m
        ((List.range (n - index)).map (fun i => ((n - 1 - i) * 65, (n + (k + 1) - 1 - i) * 65))) with
      | none => rfl
      | some m => simp [List.range_succ_eq_map, zeroBits, setBits]
  · intro n hn hi hv
    simp only [discardElem, typeAt, hv, Bool.not_true, Bool.false_eq_true, if_false, discardElemI, Dti.discard, hn, Option.bind_eq_bind, Option.bind_some]
    rw [if_neg (by omega), if_neg (by omega), if_neg (by omega)]
    simp only [cont, Option.bind_some]
    cases getSize (.arr h (.prim .bitField hc)) m with
    | none => rfl
    | some old =>
      simp only [Option.bind_some, shrinkBody, isBit, if_true, shrinkBit, he, Option.bind_eq_bind]
      cases u32 (offBitmap (.arr h (.prim .bitField hc)) + bitmapBytes (65 * (n - slots))) with
      | none => rfl
      | some s =>
        obtain ⟨k, hk⟩ : ∃ k, n - (index + slots) = k + 1 := ⟨n - (index + slots) - 1, by omega⟩
        simp [hk, List.range_succ_eq_map, copyBits, getBits]

/-- An array of nullable bit fields of 64 bits. -/
def exWideBits : Dti := .arr { varCount := true, maxSize := 256 } (.prim .bitField { nullable := true, size := 64 })

example : ∃ d, finalize exWideBits = some d ∧ d.isVarCount = true ∧
    d.canExpandElem (List.replicate 50 0) [] 0 1 40 = some true ∧ d.getCount (2 :: List.replicate 49 0) = some 2 :=
  ⟨_, rfl, rfl, by decide +kernel, by decide +kernel⟩

end Props
end TS
