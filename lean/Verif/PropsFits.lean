import Verif.SetFits
import Verif.PropsExpand
import Verif.PropsCopy
/-
Property C61: when an element can be set, and how the size of the tuple changes.
-/
namespace TS
namespace Props
open Dti

/-- The element at `pa` of type `t` takes `n` bytes of its container beyond the fixed part of that
container, as far as one can tell from reading it: none if it reads as NULL; for a string or binary
the count field and the characters; for a tuple or array the size of what the pointer points to. -/
def Takes (d : Dti) (m : Bytes) (pa : List Nat) (t : Dti) (n : Nat) : Prop :=
  (d.getElem m pa = some (some .null) ∧ n = 0) ∨
  (∃ b k, d.getElem m pa = some (some (.bytes b)) ∧ d.elemCount m pa = some k ∧ n = vsz t.hdr.maxSize + k) ∨
  ∃ src, d.getElem m pa = some (some (.ptr src)) ∧ t.getSize src = some n

/-- There is an element at the position: the tuple itself, or an index within the element count of
a container that is there and not NULL. -/
def Present (d : Dti) (m : Bytes) (pa : List Nat) : Prop :=
  pa = [] ∨ ∃ q i n, pa = q ++ [i] ∧ d.getElem m q ≠ some none ∧ d.getElem m q ≠ some (some .null) ∧
    d.elemCount m q = some n ∧ i < n

theorem has_snoc (val : Val) (q : List Nat) (i : Nat) :
    val.has (q ++ [i]) ↔ ∃ vs, val.at' q = some (.node vs) ∧ i < vs.length := by
  induction q generalizing val with
  | nil =>
    cases val with
    | node vs =>
      simp only [List.nil_append, Val.has, Val.at', Option.some.injEq, Val.node.injEq, exists_eq_left']
      cases hi : vs[i]? with
      | none => simp; exact List.getElem?_eq_none_iff.mp hi
      | some y => simp; exact (List.getElem?_eq_some_iff.mp hi).1
    | _ => simp [Val.has, Val.at']
  | cons j q ih =>
    cases val with
    | node vs =>
      simp only [List.cons_append, Val.has, Val.at']
      cases hj : vs[j]? with
      | none => simp
      | some y => simpa using ih y
    | _ => simp [Val.has, Val.at']

theorem typeAt_snoc {d t : Dti} {q : List Nat} {i : Nat} (h : d.typeAt (q ++ [i]) = some t) :
    ∃ u, d.typeAt q = some u ∧ u.isCont = true := by
  rw [typeAt_append] at h
  cases hu : d.typeAt q with
  | none => rw [hu] at h; cases h
  | some u =>
    rw [hu] at h
    refine ⟨u, rfl, ?_⟩
    cases hc : u.isCont with
    | true => rfl
    | false =>
      have := notCont_typeAt hc i []
      simp only [Option.bind_some, this] at h
      cases h

theorem present_iff {d t : Dti} {m : Bytes} {S : Nat} {pa : List Nat} {val : Val} (hd : TyOk d)
    (hS : S ≤ m.length) (he : Enc d (m.take S) val) (ht : d.typeAt pa = some t) : val.has pa ↔ Present d m pa := by
  unfold Present
  rcases List.eq_nil_or_concat pa with rfl | ⟨q, i, rfl⟩
  · simp [Val.has]
  · rw [List.concat_eq_append] at ht ⊢
    obtain ⟨u, hu, huc⟩ := typeAt_snoc ht
    have hr := node_iff_read hd hS he hu huc
    have hcnt := elemCount_ok q hd hS he hu huc
    rw [has_snoc]
    constructor
    · intro ⟨vs, h1, h2⟩
      obtain ⟨r1, r2⟩ := hr.mp ⟨vs, h1⟩
      exact Or.inr ⟨q, i, vs.length, rfl, r1, r2, by rw [hcnt, h1]; rfl, h2⟩
    · intro h
      rcases h with h | ⟨q', i', n, h1, h2, h3, h4, h5⟩
      · simp at h
      · obtain ⟨h0, h1⟩ := List.append_inj' h1 rfl
        cases h1; subst h0
        obtain ⟨vs, hvs⟩ := hr.mpr ⟨h2, h3⟩
        rw [hcnt, hvs] at h4
        cases h4
        exact ⟨vs, hvs, h5⟩

theorem enc_chars_len {bin : Bool} {h : Hdr} {b x : Bytes} (ht : TyOk (.str bin h)) (hv : h.isVar = true)
    (e : Enc (.str bin h) b (chars x)) : b.length = vsz h.maxSize + x.length := by
  obtain ⟨cs, o, vs, h1, r, hvs⟩ := enc_cont rfl e
  unfold chars at h1
  injection h1 with h1
  have hl : cs.length = x.length := by rw [← hvs.1, ← h1]; simp
  have hs := r.sum
  have hh := no_var_heap ht rfl r (by rfl)
  have ho : offBitmap (.str bin h) = vsz h.maxSize := by
    simp [offBitmap, offCountP, hasSizeP, hasCountP, isVarCount, hv, w, hdr]
  rw [hh, hl] at hs
  simp [fixedEnd, ho] at hs
  exact hs

/-- For a variable sized type, what an element takes is determined by its value. -/
theorem takes_iff {d t : Dti} {m : Bytes} {S n : Nat} {pa : List Nat} {val : Val} (hd : TyOk d)
    (hS : S ≤ m.length) (he : Enc d (m.take S) val) (ht : d.typeAt pa = some t) (htv : t.isVar = true) :
    Takes d m pa t n ↔ ∃ y, val.at' pa = some y ∧ Sz t y n := by
  have htk := (typeAt_ok pa hd ht).1
  have hg := getElem_ok pa hd hS he
  have htc : t.isCont = true := by
    cases htk with
    | prim => simp_all [isVar, hdr]
    | _ => rfl
  have hcnt := elemCount_ok pa hd hS he ht htc
  unfold GetOk at hg
  unfold Takes
  cases hat : val.at' pa with
  | none => rw [hat] at hg; simp [hg]
  | some y =>
    rw [hat] at hg hcnt
    simp only [Option.some.injEq, exists_eq_left']
    rcases hg with ⟨rfl, hg⟩ | ⟨t', dt, g1, g2, g3⟩
    · rw [hg]
      constructor
      · intro hh
        rcases hh with ⟨_, hn⟩ | ⟨b, k, hh, _⟩ | ⟨src, hh, _⟩
        · exact Or.inl ⟨rfl, hn⟩
        · simp at hh
        · simp at hh
      · intro hh
        rcases hh with ⟨_, hn⟩ | ⟨b, hb, _⟩
        · exact Or.inl ⟨rfl, hn⟩
        · exact absurd hb enc_not_null
    · rw [ht] at g1
      cases g1
      rw [g2]
      cases y with
      | null =>
        simp only [Shows] at g3
        subst g3
        constructor
        · intro hh
          rcases hh with ⟨_, hn⟩ | ⟨b, k, hh, _⟩ | ⟨src, hh, _⟩
          · exact Or.inl ⟨rfl, hn⟩
          · simp at hh
          · simp at hh
        · intro hh
          rcases hh with ⟨_, hn⟩ | ⟨b, hb, _⟩
          · exact Or.inl ⟨rfl, hn⟩
          · exact absurd hb enc_not_null
      | bits w => exact absurd g3.1 (by rw [isCont_not_bit htc]; simp)
      | raw b => cases t with
        | prim => simp [isCont] at htc
        | _ => exact g3.elim
      | node vs =>
        have hptr : ∀ (t : Dti), TyOk t → (∃ m' S', dt = .ptr m' ∧ S' ≤ m'.length ∧ Enc t (m'.take S') (.node vs)) →
            ((some (some dt) = some (some Datum.null) ∧ n = 0 ∨
              (∃ b k, some (some dt) = some (some (Datum.bytes b)) ∧ d.elemCount m pa = some k ∧ n = vsz t.hdr.maxSize + k) ∨
              ∃ src, some (some dt) = some (some (Datum.ptr src)) ∧ t.getSize src = some n) ↔ Sz t (.node vs) n) := by
          intro t htk ⟨m', S', e1, e2, e3⟩
          subst e1
          have hsz := (IsTuple.size htk ⟨e2, _, e3⟩).1
          have hl : (m'.take S').length = S' := by simp; omega
          constructor
          · intro hh
            rcases hh with ⟨hh, _⟩ | ⟨b, k, hh, _⟩ | ⟨src, hh, h2⟩
            · simp at hh
            · simp at hh
            · cases hh
              rw [hsz] at h2
              cases h2
              exact Or.inr ⟨_, e3, hl⟩
          · intro hh
            have := Sz.unique htk hh (Or.inr ⟨_, e3, hl⟩)
            subst this
            exact Or.inr (Or.inr ⟨m', rfl, hsz⟩)
        cases t with
        | prim => exact g3.elim
        | tup h fs => exact hptr _ htk g3
        | arr h c => exact hptr _ htk g3
        | str bin h =>
          obtain ⟨x, x1, x2⟩ := g3
          subst x2
          have hk : valCount (some (.node vs)) = x.length := by rw [x1]; simp [valCount, chars]
          rw [hk] at hcnt
          rw [hcnt]
          have hfix : Sz (.str bin h) (.node vs) n ↔ n = vsz h.maxSize + x.length := by
            rw [x1]
            constructor
            · intro hh
              rcases hh with ⟨hh, _⟩ | ⟨b, e, rfl⟩
              · cases hh
              · exact enc_chars_len htk htv e
            · intro hh
              subst hh
              -- the element is there, so its datum is
              obtain ⟨b, e⟩ : ∃ b, Enc (.str bin h) b (chars x) := by
                rw [← x1]
                exact enc_at pa hd he ht hat
              exact Or.inr ⟨b, e, enc_chars_len htk htv e⟩
          rw [hfix]
          simp [hdr]

theorem has_at {val : Val} {pa : List Nat} (h : val.has pa) : ∃ y, val.at' pa = some y := by
  induction pa generalizing val with
  | nil => exact ⟨val, rfl⟩
  | cons i pa ih =>
    cases val with
    | node vs =>
      simp only [Val.has] at h
      cases hi : vs[i]? with
      | none => rw [hi] at h; exact h.elim
      | some y => rw [hi] at h; simpa only [Val.at', hi] using ih h
    | _ => simp [Val.has] at h

/-- The prefixes of a position of a variable sized element have variable sized types. -/
theorem prefix_var {d t u : Dti} {q pa : List Nat} (hd : TyOk d) (ht : d.typeAt pa = some t) (htv : t.isVar = true)
    (hq : q <+: pa) (hu : d.typeAt q = some u) : u.isVar = true := by
  obtain ⟨r, rfl⟩ := hq
  rw [typeAt_append, hu] at ht
  exact (typeAt_ok r (typeAt_ok q hd hu).1 ht).2 htv

/-- What it takes to set the element at `pa`, of type `t`, to `v` with at most `inc` bytes more:
there is such an element, NULL is only given to an element that is variable sized or declared
nullable, and a value of a variable sized
type fits its own type, the increment, and every container around it. -/
def Settable (d : Dti) (m : Bytes) (pa : List Nat) (t : Dti) (v : Datum) (inc : Nat) : Prop :=
  Present d m pa ∧ (v = .null → pa ≠ [] ∧ (t.isVar = true ∨ t.hdr.nullable = true)) ∧
  (v ≠ .null → t.isVar = true → ∃ old new, Takes d m pa t old ∧ Needs t v new ∧ new ≤ t.hdr.maxSize ∧
    new ≤ old + inc ∧
    ∀ q u n, q <+: pa → q ≠ pa → d.typeAt q = some u → Takes d m q u n → n + new ≤ u.hdr.maxSize + old)

theorem isNull_iff {v : Datum} : v.isNull = true ↔ v = .null := by cases v <;> simp [Datum.isNull]

theorem setCond_iff {d t : Dti} {m : Bytes} {S inc : Nat} {v : Datum} {pa : List Nat} {val : Val} (hd : TyOk d)
    (hS : S ≤ m.length) (he : Enc d (m.take S) val) (ht : d.typeAt pa = some t) :
    SetCond d t val inc v pa ↔ Settable d m pa t v inc := by
  have hn : v.isNull = false ↔ v ≠ .null := by
    rw [← Bool.not_eq_true, isNull_iff]
  have hnul : t.isNullable = true ↔ (t.isVar = true ∨ t.hdr.nullable = true) := by simp [isNullable]
  unfold SetCond Settable
  rw [present_iff hd hS he ht, isNull_iff, hn, hnul]
  have hroom : t.isVar = true → ∀ old new, (Rooms d val pa old new ↔
      ∀ q u n, q <+: pa → q ≠ pa → d.typeAt q = some u → Takes d m q u n → n + new ≤ u.hdr.maxSize + old) := by
    intro htv old new
    unfold Rooms
    constructor
    · intro hr q u n h1 h2 h3 h4
      obtain ⟨z, z1, z2⟩ := (takes_iff hd hS he h3 (prefix_var hd ht htv h1 h3)).mp h4
      exact hr q u z n h1 h2 h3 z1 z2
    · intro hr q u z n h1 h2 h3 h4 h5
      exact hr q u n h1 h2 h3 ((takes_iff hd hS he h3 (prefix_var hd ht htv h1 h3)).mpr ⟨z, h4, h5⟩)
  constructor
  · intro ⟨h1, h2, h3⟩
    refine ⟨h1, h2, fun g1 g2 => ?_⟩
    obtain ⟨y, old, new, k1, k2, k3, k4, k5, k6⟩ := h3 g1 g2
    exact ⟨old, new, (takes_iff hd hS he ht g2).mpr ⟨y, k1, k2⟩, k3, k4, k5, (hroom g2 old new).mp k6⟩
  · intro ⟨h1, h2, h3⟩
    refine ⟨h1, h2, fun g1 g2 => ?_⟩
    obtain ⟨old, new, k2, k3, k4, k5, k6⟩ := h3 g1 g2
    obtain ⟨y, y1, y2⟩ := (takes_iff hd hS he ht g2).mp k2
    exact ⟨y, old, new, y1, y2, k3, k4, k5, (hroom g2 old new).mpr k6⟩

/-- C61. `set_element_in_tuple` succeeds exactly if there is such an element, NULL is only given to
a nullable element other than the tuple itself, and a value of a variable sized type fits the
maximum size of its type, the increment allowed, and the maximum size of every container around
it. -/
theorem C61_set_iff {d t : Dti} {m : Bytes} {S inc : Nat} {v : Datum} {pa : List Nat}
    (ha : SetArgs d m S pa v inc) (ht : d.typeAt pa = some t) :
    (∃ m', d.setElem m pa v inc = some (m', true)) ↔ Settable d m pa t v inc := by
  have hd := ha.usable.ok
  obtain ⟨hS, val, he⟩ := ha.tuple
  obtain ⟨m2, q2, k1, k2⟩ := C36_can_set_predicts ha
  obtain ⟨q, q1, q3⟩ := canSetElem_iff pa (inc := inc) (v := v) hd hS he ht ((ha.datum t ht).den (typeAt_ok pa hd ht).1)
  rw [← setCond_iff hd hS he ht, ← q3, k1]
  rw [k2, Option.some.injEq] at q1
  subst q1
  simp

/-- C61. A position for which there is no type is refused. -/
theorem C61_no_type {d : Dti} {m : Bytes} {S inc : Nat} {v : Datum} {pa : List Nat}
    (ha : SetArgs d m S pa v inc) (ht : d.typeAt pa = none) : d.setElem m pa v inc = some (m, false) := by
  have hd := ha.usable.ok
  obtain ⟨hS, val, he⟩ := ha.tuple
  simp [setElem, ht]

/-- C61. After an element was set, the size of the tuple changed by exactly the difference between
what the element takes now and what it took before; and it takes what the value given needs. -/
theorem C61_size {d t : Dti} {m m' : Bytes} {S inc : Nat} {v : Datum} {pa : List Nat}
    (ha : SetArgs d m S pa v inc) (ht : d.typeAt pa = some t) (hset : d.setElem m pa v inc = some (m', true)) :
    ∃ S', d.getSize m' = some S' ∧ (t.isVar = false → S' = S) ∧
      (t.isVar = true → ∃ old new, Takes d m pa t old ∧ Takes d m' pa t new ∧
        (if v = .null then new = 0 else Needs t v new) ∧ S' + old = S + new) := by
  have hd := ha.usable.ok
  have htk := (typeAt_ok pa hd ht).1
  obtain ⟨m2, q2, k1, k2⟩ := C36_can_set_predicts ha
  have hcan : Settable d m pa t v inc := (C61_set_iff ha ht).mp ⟨m', hset⟩
  obtain ⟨hS, val, he⟩ := ha.tuple
  obtain ⟨m2, q, S', val', k1, k2, k3, k4, k5, k6, k7, k8, k9⟩ := setElem_main hd hS he ha.datum ha.room
  rw [hset] at k1
  cases k1
  obtain ⟨g1, t', y, g2, g3, g4⟩ := k9 rfl
  rw [ht] at g2
  cases g2
  subst g4
  have hS' : S' ≤ m'.length := by rw [k3]; exact k4
  have hl : (m.take S).length = S := by simp; omega
  have hl' : (m'.take S').length = S' := by simp; omega
  refine ⟨S', (IsTuple.size hd ⟨hS', _, k5⟩).1, ?_, ?_⟩
  all_goals intro htv
  all_goals obtain ⟨y0, hy0⟩ := has_at g1
  · have := upd_len pa (old := 0) (new := 0) hd he k5 g1 ht hy0 (by rw [htv]; simp) (fun _ => rfl)
    omega
  · have hnew : ∃ new, (if v = .null then new = 0 else Needs t v new) ∧ Sz t y new := by
      by_cases hn : v = .null
      · subst hn
        simp only [EDen, Datum.isNull, if_true] at g3
        exact ⟨0, by simp, Or.inl ⟨g3, rfl⟩⟩
      · obtain ⟨old, new, c1, c2, c3, c4, c5⟩ := hcan.2.2 hn htv
        have hn' : v.isNull = false := by rw [← Bool.not_eq_true, isNull_iff]; exact hn
        simp only [EDen, hn', isVar_not_bit htk htv, Bool.false_eq_true, if_false] at g3
        obtain ⟨n, n1, n2, n3⟩ := newSize_needs htk htv g3
        have := Needs.unique htk c2 n2
        exact ⟨n, by simp [hn, n2], n3 (by omega)⟩
    obtain ⟨new, w1, w2⟩ := hnew
    have hold : ∃ old, Sz t y0 old := by
      cases y0 with
      | null => exact ⟨0, Or.inl ⟨rfl, rfl⟩⟩
      | node vs =>
        obtain ⟨b, hb⟩ := enc_at pa hd he ht hy0
        exact ⟨_, Or.inr ⟨b, hb, rfl⟩⟩
      | bits w =>
        have hg := getElem_ok pa hd hS he
        unfold GetOk at hg
        rw [hy0] at hg
        rcases hg with ⟨hg, _⟩ | ⟨t', dt, x1, x2, x3⟩
        · cases hg
        · rw [ht] at x1; cases x1
          exact absurd x3.1 (by rw [isVar_not_bit htk htv]; simp)
      | raw b =>
        have hg := getElem_ok pa hd hS he
        unfold GetOk at hg
        rw [hy0] at hg
        rcases hg with ⟨hg, _⟩ | ⟨t', dt, x1, x2, x3⟩
        · cases hg
        · rw [ht] at x1; cases x1
          cases htk with
          | prim => simp_all [isVar, hdr]
          | _ => exact x3.elim
    obtain ⟨old, hold⟩ := hold
    have := upd_len pa (old := old) (new := new) hd he k5 g1 ht hy0 (fun _ => ⟨hold, w2⟩) (by rw [htv]; simp)
    exact ⟨old, new, (takes_iff hd hS he ht htv).mpr ⟨y0, hy0, hold⟩,
      (takes_iff hd hS' k5 ht htv).mpr ⟨y, Val.at_upd_same val pa y g1, w2⟩, w1, by omega⟩

/-- The hypotheses of C61 are met by a tuple with an unset string, which can be set to "ab" with 3
bytes more and not with 2, and then takes 3 bytes. -/
example : SetArgs exFinal exMem 11 [2] (.bytes [97, 98]) 3 ∧ exFinal.typeAt [2] ≠ none ∧
    (exFinal.setElem exMem [2] (.bytes [97, 98]) 3).map Prod.snd = some true ∧
    (exFinal.setElem exMem [2] (.bytes [97, 98]) 2).map Prod.snd = some false ∧
    ((exFinal.setElem exMem [2] (.bytes [97, 98]) 3).bind fun r => exFinal.getSize r.1) = some 14 ∧
    exFinal.typeAt [4] = none := by
  refine ⟨⟨exFinal_usable, exMem_tuple, ?_, by decide⟩, by decide, by decide +kernel, by decide +kernel,
    by decide +kernel, by decide⟩
  intro t ht
  cases ht
  exact Or.inr (Or.inr ⟨_, rfl, by decide⟩)

/-- `Settable` holds of that tuple and string, and not with a smaller increment. -/
example : Settable exFinal exMem [2] (.str false { isFinal := true, isVar := true, varCount := true, maxSize := 200, size := 1 })
    (.bytes [97, 98]) 3 := by
  refine ⟨Or.inr ⟨[], 2, 4, rfl, by decide +kernel, by decide +kernel, by decide +kernel, by decide⟩, by simp,
    fun _ _ => ⟨0, 3, Or.inl ⟨by decide +kernel, rfl⟩, ⟨[97, 98], Or.inl rfl, by decide⟩, by decide, by decide, ?_⟩⟩
  intro q u n h1 h2 h3 h4
  have hq : q = [] := by
    rcases List.prefix_cons_iff.mp h1 with h | ⟨r, rfl, hr⟩
    · exact h
    · rw [List.prefix_nil.mp hr] at h2; exact absurd rfl h2
  subst hq
  cases h3
  have hg : exFinal.getElem exMem [] = some (some (.ptr exMem)) := by decide +kernel
  have hs : exFinal.getSize exMem = some 11 := by decide +kernel
  unfold Takes at h4
  rw [hg] at h4
  rcases h4 with ⟨h, _⟩ | ⟨b, k, h, _⟩ | ⟨src, h, h5⟩
  · simp at h
  · simp at h
  · cases h
    rw [hs] at h5
    cases h5
    decide

/-- An element of a fixed sized type can be set to anything but NULL if it is there. -/
theorem set_fixed_iff {d t : Dti} {m : Bytes} {S inc : Nat} {v : Datum} {pa : List Nat}
    (ha : SetArgs d m S pa v inc) (ht : d.typeAt pa = some t) (hf : t.isVar = false) :
    ∃ m' q, d.setElem m pa v inc = some (m', q) ∧
      (q = true ↔ Present d m pa ∧ (v = .null → pa ≠ [] ∧ t.hdr.nullable = true)) := by
  obtain ⟨m', q, h1, h2⟩ := C36_can_set_predicts ha
  refine ⟨m', q, h1, ?_⟩
  have := C61_set_iff ha ht
  rw [h1] at this
  simp only [Settable, hf, Bool.false_eq_true, false_or, false_implies, implies_true, and_true, Option.some.injEq,
    Prod.mk.injEq, exists_and_right, exists_eq', true_and] at this
  exact this

/-- C49. A copy between numeral types succeeds exactly if the destination is there, as long as the
number can be represented by the type of the destination; NULL is refused only where the types are
identical and not nullable (a source below a NULL can be NULL although its own type is not nullable),
or the destination is the tuple itself. -/
theorem C49_numeral_iff {cv : Conv} (hcv : cv.Ok) {d d2 : Dti} {m m2 : Bytes} {S S2 inc : Nat} {pa pa2 : List Nat} {dt : Datum}
    {k k2 : PKind} {h h2 : Hdr} (ha : CopyArgs d m S pa d2 m2 S2 inc) (ht : d.typeAt pa = some (.prim k h))
    (ht2 : d2.typeAt pa2 = some (.prim k2 h2)) (hg : d2.getElem m2 pa2 = some (some dt))
    (hx : dt = .null ∨ ∃ x, numOf k2 h2 dt = some x ∧ Represents k h x) :
    ∃ m' q, d.setFromTuple cv m pa d2 m2 pa2 inc = some (m', q) ∧
      (q = true ↔ Present d m pa ∧ (dt = .null → (h.nullable = true ∧ pa ≠ []) ∨
        (h.nullable = false ∧ ident (.prim k h) (.prim k2 h2) = some false))) := by
  have hk := (typeAt_ok pa ha.usable.ok ht).1
  have hk2 := (typeAt_ok pa2 ha.usable2.ok ht2).1
  have hiv : h.isVar = false := by cases hk; assumption
  have hfix : (Dti.prim k h).isVar = false := by simp [isVar, hdr, hiv]
  obtain ⟨b, hb⟩ := ident_total (ha.names _ ht) (.prim k2 h2)
  have hset : ∀ {v}, Accepts (.prim k h) v → SetArgs d m S pa v inc := by
    intro v hv
    exact ⟨ha.usable, ha.tuple, fun t hh => by rw [ht] at hh; cases hh; exact hv, ha.room⟩
  cases b with
  | true =>
    obtain ⟨h1, hsa, _⟩ := C49_identical cv ha ht ht2 hg hb
    obtain ⟨m', q, g1, g2⟩ := set_fixed_iff hsa ht hfix
    refine ⟨m', q, by rw [h1, g1], g2.trans ?_⟩
    simp only [hb, hdr, Option.some.injEq, Bool.true_eq_false, and_false, or_false]
    exact and_congr_right fun _ => imp_congr_right fun _ => and_comm
  | false =>
    have hstep : d.setFromTuple cv m pa d2 m2 pa2 inc = (typeCast cv .empty (.prim k h) dt (.prim k2 h2)).bind fun r =>
        match r with
        | (_, false) => some (m, false)
        | (v', true) => d.setElem m pa v' inc := by
      simp only [setFromTuple, hg, ht, ht2, hb, Option.bind_eq_bind, Option.bind_some, Bool.false_eq_true, if_false,
        isNum, Bool.and_self, if_true]
      rfl
    rw [hstep]
    by_cases hn : dt = .null
    · subst hn
      cases hnl : h.nullable with
      | true =>
        simp only [typeCast, Datum.isNull, if_true, isNullable, isVar, hdr, hnl, Bool.or_true, Option.bind_some]
        obtain ⟨m', q, g1, g2⟩ := set_fixed_iff (hset (v := .null) (.inl rfl)) ht hfix
        refine ⟨m', q, g1, g2.trans ?_⟩
        simp [hdr, hnl]
      | false =>
        simp only [typeCast, Datum.isNull, if_true, isNullable, isVar, hdr, hnl, hiv, Bool.or_self, Bool.false_eq_true,
          if_false, Option.bind_some]
        obtain ⟨m', q, g1, g2⟩ := set_fixed_iff (hset (v := .empty) (.inr (.inl rfl))) ht hfix
        refine ⟨m', q, g1, g2.trans ?_⟩
        simp [hb]
    · obtain ⟨x, hx, hr⟩ := hx.resolve_left hn
      obtain ⟨v, h1, h2, h3, h4⟩ := castVal_ok hcv hk hk2 hx hr
      have nn : dt.isNull = false := by cases dt <;> first | rfl | exact absurd rfl hn
      rw [typeCast, nn]
      simp only [h1, Option.bind_eq_bind, Option.bind_some, Bool.false_eq_true, if_false, Datum.isNull,
        Option.pure_def]
      obtain ⟨m', q, g1, g2⟩ := set_fixed_iff (hset (castVal_accepts hcv h1)) ht hfix
      refine ⟨m', q, g1, g2.trans ?_⟩
      simp [h2, hn]

end Props
end TS
