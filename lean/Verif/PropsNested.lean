import Verif.HashProof
import Verif.PropsElem
/-
Property C54: reading nested elements out of a datum.
-/
namespace TS
namespace Dti

/-- Reading below a tuple or array inside of another. -/
theorem getElem_into {d t : Dti} {m m2 : Bytes} {i j : Nat} {pa : List Nat} (hs : ∀ b h, d ≠ .str b h) (ht : ∀ b h, t ≠ .str b h)
    (h : contOf (.ptr m) d i = some (some (.ptr m2, some t))) : d.getElem m (i :: j :: pa) = t.getElem m2 (j :: pa) := by
  have key : ∀ {d : Dti}, d.isCont = true → (∀ b h, d ≠ .str b h) → contOf (.ptr m) d i = some (some (.ptr m2, some t)) →
      ∃ n p, d.getCount m = some n ∧ ¬ i ≥ n ∧ d.getContUnsafe m i = some (some (.ptr m2)) ∧ d.posInfo m i = some p ∧ p.ty = t := by
    intro d hc hs h
    unfold contOf countOf at h
    cases d with
    | prim => cases hc
    | str b h' => exact absurd rfl (hs b h')
    | tup hd fs =>
      simp only [hc, Bool.not_true, Bool.false_eq_true, if_false, Datum.isNull, Option.bind_eq_bind] at h
      obtain ⟨n, h1, h2⟩ := Option.bind_eq_some_iff.mp h
      split at h2
      · cases h2
      · rename_i hn
        obtain ⟨x, h3, h4⟩ := Option.bind_eq_some_iff.mp h2
        cases x with
        | none => cases h4
        | some x =>
          obtain ⟨p, h5, h6⟩ := Option.bind_eq_some_iff.mp h4
          cases h6
          simp only [getCont, hc, Bool.not_true, Bool.false_eq_true, if_false, Option.bind_eq_bind, h1, Option.bind_some, if_neg hn] at h3
          exact ⟨n, p, h1, hn, h3, h5, rfl⟩
    | arr hd c =>
      simp only [hc, Bool.not_true, Bool.false_eq_true, if_false, Datum.isNull, Option.bind_eq_bind] at h
      obtain ⟨n, h1, h2⟩ := Option.bind_eq_some_iff.mp h
      split at h2
      · cases h2
      · rename_i hn
        obtain ⟨x, h3, h4⟩ := Option.bind_eq_some_iff.mp h2
        cases x with
        | none => cases h4
        | some x =>
          obtain ⟨p, h5, h6⟩ := Option.bind_eq_some_iff.mp h4
          cases h6
          simp only [getCont, hc, Bool.not_true, Bool.false_eq_true, if_false, Option.bind_eq_bind, h1, Option.bind_some, if_neg hn] at h3
          exact ⟨n, p, h1, hn, h3, h5, rfl⟩
  have hc : d.isCont = true := by
    cases hc : d.isCont
    · simp [contOf, hc] at h
    · rfl
  obtain ⟨n, p, h1, h2, h3, h4, h5⟩ := key hc hs h
  simp only [getContUnsafe, getAt, h4, Option.bind_eq_bind, Option.bind_some] at h3
  obtain ⟨r, h6, h7⟩ := Option.bind_eq_some_iff.mp h3
  simp only [getElem, hc, h1, h4, h6, if_neg h2, Option.bind_eq_bind, Option.bind_some, Bool.not_true, Bool.false_eq_true, if_false]
  cases r with
  | none => cases h7
  | some o =>
    simp only at h7 ⊢
    split at h7
    · obtain ⟨_, _, h8⟩ := Option.bind_eq_some_iff.mp h7
      cases h8
    · subst h5
      have : m2 = m.drop o := by
        cases hp : p.ty with
        | prim k hd =>
          rw [hp] at h7
          cases k <;> simp [getDatum, Option.bind_eq_some_iff] at h7
        | str b hd => exact absurd hp (ht b hd)
        | tup => rw [hp] at h7; simp [getDatum] at h7; exact h7.symm
        | arr => rw [hp] at h7; simp [getDatum] at h7; exact h7.symm
      rw [this]

theorem contOf_beyond {d : Dti} {m : Bytes} {i n : Nat} (hc : d.isCont = true) (hn : countOf (.ptr m) d = some n) (hi : n ≤ i) :
    contOf (.ptr m) d i = some none := by
  unfold contOf
  simp [hc, Datum.isNull, hn, hi]

/-- The path `pa` ends at a byte of a STRING. -/
def EndsInString (d : Dti) (pa : List Nat) : Prop := ∃ q i h, pa = q ++ [i] ∧ d.typeAt q = some (.str false h)

theorem typeAt_cons {d t : Dti} {i : Nat} {pa : List Nat} (hc : d.isCont = true) (ht : d.tyAt i = some t)
    (hn : d.isVarCount = false → i < d.hdr.count) : d.typeAt (i :: pa) = t.typeAt pa := by
  have : d.tyAtNoData i = some t := by
    unfold tyAtNoData
    rw [hc]
    cases hv : d.isVarCount
    · simp [Nat.not_le.mpr (hn hv), ht]
    · simp [ht]
  simp only [typeAt, this, Option.bind_eq_bind, Option.bind_some]

theorem nested_spec (pa : List Nat) : ∀ {d u : Dti} {m : Bytes} {S : Nat} {vs : List Val}, pa ≠ [] → TyOk d → (∀ b h, d ≠ .str b h) →
    d.isCont = true → S ≤ m.length → Enc d (m.take S) (.node vs) → d.typeAt pa = some u → ¬ EndsInString d pa →
    (∀ q i j r, pa = q ++ i :: j :: r → (Val.node vs).at' q ≠ some .null) →
    ∃ x, d.getElem m pa = some x ∧
      match x with
      | none => nestedOf (.ptr m) (some d) pa = some none
      | some v => ∃ o, nestedOf (.ptr m) (some d) pa = some (some (v, o)) ∧ (o = some u ∨ (v = .null ∧ o = none)) := by
  induction pa with
  | nil => intro d u m S vs h; exact absurd rfl h
  | cons i pa ih =>
    intro d u m S vs _ hd hs hc hS he ht hn hq
    obtain ⟨k1, k2, k3⟩ := kids_ptr hd hc hs hS he
    have hg := getElem_ok (i :: pa) hd hS he
    cases hi : vs[i]? with
    | none =>
      have hl : vs.length ≤ i := List.getElem?_eq_none_iff.mp hi
      unfold GetOk at hg
      have : (Val.node vs).at' (i :: pa) = none := by simp [Val.at', hi]
      rw [this] at hg
      refine ⟨none, hg, ?_⟩
      simp only [nestedOf, Option.bind_eq_bind, Option.bind_some, contOf_beyond hc k1 hl]
      rfl
    | some y =>
      obtain ⟨c, t, h1, h2, h3, h4, h5⟩ := k3 i y hi
      have hil : i < vs.length := (List.getElem?_eq_some_iff.mp hi).1
      have hta : ∀ pa, d.typeAt (i :: pa) = t.typeAt pa := fun pa =>
        typeAt_cons hc h2 (fun hf => by rw [← k2 hf]; exact hil)
      have hat : ∀ pa, (Val.node vs).at' (i :: pa) = y.at' pa := fun pa => by simp [Val.at', hi]
      rw [hta] at ht
      have hne : nestedOf (.ptr m) (some d) (i :: pa) = nestedOf c (some t) pa := by
        simp only [nestedOf, Option.bind_eq_bind, Option.bind_some, h1]
      rw [hne]
      cases pa with
      | nil =>
        simp only [typeAt, Option.some.injEq] at ht
        subst ht
        refine ⟨some c, ?_, some t, rfl, .inl rfl⟩
        unfold GetOk at hg
        rw [hat, hta] at hg
        simp only [Val.at', typeAt] at hg
        -- the datum is the one that `contOf` found
        have hcd : d.getCont m i = some (some c) := by
          unfold contOf at h1
          rw [hc, k1] at h1
          simp only [Bool.not_true, Bool.false_eq_true, if_false, Datum.isNull, Option.bind_eq_bind, Option.bind_some, ge_iff_le,
            Nat.not_le.mpr hil] at h1
          cases d with
          | prim => cases hc
          | str b h => exact absurd rfl (hs b h)
          | tup =>
            obtain ⟨x, g1, g2⟩ := Option.bind_eq_some_iff.mp h1
            cases x with
            | none => cases g2
            | some x =>
              obtain ⟨p, g3, g4⟩ := Option.bind_eq_some_iff.mp g2
              cases g4; exact g1
          | arr =>
            obtain ⟨x, g1, g2⟩ := Option.bind_eq_some_iff.mp h1
            cases x with
            | none => cases g2
            | some x =>
              obtain ⟨p, g3, g4⟩ := Option.bind_eq_some_iff.mp g2
              cases g4; exact g1
        exact hcd
      | cons j pa =>
        have htc : t.isCont = true := by
          cases htc : t.isCont
          · simp [typeAt, tyAtNoData, htc] at ht
          · rfl
        unfold GetOk at hg
        rw [hat, hta] at hg
        cases y with
        | null =>
          simp only [Shows] at h4
          subst h4
          simp only [Val.at'] at hg
          have hge : d.getElem m (i :: j :: pa) = some (some .null) := by
            rcases hg with ⟨_, hg⟩ | ⟨_, dt, _, hg, hh⟩
            · exact hg
            · simp only [Shows] at hh; subst hh; exact hg
          refine ⟨_, hge, none, ?_, .inr ⟨rfl, rfl⟩⟩
          cases pa with
          | cons k pa => exact absurd (by rw [hat]; rfl) (hq [i] j k pa rfl)
          | nil => simp [nestedOf, contOf, htc, Datum.isNull]
        | bits v =>
          simp only [Shows] at h4
          cases t with
          | prim => cases htc
          | _ => simp [isBit] at h4
        | raw b =>
          cases t with
          | prim => cases htc
          | _ => simp [Shows] at h4
        | node ws =>
          have hinner : (∀ b h, t ≠ .str b h) → (∃ m2 S2, c = .ptr m2 ∧ S2 ≤ m2.length ∧ Enc t (m2.take S2) (.node ws)) →
              ∃ x, d.getElem m (i :: j :: pa) = some x ∧
                match x with
                | none => nestedOf c (some t) (j :: pa) = some none
                | some v => ∃ o, nestedOf c (some t) (j :: pa) = some (some (v, o)) ∧ (o = some u ∨ (v = .null ∧ o = none)) := by
            rintro hts ⟨m2, S2, rfl, e1, e2⟩
            rw [getElem_into hs hts h1]
            refine ih (by simp) h3 hts htc e1 e2 ht ?_ ?_
            · rintro ⟨q, k, h, e, e'⟩
              exact hn ⟨i :: q, k, h, by rw [e]; rfl, by rw [hta]; exact e'⟩
            · intro q k l r e
              have := hq (i :: q) k l r (by rw [e]; rfl)
              rwa [hat] at this
          cases t with
          | prim => cases htc
          | tup hd' fs => exact hinner (by simp) h4
          | arr hd' c' => exact hinner (by simp) h4
          | str bin hd' =>
            cases pa with
            | cons k pa =>
              exfalso
              simp only [typeAt, Option.bind_eq_bind] at ht
              obtain ⟨t', e1, e2⟩ := Option.bind_eq_some_iff.mp ht
              obtain ⟨t'', e3, _⟩ := Option.bind_eq_some_iff.mp e2
              unfold tyAtNoData at e1
              split at e1
              · cases e1
              · split at e1
                · cases e1
                · simp [tyAt] at e1
                  subst e1
                  simp [tyAtNoData, u8, isCont] at e3
            | nil =>
              cases bin with
              | false => exact absurd ⟨[i], j, hd', rfl, by rw [hta]; rfl⟩ hn
              | true =>
                obtain ⟨x, e1, rfl⟩ := h4
                simp only [if_true]
                have hu : u = u8 := by
                  simp only [typeAt, Option.bind_eq_bind] at ht
                  obtain ⟨t', e1, e2⟩ := Option.bind_eq_some_iff.mp ht
                  unfold tyAtNoData at e1
                  split at e1
                  · cases e1
                  · split at e1
                    · cases e1
                    · simp [tyAt] at e1
                      cases e2; exact e1.symm
                subst hu
                rw [e1] at hg
                cases hx : x[j]? with
                | none =>
                  have : (chars x).at' [j] = none := by simp [chars, Val.at', hx]
                  rw [this] at hg
                  refine ⟨none, hg, ?_⟩
                  have := List.getElem?_eq_none_iff.mp hx
                  simp [nestedOf, contOf, isCont, Datum.isNull, countOf, Datum.asBytes, this]
                | some b =>
                  have : (chars x).at' [j] = some (.raw [b]) := by simp [chars, Val.at', hx]
                  rw [this] at hg
                  simp only at hg
                  rcases hg with ⟨e, _⟩ | ⟨t, dt, e2, e3, e4⟩
                  · cases e
                  · rw [ht] at e2
                    cases e2
                    simp only [Shows, u8] at e4
                    subst e4
                    refine ⟨_, e3, some u8, ?_, .inl rfl⟩
                    have hlt := (List.getElem?_eq_some_iff.mp hx).1
                    simp [nestedOf, contOf, isCont, Datum.isNull, countOf, Datum.asBytes, Nat.not_le.mpr hlt, leDec, hx]

/-- Two steps below NULL. -/
theorem nested_fault (q : List Nat) : ∀ {d u : Dti} {m : Bytes} {S : Nat} {vs : List Val} {i j : Nat} {r : List Nat}, TyOk d →
    (∀ b h, d ≠ .str b h) → d.isCont = true → S ≤ m.length → Enc d (m.take S) (.node vs) →
    d.typeAt (q ++ i :: j :: r) = some u → (Val.node vs).at' q = some .null →
    nestedOf (.ptr m) (some d) (q ++ i :: j :: r) = none := by
  induction q with
  | nil => intro d u m S vs i j r _ _ _ _ _ _ h; simp [Val.at'] at h
  | cons k q ih =>
    intro d u m S vs i j r hd hs hc hS he ht hat
    obtain ⟨k1, k2, k3⟩ := kids_ptr hd hc hs hS he
    cases hi : vs[k]? with
    | none => simp [Val.at', hi] at hat
    | some y =>
      obtain ⟨c, t, h1, h2, h3, h4, h5⟩ := k3 k y hi
      have hil : k < vs.length := (List.getElem?_eq_some_iff.mp hi).1
      rw [List.cons_append, typeAt_cons hc h2 (fun hf => by rw [← k2 hf]; exact hil)] at ht
      simp only [Val.at', hi] at hat
      have htc : t.isCont = true := by
        cases htc : t.isCont
        · cases q <;> simp [typeAt, tyAtNoData, htc] at ht
        · rfl
      have hne : nestedOf (.ptr m) (some d) (k :: q ++ i :: j :: r) = nestedOf c (some t) (q ++ i :: j :: r) := by
        simp only [List.cons_append, nestedOf, Option.bind_eq_bind, Option.bind_some, h1]
      rw [hne]
      cases y with
      | null =>
        simp only [Shows] at h4
        subst h4
        have : ∀ (a b : Nat) (s : List Nat), nestedOf .null (some t) (a :: b :: s) = none := by
          intro a b s
          simp [nestedOf, contOf, htc, Datum.isNull]
        match q with
        | [] => exact this _ _ _
        | [a] => exact this _ _ _
        | a :: b :: s => exact this _ _ _
      | bits v => cases q <;> simp [Val.at'] at hat
      | raw b => cases q <;> simp [Val.at'] at hat
      | node ws =>
        cases t with
        | prim => cases htc
        | tup hd' fs =>
          obtain ⟨m2, S2, rfl, e1, e2⟩ := h4
          exact ih h3 (by simp) htc e1 e2 ht hat
        | arr hd' c' =>
          obtain ⟨m2, S2, rfl, e1, e2⟩ := h4
          exact ih h3 (by simp) htc e1 e2 ht hat
        | str bin hd' =>
          obtain ⟨x, e1, _⟩ := h4
          rw [e1] at hat
          match q with
          | [] => simp [Val.at', chars] at hat
          | [a] => cases hx : x[a]? <;> simp [Val.at', chars, hx] at hat
          | a :: b :: s => cases hx : x[a]? <;> simp [Val.at', chars, hx] at hat

theorem at_null_iff {d : Dti} {m : Bytes} {S : Nat} {val : Val} {q : List Nat} (hd : TyOk d) (hS : S ≤ m.length)
    (he : Enc d (m.take S) val) : val.at' q = some .null ↔ d.getElem m q = some (some .null) := by
  have hg := getElem_ok q hd hS he
  unfold GetOk at hg
  cases ha : val.at' q with
  | none => rw [ha] at hg; simp only at hg; simp [hg]
  | some y =>
    rw [ha] at hg
    simp only at hg
    rcases hg with ⟨rfl, hg⟩ | ⟨t, dt, h1, h2, h3⟩
    · simp [hg]
    · cases y with
      | null => simp only [Shows] at h3; subst h3; simp [h2]
      | bits v => obtain ⟨_, rfl⟩ := h3; simp [h2]
      | raw b =>
        rw [h2]
        cases t with
        | prim k h => cases k <;> simp [Shows] at h3 <;> subst h3 <;> simp
        | _ => simp [Shows] at h3
      | node vs =>
        rw [h2]
        cases t with
        | prim => simp [Shows] at h3
        | str b h => obtain ⟨x, _, rfl⟩ := h3; simp
        | tup => obtain ⟨x, _, rfl, _⟩ := h3; simp
        | arr => obtain ⟨x, _, rfl, _⟩ := h3; simp

end Dti

namespace Props
open Dti

/-- C54. Reading below a datum that points to a tuple or array gives what reading the element from the
tuple gives, and its type (or NULL and no type, inside of NULL), as long as the path does not go
more than one step below NULL nor ends in a STRING. -/
theorem C54_same_as_tuple {d u : Dti} {m : Bytes} {S : Nat} {pa : List Nat} (hd : Usable d) (hc : d.isCont = true)
    (hs : ∀ b h, d ≠ .str b h) (ht : IsTuple d m S) (hu : d.typeAt pa = some u)
    (hn : ∀ q i h, pa = q ++ [i] → d.typeAt q ≠ some (.str false h))
    (hq : ∀ q i j r, pa = q ++ i :: j :: r → d.getElem m q ≠ some (some .null)) :
    ∃ x, d.getElem m pa = some x ∧
      match x with
      | none => nestedOf (.ptr m) (some d) pa = some none
      | some v => ∃ o, nestedOf (.ptr m) (some d) pa = some (some (v, o)) ∧ (o = some u ∨ (v = .null ∧ o = none)) := by
  obtain ⟨hS, val, he⟩ := ht
  obtain ⟨_, _, vs, rfl, _⟩ := enc_cont hc he
  cases pa with
  | nil =>
    simp only [typeAt, Option.some.injEq] at hu
    subst hu
    refine ⟨some (.ptr m), ?_, some d, rfl, .inl rfl⟩
    cases d with
    | prim => cases hc
    | str b h => exact absurd rfl (hs b h)
    | tup => rfl
    | arr => rfl
  | cons i pa =>
    exact nested_spec (i :: pa) (by simp) hd.ok hs hc hS he hu (by rintro ⟨q, k, h, e1, e2⟩; exact hn q k h e1 e2)
      (fun q i j r e h => hq q i j r e ((at_null_iff hd.ok hS he).mp h))

/-- The array in the example tuple, its first element, and one that it does not have. -/
example : Usable exFinal ∧ IsTuple exFinal exMem 11 ∧ (exFinal.setElem exMem [3] (.ptr exArr) 20).bind (fun x =>
    (nestedOf (.ptr x.1) (some exFinal) [3, 0]).bind (fun a => (nestedOf (.ptr x.1) (some exFinal) [3, 2]).map (fun b => (a, b)))) =
      some (some (.uint 5, some (.prim .uint { isFinal := true, nullable := true, size := 2 })), none) :=
  ⟨exFinal_usable, exMem_tuple, rfl⟩

/-- C54. It cannot be called with every path that the type has: two steps below NULL the code
dereferences a NULL type pointer (/repo/src/datum.c:35 sets it, /repo/src/datum.c:37 uses it). -/
theorem C54_fault_below_null {d u : Dti} {m : Bytes} {S : Nat} {q r : List Nat} {i j : Nat} (hd : Usable d) (hc : d.isCont = true)
    (hs : ∀ b h, d ≠ .str b h) (ht : IsTuple d m S) (hu : d.typeAt (q ++ i :: j :: r) = some u)
    (hq : d.getElem m q = some (some .null)) : nestedOf (.ptr m) (some d) (q ++ i :: j :: r) = none := by
  obtain ⟨hS, val, he⟩ := ht
  obtain ⟨_, _, vs, rfl, _⟩ := enc_cont hc he
  exact nested_fault q hd.ok hs hc hS he hu ((at_null_iff hd.ok hS he).mpr hq)

/-- A tuple with a nullable array of strings, which is NULL in the smallest tuple. -/
def exDeep : Dti := .tup { isFinal := true, isVar := true, count := 1, maxSize := 200, size := 2 }
  [({ off := 1 }, .arr { isFinal := true, isVar := true, varCount := true, nullable := true, maxSize := 100, size := 2 }
    (.str false { isFinal := true, isVar := true, varCount := true, maxSize := 50, size := 1 }))]

theorem exDeep_usable : Usable exDeep := by
  refine ⟨.tup { count := 1, maxSize := 200 } [({}, .arr { varCount := true, nullable := true, maxSize := 100 }
    (.str false { varCount := true, maxSize := 50 }))], .tup _ _ rfl rfl ?_, rfl, .tup _ _ ?_ (by decide) (by decide) (by decide)⟩
  · intro f t h
    simp at h
    obtain ⟨_, rfl⟩ := h
    exact .arr _ _ rfl (.str _ _ rfl)
  · intro f t h
    simp at h
    obtain ⟨_, rfl⟩ := h
    exact .arr _ _ (.str _ _ (by decide) (by decide)) (by decide) (by decide)

example : IsTuple exDeep [2, 0] 2 ∧ exDeep.typeAt ([0] ++ [3, 1]) = some u8 ∧ exDeep.getElem [2, 0] [0] = some (some .null) ∧
    exDeep.getElem [2, 0] ([0] ++ [3, 1]) = some (some .null) :=
  ⟨⟨by decide, min_enc exDeep_usable.ok rfl⟩, rfl, rfl, rfl⟩

/-- C54. A byte of a STRING after its first NUL can be read from the tuple, but not from the datum. -/
theorem C54_string_ends_at_nul : ∃ x y, exFinal.setElem exMem [2] (.bytes [97, 98]) 20 = some (x, true) ∧
    exFinal.setElem x [2, 0] (.uint 0) 20 = some (y, true) ∧
    exFinal.getElem y [2, 1] = some (some (.uint 98)) ∧ nestedOf (.ptr y) (some exFinal) [2, 1] = some none :=
  ⟨_, _, rfl, rfl, by decide +kernel, rfl⟩

end Props
end TS
