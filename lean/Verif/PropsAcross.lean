import Verif.HashAcross
/-
Property C87: hashing data of different types.
-/
namespace TS
namespace Props
open Dti

/-- C87. Two data that compare as equal are hashed to the same value even if their types differ, as long as
the types differ only in ways that do not show in the hashed bytes: names, nullability, fixed or variable
size, maximum size, the sign of whole numbers, and strings against binaries against arrays of one byte
numbers. -/
theorem C87_equal {σ : Type} (upd : σ → UInt8 → σ) {d1 d2 : Dti} (u1 : Usable d1) (u2 : Usable d2) (ha : HashAlike d1 d2)
    {v1 v2 : Datum} (h1 : Proper d1 v1) (h2 : Proper d2 v2) (he : compareDatum v1 (some d1) v2 (some d2) = some 0) (h : σ) :
    ∃ h', hashDatum upd h d1 v1 = some h' ∧ hashDatum upd h d2 v2 = some h' := by
  obtain ⟨s1, m1⟩ := h1.means
  obtain ⟨s2, m2⟩ := h2.means
  have hc : canCompare d1 d2 = some true := by
    simp only [compareDatum, Option.bind_eq_bind] at he
    cases hc : canCompare d1 d2 with
    | none => simp [hc] at he
    | some b => cases b with
      | true => rfl
      | false => simp [hc] at he
  rw [C42_compares_values u1 u2 hc m1 m2] at he
  have := (C45_zero_iff_equal s1 s2).mp (Option.some.inj he)
  subst this
  exact hash_alike ha u1.ok u2.ok (m1.stands u1.ok) (m2.stands u2.ok) h

/-- C87. Every type without FLOATs is in this relation to itself. -/
theorem C87_same_type : ∀ {d : Dti}, NoFloat d → HashAlike d d := by
  intro d
  induction d using Dti.ind with
  | hp k hd =>
    intro hf
    cases k with
    | bitField => exact .bits _ _ rfl
    | float => exact absurd rfl hf
    | uint => exact .whole _ _ _ _ (.inl rfl) (.inl rfl) rfl
    | largeUint => exact .whole _ _ _ _ (.inr (.inl rfl)) (.inr (.inl rfl)) rfl
    | int => exact .whole _ _ _ _ (.inr (.inr (.inl rfl))) (.inr (.inr (.inl rfl))) rfl
    | largeInt => exact .whole _ _ _ _ (.inr (.inr (.inr rfl))) (.inr (.inr (.inr rfl))) rfl
  | hs bin hd => intro _; exact .strs _ _ _ _
  | ht hd fs ih =>
    intro hf
    refine .tups _ _ _ _ rfl (fun i f1 t1 f2 t2 e1 e2 => ?_)
    rw [e1] at e2
    cases e2
    exact ih f1 t1 (List.mem_of_getElem? e1) (NoFloatAll.mem hf (List.mem_of_getElem? e1))
  | ha hd c ih => intro hf; exact .arrs _ _ _ _ (ih hf)

example : NoFloat exFinal ∧ HashAlike exFinal exFinal :=
  ⟨by simp [exFinal, NoFloat, NoFloatAll], C87_same_type (by simp [exFinal, NoFloat, NoFloatAll])⟩

/-- Arrays of numbers of two bytes, one of nullable unsigned, one of signed ones. -/
def exSigned : Dti := .arr { isFinal := true, isVar := true, varCount := true, maxSize := 70000, size := 3 }
  (.prim .int { isFinal := true, size := 2 })

theorem exSigned_usable : Usable exSigned :=
  ⟨.arr { varCount := true, maxSize := 70000 } (.prim .int { size := 2 }),
    .arr _ _ rfl (.prim _ _ rfl), rfl, .arr _ _ (.prim _ _) (by decide) (by decide)⟩

example : Usable exInts ∧ Usable exSigned ∧ HashAlike exInts exSigned ∧
    compareDatum (.ptr [2, 0, 3, 5, 0, 44, 1]) (some exInts) (.ptr [2, 0, 0, 5, 0, 44, 1]) (some exSigned) = some 0 ∧
    hashDatum cat [] exInts (.ptr [2, 0, 3, 5, 0, 44, 1]) = some [5, 0, 44, 1] ∧
    hashDatum cat [] exSigned (.ptr [2, 0, 0, 5, 0, 44, 1]) = some [5, 0, 44, 1] :=
  ⟨exInts_usable, exSigned_usable, .arrs _ _ _ _ (.whole _ _ _ _ (.inl rfl) (.inr (.inr (.inl rfl))) rfl),
    by decide +kernel, by decide +kernel, by decide +kernel⟩

/-- C87. `hash_data_for_type_info` on stored data, strings and numbers included, is `hash_datum` on the
datum that `get_datum_for_type_info` reads there. -/
theorem C87_stored {σ : Type} (upd : σ → UInt8 → σ) {d : Dti} {m : Bytes} {S : Nat} (hu : Usable d) (ht : IsTuple d m S) (h : σ) :
    ∃ v h', d.getDatum m = some (some v) ∧ Proper d v ∧ hashDatum upd h d v = some h' ∧ hashData upd h d m = some h' := by
  obtain ⟨hS, y, he⟩ := ht
  obtain ⟨v, g, hv⟩ := getDatum_ok hu.ok hS he
  refine ⟨v, _, g, ?_, hashDatum_feed hu.ok hv (.inr (.inr ⟨_, he⟩)) h, hashData_feed hu.ok hS he h⟩
  have hm := shows_means hv (.inr (.inr ⟨_, he⟩))
  rcases hm with ⟨rfl, _⟩ | ⟨hn, hm⟩
  · exact .inl rfl
  · refine .inr ⟨hn, ?_⟩
    cases d with
    | prim k hh => obtain ⟨x, hx, _⟩ := hm; exact ⟨x, hx⟩
    | str b hh => obtain ⟨x, hx, _⟩ := hm; exact ⟨x, hx⟩
    | tup hh fs => obtain ⟨m', S', vs, rfl, a, b, _⟩ := hm; exact ⟨m', S', rfl, a, _, b⟩
    | arr hh c => obtain ⟨m', S', vs, rfl, a, b, _⟩ := hm; exact ⟨m', S', rfl, a, _, b⟩

/-- C87. So stored data of such types whose data compare as equal have the same hash. -/
theorem C87_equal_stored {σ : Type} (upd : σ → UInt8 → σ) {d1 d2 : Dti} (u1 : Usable d1) (u2 : Usable d2) (ha : HashAlike d1 d2)
    {m1 m2 : Bytes} {S1 S2 : Nat} (t1 : IsTuple d1 m1 S1) (t2 : IsTuple d2 m2 S2) {v1 v2 : Datum}
    (g1 : d1.getDatum m1 = some (some v1)) (g2 : d2.getDatum m2 = some (some v2))
    (he : compareDatum v1 (some d1) v2 (some d2) = some 0) (h : σ) :
    ∃ h', hashData upd h d1 m1 = some h' ∧ hashData upd h d2 m2 = some h' := by
  obtain ⟨w1, x1, a1, b1, c1, e1⟩ := C87_stored upd u1 t1 h
  obtain ⟨w2, x2, a2, b2, c2, e2⟩ := C87_stored upd u2 t2 h
  rw [a1] at g1
  rw [a2] at g2
  cases g1; cases g2
  obtain ⟨h', p1, p2⟩ := C87_equal upd u1 u2 ha b1 b2 he h
  rw [c1] at p1; rw [c2] at p2
  cases p1; cases p2
  exact ⟨_, e1, e2⟩

/-- A string of fixed size, padded with 0s, a string of variable size and an array of bytes. -/
def exPadded : Dti := .str false { isFinal := true, count := 4, size := 4 }
def exOctets : Dti := .arr { isFinal := true, isVar := true, varCount := true, maxSize := 300, size := 2 }
  (.prim .uint { isFinal := true, size := 1 })

theorem exPadded_usable : Usable exPadded :=
  ⟨.str false { count := 4 }, .str _ _ rfl, rfl, .str _ _ (by decide) (by decide)⟩

theorem exOctets_usable : Usable exOctets :=
  ⟨.arr { varCount := true, maxSize := 300 } (.prim .uint { size := 1 }),
    .arr _ _ rfl (.prim _ _ rfl), rfl, .arr _ _ (.prim _ _) (by decide) (by decide)⟩

example : HashAlike exPadded exStr ∧ HashAlike exStr exOctets ∧ HashAlike exOctets exPadded ∧
    compareDatum (.bytes [104, 105]) (some exPadded) (.ptr [2, 0, 104, 105]) (some exOctets) = some 0 ∧
    exPadded.getDatum [104, 105, 0, 0] = some (some (.bytes [104, 105])) ∧
    hashData cat [] exPadded [104, 105, 0, 0] = some [104, 105] ∧ hashData cat [] exStr [2, 104, 105] = some [104, 105] ∧
    hashData cat [] exOctets [2, 0, 104, 105] = some [104, 105] :=
  ⟨.strs _ _ _ _, .strArr _ _ _ _ _ (.inl rfl) rfl, .arrStr _ _ _ _ _ (.inl rfl) rfl, by decide +kernel, by decide +kernel,
    by decide +kernel, by decide +kernel, by decide +kernel⟩

/-- C87. "STRING, variable sized STRING and an ARRAY of UINT_NON_NULLABLE[1] with same content hash to the
same value" (/repo/inc/tuplestore/data_type_info.h:359), namely to that of the bytes of the content: of a
string up to its first 0, of a binary and of an array all. -/
theorem C87_content {σ : Type} (upd : σ → UInt8 → σ) (h : σ) {d : Dti} {m b : Bytes} {S : Nat} (hu : Usable d) (ht : IsTuple d m S) :
    (∀ bin g, d = .str bin g → d.getDatum m = some (some (.bytes b)) → hashData upd h d m = some (b.foldl upd h)) ∧
    (∀ g hc, d = .arr g (.prim .uint hc) → hc.size = 1 → countOf (.ptr m) d = some b.length →
      (∀ (i : Nat) (hi : i < b.length), contOf (.ptr m) d i = some (some (.uint b[i].toNat, some (.prim .uint hc)))) →
      hashData upd h d m = some (b.foldl upd h)) := by
  obtain ⟨v, h', g1, g2, g3, g4⟩ := C87_stored upd hu ht h
  refine ⟨?_, ?_⟩
  · rintro bin g rfl hg
    rw [hg] at g1
    cases g1
    rw [g4, ← g3]
    simp [hashDatum, Datum.isNull, Datum.asBytes, hashBytes]
  · rintro g hc rfl h1 hcount hel
    have hv : v = .ptr m := by simp [getDatum] at g1; exact g1.symm
    subst hv
    rw [g4, ← g3]
    have hok : TyOk (.prim .uint hc) := by cases hu.ok; assumption
    have kd : Kids (.arr g (.prim .uint hc)) (.ptr m) (b.map (fun c => .num (.ofInt c.toNat))) := by
      refine ⟨by simpa using hcount, fun i x hx => ?_, fun _ _ e => by cases e⟩
      simp only [List.getElem?_map, Option.map_eq_some_iff] at hx
      obtain ⟨c, hc1, rfl⟩ := hx
      obtain ⟨hi, rfl⟩ := List.getElem?_eq_some_iff.mp hc1
      exact ⟨_, _, hel i hi, by simp [tyAt], hok, .prim rfl rfl⟩
    exact bytes_hash (.inl rfl) h1 hu.ok rfl (kd.stands rfl rfl nofun) h

example : Usable exOctets ∧ countOf (.ptr [2, 0, 104, 0]) exOctets = some 2 ∧
    contOf (.ptr [2, 0, 104, 0]) exOctets 1 = some (some (.uint 0, some (.prim .uint { isFinal := true, size := 1 }))) ∧
    hashData cat [] exOctets [2, 0, 104, 0] = some [104, 0] ∧ hashData cat [] exStr [2, 104, 0] = some [104] :=
  ⟨exOctets_usable, by decide +kernel, rfl, by decide +kernel, by decide +kernel⟩

/-- C87. The size of a whole number shows in its hash: one that is stored in so many bytes is hashed by so
many. Hence the same number in two types of different sizes, which compare as equal, is hashed by different
bytes. -/
theorem C87_width {k1 k2 : PKind} {g1 g2 : Hdr} (w1 : Whole k1) (w2 : Whole k2) (u1 : Usable (.prim k1 g1)) (u2 : Usable (.prim k2 g2))
    (hs : ShortNames (.prim k1 g1)) {v1 v2 : Datum} {z : Int} (e1 : intOf k1 v1 = some z) (e2 : intOf k2 v2 = some z)
    (hw : g1.size ≠ g2.size) :
    compareDatum v1 (some (.prim k1 g1)) v2 (some (.prim k2 g2)) = some 0 ∧
    hashDatum cat [] (.prim k1 g1) v1 ≠ hashDatum cat [] (.prim k2 g2) v2 := by
  have nn : ∀ {k v} {z : Int}, intOf k v = some z → v.isNull = false := by
    intro k v z h; cases k <;> cases v <;> simp_all [intOf, Datum.isNull, Datum.asUint, Datum.asInt]
  have hcat : ∀ (b h : Bytes), hashBytes cat h b = h ++ b := by
    intro b
    induction b with
    | nil => intro h; simp [hashBytes]
    | cons c b ih => intro h; have := ih (cat h c); simp only [hashBytes, List.foldl_cons] at this ⊢; rw [this]; simp [cat]
  refine ⟨?_, ?_⟩
  · rw [C43_integers_by_value u1 u2 (C43_numerals_comparable hs) e1 e2]
    simp
  · obtain ⟨a, _, q1⟩ := whole_hash (upd := cat) w1 u1.ok (nn e1) (numOf_int e1)
    obtain ⟨b, _, q2⟩ := whole_hash (upd := cat) w2 u2.ok (nn e2) (numOf_int e2)
    rw [q1, q2, hcat, hcat]
    intro e
    have := congrArg (fun o : Option Bytes => (o.map List.length)) e
    simp only [intEnc, List.nil_append, Option.map_some, leEnc_length, Option.some.injEq] at this
    exact hw this

example : intOf .uint (.uint 5) = some 5 ∧ intOf .int (.int 5) = some 5 ∧
    hashDatum cat [] (.prim .uint { isFinal := true, size := 1 }) (.uint 5) = some [5] ∧
    hashDatum cat [] (.prim .int { isFinal := true, size := 2 }) (.int 5) = some [5, 0] :=
  ⟨by decide, by decide, by decide +kernel, by decide +kernel⟩

end Props
end TS
