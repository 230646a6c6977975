import Verif.PropsPointer
import Verif.PropsOnPage
import Verif.OnPageAny
/-
Property C69 continued: pointers to other places of the page.
-/
namespace TS
namespace Props

variable {ps h : Nat} {d : SizeDef} {pg : Bytes} {s : Slots}

/-- Appending a tuple that lies on the page, whether there is room or not. -/
theorem slotted_appendAny (r : Slotted.Rep ps h d pg s) {q : Nat} {t : Bytes}
    (hw : WellFormed d t) (hs : Src ps h (4 + s.length) pg q t)
    (hq : wAddr ps h (5 + s.length) ≤ q ∨ q + t.length ≤ wAddr ps h 0 ∨
      Slotted.eofs ps h pg ≤ q) :
    Slotted.appendAt pg ps d (some (.on q)) = Slotted.append pg ps d (some t) := by
  have hx : ExtOk d (some t) := by intro x hx; cases hx; exact hw
  by_cases hc : vsz ps + t.length ≤ Slotted.free ps h pg s
  · have hsp := r.space
    have hel := r.eofs_le
    have h5 : wAddr ps h (5 + s.length) = wAddr ps h (4 + s.length) + vsz ps := by
      rw [show 5 + s.length = 4 + s.length + 1 by omega, wAddr_succ]
    unfold Slotted.free at hc
    have := vsz_pos ps
    refine Slotted.appendAny_eq (n := s.length) ⟨⟨r.base.len, r.base.hdr, r.base.lt, by omega⟩,
      hs.rd, hs.le, ?_⟩ hw r.cnt
    rcases hq with hq | hq | hq
    · exact .inl hq
    · exact .inr hq
    · left; omega
  · have h1 : Slotted.canAppendAt pg ps d (some (.on q)) = some false := by
      rw [Slotted.canAppendAt_eq hs.holds hw, r.canAppend hx]
      exact congrArg some (decide_eq_false hc)
    have h2 : Slotted.canAppend pg ps d (some t) = some false := by
      rw [r.canAppend hx]
      exact congrArg some (decide_eq_false hc)
    simp [Slotted.appendAt, Slotted.append, h1, h2]

/-- C69: nor need the external tuple be one of the tuples of the page. A tuple written into the page header, or into
the free space of the page beyond the place of the slot to come, is taken from there all the same. -/
theorem C69_elsewhere (l : Legal ps h d) (hr : Reach ps h d pg s) {q : Nat} {t : Bytes}
    (hw : WellFormed d t) (hq : load pg q t.length = some t)
    (hc : q + t.length ≤ vsz ps + h ∨ vsz ps + h + (if d.isVar then (5 + s.length) * vsz ps
      else 2 * vsz ps + bitmapBytes (Fixed.cap ps h d)) ≤ q) (i : Nat) :
    Api.appendAt pg ps d (some (.on q)) = Api.append pg ps d (some t) ∧
    Api.insertAt pg ps d i (some (.on q)) = Api.insert pg ps d i (some t) ∧
    Api.updateAt pg ps d i (some (.on q)) = Api.update pg ps d i (some t) := by
  have hle : q + t.length ≤ pg.length := by
    unfold load at hq
    split at hq
    · assumption
    · cases hq
  have hrd : rd pg q t.length = t := by
    rw [load_eq hle, Option.some.injEq] at hq
    exact hq
  rcases hr.rep l.fit with r | ⟨r, -⟩
  · rw [r.base.len] at hle
    rw [r.var, if_pos rfl] at hc
    have hc' : wAddr ps h (5 + s.length) ≤ q ∨ q + t.length ≤ wAddr ps h 0 := by
      unfold wAddr; omega
    have hm := wAddr_mono ps h (show 4 + s.length ≤ 5 + s.length by omega)
    have hs : Src ps h (4 + s.length) pg q t := ⟨r.base, hrd, hle, by omega⟩
    have ha := slotted_appendAny r hw hs (by omega)
    simp only [Api.appendAt, Api.append, Api.insertAt, Api.insert, Api.updateAt, Api.update,
      slotted_var r, if_true]
    exact ⟨ha, Slotted.insertAny_eq ha, Slotted.updateAny_eq hs hw r.cnt i⟩
  · rw [r.base.len] at hle
    rw [r.fixed, if_neg (by simp)] at hc
    have hs : Fixed.Src ps h d pg q t := ⟨r.base, hrd, Fixed.ext_length r.fixed
      (by intro x hx; cases hx; exact hw), r.pos, hle, by
        unfold Fixed.tAddr wAddr; omega⟩
    have ha := Fixed.appendAny_eq hs
    simp only [Api.appendAt, Api.append, Api.insertAt, Api.insert, Api.updateAt, Api.update,
      slotted_fix r, Bool.false_eq_true, if_false]
    exact ⟨ha, Fixed.insertAny_eq ha, Fixed.updateAny_eq hs (by rw [r.cnt]; exact r.le) i⟩

/-- C69: the counters of the page are another matter. Given a pointer to the tuple count of a fixed
array page, `append_tuple_on_page` stores the count as it is after having been incremented. -/
theorem C69_counter : ∃ pg pg' q t, Legal 128 8 exFix ∧ Reach 128 8 exFix pg exFixSlots ∧
    WellFormed exFix t ∧ load pg q t.length = some t ∧
    Api.appendAt pg 128 exFix (some (.on q)) = some (pg', true) ∧
    Api.append pg 128 exFix (some t) ≠ some (pg', true) := by
  have key : ((exPage exFix exFixOps).bind fun (x : Bytes × List Nat) => do
      let t ← load x.1 9 exFix.size
      let y ← Api.appendAt x.1 128 exFix (some (.on 9))
      let z ← Api.append x.1 128 exFix (some t)
      pure (decide (x.2 = [1, 1, 1, 1, 0, 1, 0, 1, 1, 1]) && y.2 && decide (y.1 ≠ z.1) &&
        decide (t.length = exFix.size))) = some true := by
    decide +kernel
  cases hp : exPage exFix exFixOps with
  | none => rw [hp] at key; cases key
  | some x =>
    obtain ⟨pg, rs⟩ := x
    rw [hp] at key
    simp only [Option.bind_some, Option.bind_eq_bind] at key
    cases h1 : load pg 9 exFix.size with
    | none => rw [h1] at key; cases key
    | some t =>
      cases h2 : Api.appendAt pg 128 exFix (some (.on 9)) with
      | none => rw [h1, h2] at key; simp at key
      | some y =>
        cases h3 : Api.append pg 128 exFix (some t) with
        | none => rw [h1, h2] at key; simp [h3] at key
        | some z =>
          obtain ⟨y1, y2⟩ := y
          obtain ⟨z1, z2⟩ := z
          rw [h1, h2] at key
          simp [h3] at key
          obtain ⟨⟨⟨k1, k2⟩, k3⟩, k4⟩ := key
          obtain ⟨p, e1, e2⟩ := exPage_spec hp
          refine ⟨pg, y1, 9, t, exFix_legal, ?_, ?_, by rw [k4]; exact h1, by rw [h2, k2], ?_⟩
          · refine ⟨List.replicate 128 7, p, exFixOps, rs, by simp, e1, exFix_ops, e2, ?_⟩
            rw [k1]
            exact .cons (Or.inl ⟨rfl, rfl⟩) <| .cons (Or.inl ⟨rfl, rfl⟩) <|
              .cons (Or.inl ⟨rfl, by decide, rfl⟩) <| .cons (Or.inl ⟨rfl, by decide, rfl⟩) <|
              .cons ⟨rfl, rfl⟩ <| .cons (Or.inl ⟨rfl, by decide, by decide, rfl⟩) <|
              .cons (Or.inr ⟨rfl, by decide, rfl⟩) <| .cons (Or.inl ⟨rfl, rfl⟩) <|
              .cons (Or.inl ⟨rfl, by decide, rfl⟩) <|
              .cons (Or.inl ⟨rfl, rfl⟩) <| .nil _
          · constructor
            · rw [k4]; rfl
            · rw [k4]; decide
            · rw [k4]; decide
          · rw [h3]
            simp only [ne_eq, Option.some.injEq, Prod.mk.injEq, not_and]
            intro he
            exact absurd he.symm k3

/-- `C69_elsewhere`: a tuple written into the header of a page. -/
example : ∃ pg, Legal 128 8 exVar ∧ Reach 128 8 exVar pg exHoleSlots ∧ WellFormed exVar [3, 5, 6] ∧
    load pg 4 3 = some [3, 5, 6] ∧ 4 + 3 ≤ vsz 128 + 8 := by
  obtain ⟨pg, hp⟩ := exHole_reach
  obtain ⟨p, n, s', h1, h2, h3⟩ := reach_step exVar_legal hp (op := .writeHeader 3 [3, 5, 6])
    (by simp [OpOk])
  obtain ⟨-, rfl⟩ := h2
  refine ⟨p, exVar_legal, h3, by constructor <;> decide, ?_, by decide⟩
  simp only [step, Option.bind_eq_bind, Option.bind_eq_some_iff] at h1
  obtain ⟨p1, h4, h5⟩ := h1
  simp at h5
  rw [← h5.1]
  have hl := (hp.rep exVar_legal.fit).len
  rw [Api.writeHeader, show vsz 128 + 3 = 4 from rfl, store_eq (by rw [hl]; decide),
    Option.some.injEq] at h4
  rw [← h4, load_eq (by rw [wr_length, hl]; decide)]
  exact congrArg some (rd_wr_same pg 4 [3, 5, 6] (by rw [hl]; decide))

/-- `C69_same`, `C69_self`: the lowest tuple of a page
with a hole right above it. Replaced by itself it moves up by two bytes, onto its old place. -/
example : ∃ pg, Legal 128 8 exVar ∧ Reach 128 8 exVar pg exHoleSlots ∧
    Api.getNth pg 128 exVar 2 = some (some 119) ∧ lookup exHoleSlots 2 = some [4, 7, 7, 7] ∧
    (Api.updateAt pg 128 exVar 2 (some (.on 119))).bind (fun x => Api.getNth x.1 128 exVar 2) =
      some (some 121) ∧
    (Api.updateAt pg 128 exVar 2 (some (.on 119))).bind (fun x => Api.readNth x.1 128 exVar 2) =
      some (some [4, 7, 7, 7]) := by
  obtain ⟨pg, pg', h1, h2, -, h4, -, h6⟩ := exMoves_spec (ops := [.update 2 (some [4, 7, 7, 7])])
    (rs := [1]) (a0 := some 125) (a1 := none) (a2 := some 119) (a3 := none) (b0 := some 125)
    (b1 := none) (b2 := some 121) (b3 := none) (by decide +kernel)
  have l : Legal 128 8 exVar := exVar_legal
  obtain ⟨p, p2, g1, -, g3, g4⟩ := C69_self l h1 (i := 2) (by decide)
  obtain ⟨p', g1', hs⟩ := C69_same l h1 2
  rw [h4] at g1 g1'
  cases g1
  cases g1'
  have hu := (hs 2).2.2.2.2.2.2
  rw [g3] at hu
  have hu' : Api.update pg 128 exVar 2 (some [4, 7, 7, 7]) = some (p2, true) := hu.symm
  simp only [run, step, Option.bind_eq_bind, hu', Option.bind_some] at h2
  simp at h2
  subst h2
  refine ⟨pg, l, h1, h4, rfl, ?_, ?_⟩
  · rw [show Api.updateAt pg 128 exVar 2 (some (.on 119)) = some (p2, true) from g3]
    exact h6
  · rw [show Api.updateAt pg 128 exVar 2 (some (.on 119)) = some (p2, true) from g3]
    rw [Option.bind_some, (C03_C04_observe l g4).read]
    rfl

end Props
end TS
