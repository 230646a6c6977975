import Verif.OnPageRep
import Verif.PropsPage3
/-
Property C69: a pointer returned by `get_nth_tuple_on_page` may be given as the external tuple to
the functions that write to the same page.
-/
namespace TS
namespace Props

variable {ps h : Nat} {d : SizeDef} {pg : Bytes} {s : Slots}

/-- For memory apart from the page, the functions of OnPage.lean are those of Api.lean. -/
theorem at_out (pg : Bytes) (ps : Nat) (d : SizeDef) (i : Nat) (ext : Option Bytes) :
    Api.spaceForAt pg ps d (ext.map .out) = Api.spaceFor ps d ext ∧
    Api.canAppendAt pg ps d (ext.map .out) = Api.canAppend pg ps d ext ∧
    Api.appendAt pg ps d (ext.map .out) = Api.append pg ps d ext ∧
    Api.canInsertAt pg ps d i (ext.map .out) = Api.canInsert pg ps d i ext ∧
    Api.insertAt pg ps d i (ext.map .out) = Api.insert pg ps d i ext ∧
    Api.canUpdateAt pg ps d i (ext.map .out) = Api.canUpdate pg ps d i ext ∧
    Api.updateAt pg ps d i (ext.map .out) = Api.update pg ps d i ext := by
  cases ext <;> exact ⟨rfl, rfl, rfl, rfl, rfl, rfl, rfl⟩

/-- Where the pointer of `get_nth_tuple_on_page` points: at the bytes of the tuple, past all that
the functions write before they copy the tuple. -/
theorem getNth_place (r : PRep ps h d pg s) (j : Nat) :
    (∃ o t, Api.getNth pg ps d j = some (some o) ∧ lookup s j = some t ∧ HoldsAt pg o t ∧
      WellFormed d t ∧
      ((Slotted.Rep ps h d pg s ∧ Slotted.eofs ps h pg ≤ o) ∨
        (Fixed.Rep ps h d pg s ∧ t.length = d.size ∧ Fixed.tAddr ps h d 0 ≤ o))) ∨
    (Api.getNth pg ps d j = some none ∧ lookup s j = none) := by
  have hwf := r.wf
  rcases r.getNth j with ⟨o, t, hg, hi, hb, hr, -⟩ | ⟨hg, hn⟩
  · left
    refine ⟨o, t, hg, lookup_some hi, ⟨hb, hr⟩, hwf.get hi, ?_⟩
    rcases r with r | ⟨r, -⟩
    · left
      refine ⟨r, ?_⟩
      have hlv := r.live hi
      have hp := r.off_pos hi
      have : Slotted.getNth pg ps j = some (some (word ps h pg (4 + j))) := by
        simp only [Slotted.getNth, r.tupleCount, Option.bind_eq_bind, Option.bind_some]
        rw [if_neg (by omega), r.tupOff hlv.2.2.2.2]
        simp; omega
      simp only [Api.getNth, slotted_var r, if_true, this, Option.some.injEq] at hg
      omega
    · right
      have hd := r.data j t hi
      refine ⟨r, hd.1, ?_⟩
      have hj := (List.getElem?_eq_some_iff.mp hi).1
      have hle := r.le
      have : Fixed.getNth pg ps d j = some (some (Fixed.tAddr ps h d j)) := by
        simp only [Fixed.getNth, r.tupleCount, Option.bind_eq_bind, Option.bind_some]
        rw [if_neg (by omega), Fixed.offBits_eq r.base]
        simp [r.getBit hi, Fixed.offIth_eq r.base r.pos (show j ≤ Fixed.cap ps h d by omega)]
      simp only [Api.getNth, slotted_fix r, this, Option.some.injEq, Bool.false_eq_true,
        if_false] at hg
      have := Fixed.tAddr_mono (ps := ps) (h := h) (d := d) (Nat.zero_le j)
      omega
  · right
    exact ⟨hg, lookup_none hn⟩

/-- C69: take the pointer that `get_nth_tuple_on_page` returns for any index `j` of a reachable
page (NULL if there is no tuple). Given it as the external tuple, every function that takes one
does what it does with a private copy of the tuple, byte for byte and with the same answer,
although it reads the tuple from the page it is changing. -/
theorem C69_same (l : Legal ps h d) (hr : Reach ps h d pg s) (j : Nat) :
    ∃ p, Api.getNth pg ps d j = some p ∧ ∀ i,
      Api.spaceForAt pg ps d (p.map .on) = Api.spaceFor ps d (lookup s j) ∧
      Api.canAppendAt pg ps d (p.map .on) = Api.canAppend pg ps d (lookup s j) ∧
      Api.appendAt pg ps d (p.map .on) = Api.append pg ps d (lookup s j) ∧
      Api.canInsertAt pg ps d i (p.map .on) = Api.canInsert pg ps d i (lookup s j) ∧
      Api.insertAt pg ps d i (p.map .on) = Api.insert pg ps d i (lookup s j) ∧
      Api.canUpdateAt pg ps d i (p.map .on) = Api.canUpdate pg ps d i (lookup s j) ∧
      Api.updateAt pg ps d i (p.map .on) = Api.update pg ps d i (lookup s j) := by
  rcases getNth_place (hr.rep l.fit) j with ⟨o, t, hg, hl, hh, hw, h1⟩ | ⟨hg, hl⟩
  · refine ⟨some o, hg, fun i => ?_⟩
    rw [hl]
    simp only [Option.map_some]
    rcases h1 with ⟨r, ho⟩ | ⟨r, htl, ho⟩
    · simp only [Api.spaceForAt, Api.canAppendAt, Api.appendAt, Api.canInsertAt, Api.insertAt,
        Api.canUpdateAt, Api.updateAt, Api.spaceFor, Api.canAppend, Api.append, Api.canInsert,
        Api.insert, Api.canUpdate, Api.update, slotted_var r, if_true,
        Slotted.canAppendAt_eq hh hw, Slotted.canUpdateAt_eq hh hw, r.appendAt hh hw ho,
        r.insertAt hh hw ho, r.updateAt hh hw ho, and_true]
      simp only [Slotted.spaceForAt, Slotted.spaceFor, hh.size hw, hw.size]
    · simp only [Api.spaceForAt, Api.canAppendAt, Api.appendAt, Api.canInsertAt, Api.insertAt,
        Api.canUpdateAt, Api.updateAt, Api.spaceFor, Api.canAppend, Api.append, Api.canInsert,
        Api.insert, Api.canUpdate, Api.update, slotted_fix r, Bool.false_eq_true, if_false,
        r.appendAt hh htl ho, r.insertAt hh htl ho, r.updateAt hh htl ho, and_true]
  · refine ⟨none, hg, fun i => ?_⟩
    rw [hl]
    exact at_out pg ps d i none

/-- C69: what the calls do to the logical page. The tuple (or tomb stone) of slot `j` is appended,
inserted at `i`, or replaces slot `i`; if there is no room the call returns 0 and the page is as
it was. The check made beforehand tells which. -/
theorem C69_effect (l : Legal ps h d) (hr : Reach ps h d pg s) (i j : Nat) :
    ∃ p, Api.getNth pg ps d j = some p ∧
      (∃ b pg', Api.canAppendAt pg ps d (p.map .on) = some b ∧
        Api.appendAt pg ps d (p.map .on) = some (pg', b) ∧
        (b = true → Reach ps h d pg' (s ++ [lookup s j])) ∧ (b = false → pg' = pg)) ∧
      (∃ b pg', Api.canInsertAt pg ps d i (p.map .on) = some b ∧
        Api.insertAt pg ps d i (p.map .on) = some (pg', b) ∧
        (b = true → i ≤ s.length ∧ Reach ps h d pg' (s.take i ++ lookup s j :: s.drop i)) ∧
        (b = false → pg' = pg)) ∧
      (∃ b pg', Api.canUpdateAt pg ps d i (p.map .on) = some b ∧
        Api.updateAt pg ps d i (p.map .on) = some (pg', b) ∧
        (b = true → i < s.length ∧ Reach ps h d pg' (s.set i (lookup s j))) ∧
        (b = false → pg' = pg)) := by
  obtain ⟨p, hg, hs⟩ := C69_same l hr j
  have R := hr.rep l.fit
  have he : ExtOk d (lookup s j) := by
    intro t ht
    exact R.wf.get (lookup_eq_some.mp ht)
  obtain ⟨-, h1, h2, h3, h4, h5, h6⟩ := hs i
  refine ⟨p, hg, ?_, ?_, ?_⟩
  · rw [h1, h2]
    obtain ⟨b, k0, k1, k2⟩ := R.append he
    obtain ⟨pg', n, s', g1, g2, g3⟩ := reach_step l hr (op := .append (lookup s j)) he
    cases b with
    | false => exact ⟨false, pg, k0, k2 rfl, by simp, fun _ => rfl⟩
    | true =>
      obtain ⟨pg1, k3, -⟩ := k1 rfl
      simp [step, k3] at g1
      obtain ⟨rfl, rfl⟩ := g1
      refine ⟨true, pg1, k0, k3, fun _ => ?_, by simp⟩
      rcases g2 with ⟨-, rfl⟩ | ⟨h0, -⟩
      · exact g3
      · simp at h0
  · rw [h3, h4]
    obtain ⟨b, k0, k1, k2⟩ := R.insert i he
    obtain ⟨pg', n, s', g1, g2, g3⟩ := reach_step l hr (op := .insert i (lookup s j)) he
    cases b with
    | false => exact ⟨false, pg, k0, k2 rfl, by simp, fun _ => rfl⟩
    | true =>
      obtain ⟨ki, pg1, k3, -⟩ := k1 rfl
      simp [step, k3] at g1
      obtain ⟨rfl, rfl⟩ := g1
      refine ⟨true, pg1, k0, k3, fun _ => ⟨ki, ?_⟩, by simp⟩
      rcases g2 with ⟨-, -, rfl⟩ | ⟨h0, -⟩
      · exact g3
      · simp at h0
  · rw [h5, h6]
    obtain ⟨b, k0, k1, k2⟩ := R.update i he
    obtain ⟨pg', n, s', g1, g2, g3⟩ := reach_step l hr (op := .update i (lookup s j)) he
    cases b with
    | false => exact ⟨false, pg, k0, k2 rfl, by simp, fun _ => rfl⟩
    | true =>
      obtain ⟨ki, pg1, k3, -⟩ := k1 rfl
      simp [step, k3] at g1
      obtain ⟨rfl, rfl⟩ := g1
      refine ⟨true, pg1, k0, k3, fun _ => ⟨ki, ?_⟩, by simp⟩
      rcases g2 with ⟨-, -, rfl⟩ | ⟨h0, -⟩
      · exact g3
      · simp at h0

/-- C69: a slot can always be updated with its own tuple; the call returns 1 and leaves the logical
page as it was (the bytes of the tuple may have moved to another place of the page). -/
theorem C69_self (l : Legal ps h d) (hr : Reach ps h d pg s) {i : Nat} (hi : i < s.length) :
    ∃ p pg', Api.getNth pg ps d i = some p ∧ Api.canUpdateAt pg ps d i (p.map .on) = some true ∧
      Api.updateAt pg ps d i (p.map .on) = some (pg', true) ∧ Reach ps h d pg' s := by
  obtain ⟨p, hg, -, -, b, pg', h1, h2, h3, h4⟩ := C69_effect l hr i i
  obtain ⟨p', hg', hs⟩ := C69_same l hr i
  rw [hg] at hg'; cases hg'
  have hset : s.set i (lookup s i) = s := by
    apply List.ext_getElem?
    intro k
    rw [List.getElem?_set]
    split
    · rename_i hik
      subst hik
      cases hx : s[i] <;> simp [lookup, hi, hx]
    · rfl
  have R := hr.rep l.fit
  have hb : b = true := by
    have hc := (hs i).2.2.2.2.2.1
    rw [h1] at hc
    rcases R with r | ⟨r, -⟩
    · have he : ExtOk d (lookup s i) := by
        intro t ht
        exact (PRep.wf (.inl r)).get (lookup_eq_some.mp ht)
      obtain ⟨b', k0, k1⟩ := r.canUpdate i he
      simp only [Api.canUpdate, slotted_var r, if_true, k0, Option.some.injEq] at hc
      rw [hc]
      refine k1.mpr ?_
      have h0 : s[i]? = some s[i] := List.getElem?_eq_getElem hi
      cases hx : s[i] with
      | none => simp [Slotted.UpdRoom, lookup, h0, hx]
      | some u =>
        simp [Slotted.UpdRoom, lookup, h0, hx]
    · simp only [Api.canUpdate, slotted_fix r, Bool.false_eq_true, if_false, r.canUpdate,
        Option.some.injEq] at hc
      rw [hc]; simpa using hi
  subst hb
  have := (h3 rfl).2
  rw [hset] at this
  exact ⟨p, pg', hg, h1, h2, this⟩

/-- Slot 2 holds a tuple that may be given to all the functions, slot 0 a tomb stone. -/
example : ∃ pg, Legal 128 8 exVar ∧ Reach 128 8 exVar pg exVarSlots ∧
    lookup exVarSlots 2 = some [3, 8, 8] ∧ lookup exVarSlots 0 = none ∧ 2 < exVarSlots.length := by
  obtain ⟨pg, hp⟩ := exVar_reach
  exact ⟨pg, exVar_legal, hp, by decide, by decide, by decide⟩
example : ∃ pg, Legal 128 8 exFix ∧ Reach 128 8 exFix pg exFixSlots ∧
    lookup exFixSlots 1 = some [2, 9, 9, 9] := by
  obtain ⟨pg, hp⟩ := exFix_reach
  exact ⟨pg, exFix_legal, hp, by decide⟩

end Props
end TS
