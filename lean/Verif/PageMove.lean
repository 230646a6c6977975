import Verif.PropsPage3
/-
Appending a whole list of tuples to a page: whether all of them are accepted is decided by one
comparison made before the first of them.
-/
namespace TS

variable {ps h : Nat} {d : SizeDef} {pg : Bytes} {s : Slots}

/-- What has to hold of the page `pg` before the first append, for all of `es` to be accepted. -/
def Room (ps h : Nat) (d : SizeDef) (pg : Bytes) (s es : Slots) : Prop :=
  if d.isVar then usedSpace ps d es ≤ freeBytes ps h d pg s
  else s.length + es.length ≤ Fixed.cap ps h d

theorem PRep.append_room (r : PRep ps h d pg s) {e : Option Bytes} (he : ExtOk d e) :
    ∃ pg' b, Api.append pg ps d e = some (pg', b) ∧ (b = true ↔ Room ps h d pg s [e]) ∧
      (b = true → PRep ps h d pg' (s ++ [e]) ∧
        ∀ es, Room ps h d pg s (e :: es) ↔ Room ps h d pg' (s ++ [e]) es) ∧
      (b = false → pg' = pg) := by
  rcases r with r | ⟨r, hw⟩
  · have h4 : wAddr ps h (4 + (s.length + 1)) = wAddr ps h (4 + s.length) + vsz ps := by
      have := wAddr_add ps h (4 + s.length) 1
      rw [← Nat.add_assoc]; omega
    by_cases hc : vsz ps + dataLen e ≤ Slotted.free ps h pg s
    · obtain ⟨pg', h1, h2, -, h3⟩ := (r.append he).1 hc
      refine ⟨pg', true, by simpa [Api.append, slotted_var r] using h1, ?_, fun _ => ⟨Or.inl h2, ?_⟩,
        by simp⟩
      · simp only [Room, freeBytes, r.var, if_true, usedSpace_var r.var]
        simp; omega
      · intro es
        simp only [Room, freeBytes, r.var, if_true, usedSpace_var r.var, Slotted.free, h3]
        simp only [Slotted.free] at hc
        simp [Nat.add_mul]
        omega
    · refine ⟨pg, false, ?_, ?_, by simp, by simp⟩
      · simpa [Api.append, slotted_var r] using (r.append he).2 (by omega)
      · simp only [Room, freeBytes, r.var, if_true, usedSpace_var r.var]
        simp; omega
  · by_cases hc : s.length < Fixed.cap ps h d
    · obtain ⟨pg', h1, h2, -⟩ := (r.append he).1 hc
      refine ⟨pg', true, by simpa [Api.append, slotted_fix r] using h1, ?_,
        fun _ => ⟨Or.inr ⟨h2, hw.add he (by simp)⟩, ?_⟩, by simp⟩
      · simp [Room, r.fixed]; omega
      · intro es; simp [Room, r.fixed]; omega
    · refine ⟨pg, false, ?_, ?_, by simp, by simp⟩
      · simpa [Api.append, slotted_fix r] using (r.append he).2 hc
      · simp [Room, r.fixed]; omega

theorem Room.first {e : Option Bytes} {es : Slots} (hr : Room ps h d pg s (e :: es)) :
    Room ps h d pg s [e] := by
  unfold Room at *
  split <;> rename_i hv
  · rw [if_pos hv, usedSpace_cons] at hr
    rw [usedSpace_cons]
    have : usedSpace ps d [] = 0 := rfl
    omega
  · rw [if_neg hv] at hr; simp at hr ⊢; omega

theorem Room.nil (r : PRep ps h d pg s) : Room ps h d pg s [] := by
  unfold Room
  rcases r with r | ⟨r, -⟩
  · simp [r.var, usedSpace]
  · simpa [r.fixed] using r.le

/-- Appending a list of slots one after the other never faults, all the appends are accepted exactly
if there is room for all of them, and then the page is reachable with the slots at its end. -/
theorem append_all (l : Legal ps h d) {es : Slots} : ∀ {pg : Bytes} {s : Slots},
    Reach ps h d pg s → AllWF d es →
    ∃ pg' rs, run ps d pg (es.map Op.append) = some (pg', rs) ∧ rs.length = es.length ∧
      (rs = List.replicate es.length 1 ↔ Room ps h d pg s es) ∧
      (rs = List.replicate es.length 1 → Reach ps h d pg' (s ++ es)) := by
  induction es with
  | nil =>
    intro pg s hr _
    exact ⟨pg, [], rfl, rfl, by simpa using Room.nil (hr.rep l.fit), fun _ => by simpa using hr⟩
  | cons e es ih =>
    intro pg s hr hw
    have he : ExtOk d e := hw e (by simp)
    obtain ⟨pg1, b, h1, h2, h3, h4⟩ := (hr.rep l.fit).append_room he
    obtain ⟨p, n, s1, k1, k2, k3⟩ := Props.reach_step l hr (op := .append e) he
    have hs : step ps d pg (.append e) = some (pg1, b.toNat) := by simp [step, h1]
    rw [hs] at k1; cases k1
    obtain ⟨pg', rs, m1, m0, m2, m3⟩ := ih k3 (fun x hx => hw x (by simp [hx]))
    refine ⟨pg', b.toNat :: rs, by simp [run, hs, m1], by simp [m0], ?_, ?_⟩
    · cases b with
      | true =>
        rcases k2 with ⟨-, rfl⟩ | ⟨k, -⟩
        · rw [(h3 rfl).2 es, ← m2]; simp [List.replicate_succ]
        · simp at k
      | false =>
        have hn : ¬ Room ps h d pg s (e :: es) := fun hx => by
          have := h2.mpr hx.first; cases this
        simp [List.replicate_succ, hn]
    · intro hx
      cases b with
      | true =>
        rcases k2 with ⟨-, rfl⟩ | ⟨k, -⟩
        · simp [List.replicate_succ] at hx
          simpa using m3 hx
        · simp at k
      | false => simp [List.replicate_succ] at hx

end TS
