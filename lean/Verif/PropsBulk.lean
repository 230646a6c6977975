import Verif.PropsMove
/-
C88, any tuples: whether a batch of tuples can be appended is decided by the sum of what they need.
-/
namespace TS
namespace Props

variable {ps h : Nat} {d : SizeDef} {pg : Bytes} {s : Slots}

/-- The space that is needed for each of the tuples, `get_space_to_be_occupied_by_tuple_on_page`, added up. -/
def spaceForAll (ps : Nat) (d : SizeDef) : Slots → Option Nat
  | [] => some 0
  | e :: es => do pure ((← Api.spaceFor ps d e) + (← spaceForAll ps d es))

theorem spaceForAll_eq (r : PRep ps h d pg s) : ∀ {es : Slots}, AllWF d es → spaceForAll ps d es = some (usedSpace ps d es) := by
  intro es
  induction es with
  | nil => intro _; rfl
  | cons e es ih =>
    intro hw
    have h1 := r.spaceFor (ext := e) (hw e (by simp))
    simp only [spaceForAll, h1, ih (fun x hx => hw x (by simp [hx])), Option.bind_eq_bind, Option.bind_some, Option.pure_def,
      usedSpace_cons]

/-- C88, any tuples, slotted pages: a batch of tuples and NULLs is appended without any refusal exactly if what they need added up is at most
the free space of the page, before the first is appended. -/
theorem C88_batch (l : Legal ps h d) (hv : d.isVar = true) (hr : Reach ps h d pg s) {es : Slots} (hw : AllWF d es) :
    ∃ x f pg' rs, spaceForAll ps d es = some x ∧ Api.freeSpace pg ps d = some f ∧
      run ps d pg (es.map Op.append) = some (pg', rs) ∧ (rs = List.replicate es.length 1 ↔ x ≤ f) ∧
      (x ≤ f → Reach ps h d pg' (s ++ es) ∧ Observe ps d pg' (s ++ es)) := by
  obtain ⟨pg', rs, h1, -, h2, h3⟩ := append_all l hr hw
  have h2 : rs = List.replicate es.length 1 ↔ usedSpace ps d es ≤ freeBytes ps h d pg s := by
    rw [h2]; unfold Room; rw [if_pos hv]
  exact ⟨_, _, pg', rs, spaceForAll_eq (hr.rep l.fit) hw, (hr.rep l.fit).freeSpace, h1, h2,
    fun hx => ⟨h3 (h2.mpr hx), C03_C04_observe l (h3 (h2.mpr hx))⟩⟩

/-- C88, any tuples: the order in which a batch is appended makes no difference to whether something is refused, on either kind of page. -/
theorem C88_order (l : Legal ps h d) (hr : Reach ps h d pg s) {es fs : Slots} (hw : AllWF d es) (hp : es.Perm fs) :
    ∃ p q rs ts, run ps d pg (es.map Op.append) = some (p, rs) ∧ run ps d pg (fs.map Op.append) = some (q, ts) ∧
      (rs = List.replicate es.length 1 ↔ ts = List.replicate fs.length 1) := by
  have hw' : AllWF d fs := fun x hx => hw x (hp.symm.subset hx)
  obtain ⟨p, rs, h1, -, h2, -⟩ := append_all l hr hw
  obtain ⟨q, ts, k1, -, k2, -⟩ := append_all l hr hw'
  refine ⟨p, q, rs, ts, h1, k1, ?_⟩
  rw [h2, k2]
  unfold Room
  rw [usedSpace_perm hp, hp.length_eq]

/-! ### Examples -/

/-- A reached slotted page, its own tuples as the batch, and another order of them. -/
example : ∃ pg, Legal 128 8 exVar ∧ Reach 128 8 exVar pg exVarSlots ∧ AllWF exVar exVarSlots ∧ 1 < exVarSlots.length ∧
    exVarSlots.reverse.Perm exVarSlots ∧ exVar.isVar = true := by
  obtain ⟨pg, hp⟩ := exVar_reach
  exact ⟨pg, exVar_legal, hp, (hp.rep exVar_legal.fit).wf, by decide, List.reverse_perm _, rfl⟩

end Props
end TS
