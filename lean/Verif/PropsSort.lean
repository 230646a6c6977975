import Verif.PropsPage2
/-
C14: compaction with any sorting algorithm.
-/
namespace TS

/-- `run_page_compaction_slotted_page`, /repo/src/page_layout_slotted.c:627-701, when `malloc` succeeds, with `sort` in place of
the external `heap_sort`, which is called only for lists of more than one element (lines 660-661). -/
def Slotted.compactBy (sort : List (Nat × Nat) → List (Nat × Nat)) (pg : Bytes) (ps : Nat) (d : SizeDef) : Option (Bytes × Bool) := do
  let n ← tupleCount pg ps
  let l ← collectLoop pg ps n 0
  let l := if l.length > 1 then sort l else l
  let (pg, e, moved) ← relocLoop ps d l pg ps false
  let pg ← storeVal pg ps (← offEofs pg ps) e
  pure (pg, moved)

namespace Props

variable {ps h : Nat} {d : SizeDef} {pg : Bytes} {s : Slots}

/-- `sort` only reorders, and puts larger offsets (the first components) first. It may treat equal offsets as it likes. -/
def SortsDown (sort : List (Nat × Nat) → List (Nat × Nat)) : Prop :=
  ∀ l, (sort l).Perm l ∧ (sort l).Pairwise (fun a b => b.1 ≤ a.1)

theorem strict_inj {w : List (Nat × Nat)} (hw : w.Pairwise (fun a b => b.1 < a.1)) : ∀ a ∈ w, ∀ b ∈ w, a.1 = b.1 → a = b := by
  induction hw with
  | nil => simp
  | @cons c w h1 _ ih =>
    intro a ha b hb hab
    rcases List.mem_cons.mp ha with ha | ha <;> rcases List.mem_cons.mp hb with hb | hb
    · rw [ha, hb]
    · have := h1 b hb; rw [ha] at hab; omega
    · have := h1 a ha; rw [hb] at hab; omega
    · exact ih a ha b hb hab

/-- C14: compaction does the same with every sorting algorithm, stable or not: no two tuples lie at the same offset. -/
theorem C14_any_sort (l : Legal ps h d) (hv : d.isVar = true) (hr : Reach ps h d pg s) {sort : List (Nat × Nat) → List (Nat × Nat)}
    (hs : SortsDown sort) : Slotted.compactBy sort pg ps d = Api.compact pg ps d true := by
  have r := var_rep l hv hr
  obtain ⟨q, hq, inv⟩ := r.cinv
  have hq' : (if q.length > 1 then sort q else q) = q.mergeSort (fun a b => decide (b.1 ≤ a.1)) := by
    have hp : (if q.length > 1 then sort q else q).Perm q := by
      split
      · exact (hs q).1
      · exact .refl _
    have hd : (if q.length > 1 then sort q else q).Pairwise (fun a b => b.1 ≤ a.1) := by
      split
      · exact (hs q).2
      · rename_i hn
        match q, hn with
        | [], _ => exact .nil
        | [_], _ => exact List.pairwise_singleton ..
        | _ :: _ :: _, hn => simp at hn
    have hpm := List.mergeSort_perm q (fun a b => decide (b.1 ≤ a.1))
    generalize q.mergeSort (fun a b => decide (b.1 ≤ a.1)) = w at *
    have hpos : ∀ x ∈ w, 1 ≤ Slotted.lenAt s x.2 := by
      intro x hx
      obtain ⟨⟨t, ht⟩, -, -⟩ := inv.todo x hx
      have := WellFormed.pos r.var (inv.lay.live x.2 t ht).2.2.2
      rw [Slotted.lenAt_some ht]; omega
    have hw : w.Pairwise (fun a b => b.1 < a.1) := by
      refine (List.Pairwise.and_mem.mp inv.sorted).imp ?_
      rintro a b ⟨-, hb, hab⟩
      have := hpos b hb
      omega
    refine List.Perm.eq_of_pairwise (le := fun a b => b.1 ≤ a.1) ?_ hd (hw.imp (by omega)) (hp.trans hpm.symm)
    intro a b ha hb h1 h2
    exact strict_inj hw a ((hp.trans hpm.symm).mem_iff.mp ha) b hb (by omega)
  simp only [Slotted.compactBy, Api.compact, Api.slotted, hv, if_true, Slotted.compact, r.tupleCount, Option.bind_eq_bind, Option.bind_some, hq, hq']

/-- Sorting by insertion, equal offsets in the opposite order. -/
def exSort : List (Nat × Nat) → List (Nat × Nat)
  | [] => []
  | a :: l => go a (exSort l)
where go (a : Nat × Nat) : List (Nat × Nat) → List (Nat × Nat)
  | [] => [a]
  | b :: l => if a.1 ≤ b.1 then b :: go a l else a :: b :: l

theorem exSort_go (a : Nat × Nat) (l : List (Nat × Nat)) : (exSort.go a l).Perm (a :: l) ∧
    (l.Pairwise (fun a b => b.1 ≤ a.1) → (exSort.go a l).Pairwise (fun a b => b.1 ≤ a.1)) := by
  induction l with
  | nil => simp [exSort.go]
  | cons b l ih =>
    unfold exSort.go
    split
    · refine ⟨(ih.1.cons b).trans (.swap ..), fun hp => ?_⟩
      rw [List.pairwise_cons] at hp ⊢
      refine ⟨fun c hc => ?_, ih.2 hp.2⟩
      rcases List.mem_cons.mp (ih.1.mem_iff.mp hc) with rfl | hc
      · assumption
      · exact hp.1 c hc
    · refine ⟨.refl _, fun hp => ?_⟩
      rw [List.pairwise_cons]
      refine ⟨fun c hc => ?_, hp⟩
      rcases List.mem_cons.mp hc with rfl | hc
      · omega
      · have := (List.pairwise_cons.mp hp).1 c hc; omega

theorem exSort_sorts : SortsDown exSort := by
  intro l
  induction l with
  | nil => simp [exSort]
  | cons a l ih => exact ⟨(exSort_go a _).1.trans (ih.1.cons a), (exSort_go a _).2 ih.2⟩

/-- On the page with a hole of the examples above, which compaction changes. -/
example : ∃ pg, Legal 128 8 exVar ∧ Reach 128 8 exVar pg exHoleSlots ∧ SortsDown exSort := by
  obtain ⟨pg, hp⟩ := exHole_reach
  exact ⟨pg, exVar_legal, hp, exSort_sorts⟩
example : ((exPage exVar exHoleOps).bind fun x => (Slotted.compactBy exSort x.1 128 exVar).map fun y => (y.2, decide (x.1 = y.1))) =
    some (true, false) := by decide +kernel

end Props
end TS
