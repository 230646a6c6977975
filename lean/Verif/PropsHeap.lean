import Verif.TypeHeapProof
import Verif.PropsSer
/-
Properties of `clone_type_info_recursively`, `destroy_type_info_recursively` and the allocations of
`deserialize_type_info`.
-/
namespace TS
namespace Obj

mutual
theorem ty_looks : ∀ o : Obj Part, ty (looks o) = ty o
  | .node a st x ks => by
    cases st with
    | true => simp only [looks, if_true]
    | false =>
      simp only [looks, Bool.false_eq_true, if_false]
      cases x with
      | prim k h => simp only [ty]
      | str b h => simp only [ty]
      | tup h fs => simp only [ty, tyAll_looks ks]
      | arr h => simp only [ty, tyAll_looks ks]
theorem tyAll_looks : ∀ ks : List (Obj Part), tyAll (looksAll ks) = tyAll ks
  | [] => rfl
  | k :: ks => by simp only [looksAll, tyAll, ty_looks k, tyAll_looks ks]
end

end Obj

namespace Props
open Mem Obj Dti

/-! ### C56: clone and destroy -/

section
variable {α : Type}

/-- C56. `clone_type_info_recursively`, called with `*allocation_error = 0`, never faults, whichever of its allocations fail. If one fails, it
returns NULL, sets `*allocation_error`, everything it allocated is freed again, nothing else is freed, and for every static type it
calls the one callback as often as the other. Otherwise it returns a type that looks like the original (same
contents, same static types); its objects are new and different from each other, everything else is still allocated,
and the callback was called for the static types in order, once for every time they occur. -/
theorem C56_clone (fails : Nat → Bool) (o : Obj α) {s : Mem} (hi : s.Inv) :
    ∃ r e s', clone fails o false s = some (r, e, s') ∧ s'.Inv ∧
      (r = none ↔ ∃ i, s.next ≤ i ∧ i < s'.next ∧ fails i = true) ∧ (e = true ↔ r = none) ∧
      (r = none → (∀ a, s'.live a = s.live a) ∧
        ∃ ev, s'.log = s.log ++ ev ∧ ∀ a, ev.count (.link a) = ev.count (.unlink a)) ∧
      (∀ c, r = some c → c.looks = o.looks ∧ c.own.Nodup ∧ (∀ a, a ∈ c.own → s.live a = false) ∧
        (∀ a, s'.live a = true ↔ s.live a = true ∨ a ∈ c.own) ∧ s'.log = s.log ++ o.statics.map .link) := by
  obtain ⟨r, e, s', h, hc⟩ := clone_ok fails o s hi
  refine ⟨r, e, s', h, ?_⟩
  rcases hc with ⟨c, rfl, rfl, h1, h2, h3, h4⟩ | ⟨rfl, rfl, h1, h2, h3⟩
  · refine ⟨h2.inv hi, ⟨fun h => by (cases h), fun h => absurd h h4⟩, ⟨fun h => by (cases h), fun h => by (cases h)⟩, ?_, ?_⟩
    · intro h; cases h
    · intro c' hc'
      cases hc'
      obtain ⟨g1, g2, g3, g4⟩ := h2
      refine ⟨h1, g2, fun a ha => hi a (g3 a ha).1, ?_, h3⟩
      intro a
      rw [g4]
      simp
  · refine ⟨h1.inv hi, ⟨fun _ => h3, fun _ => rfl⟩, ⟨fun _ => rfl, fun _ => rfl⟩, ?_, ?_⟩
    · intro _
      exact ⟨fun a => by rw [h1.2.2.2]; simp, h2⟩
    · intro c hc; cases hc

/-- C56. The clone is the same type. -/
theorem C56_clone_type (fails : Nat → Bool) {o c : Obj Part} {s s' : Mem} {e : Bool} (hi : s.Inv)
    (h : clone fails o false s = some (some c, e, s')) : c.ty = o.ty := by
  obtain ⟨r, e', s'', h', _, _, _, _, h5⟩ := C56_clone fails o hi
  rw [h] at h'
  cases h'
  rw [← ty_looks c, (h5 c rfl).1, ty_looks]

/-- C56. `destroy_type_info_recursively` works exactly on the types whose objects are all allocated and
different from each other. It frees these and nothing else, and calls the callback for the static types in order. -/
theorem C56_destroy (o : Obj α) (s : Mem) :
    (o.destroy s = none ↔ ¬ (o.own.Nodup ∧ ∀ a, a ∈ o.own → s.live a = true)) ∧
    ∀ s', o.destroy s = some s' → (∀ a, s'.live a = true ↔ s.live a = true ∧ a ∉ o.own) ∧
      s'.log = s.log ++ o.statics.map .unlink ∧ s'.next = s.next := by
  rw [destroy_eq]
  unfold Mem.release
  by_cases h : o.own.Nodup ∧ ∀ a, a ∈ o.own → s.live a = true
  · rw [if_pos h]
    refine ⟨⟨fun h => by (cases h), fun h' => absurd h h'⟩, ?_⟩
    intro s' hs
    cases hs
    refine ⟨?_, rfl, rfl⟩
    intro a
    simp [gone]
  · rw [if_neg h]
    exact ⟨⟨fun _ => h, fun _ => rfl⟩, fun s' hs => by cases hs⟩

/-- C56. Destroying a clone undoes the cloning, even if the original contains an object twice. -/
theorem C56_destroy_clone (fails : Nat → Bool) {o c : Obj α} {s s' : Mem} {e : Bool} (hi : s.Inv)
    (h : clone fails o false s = some (some c, e, s')) :
    ∃ s'', c.destroy s' = some s'' ∧ (∀ a, s''.live a = s.live a) ∧
      s''.log = s.log ++ o.statics.map .link ++ o.statics.map .unlink := by
  obtain ⟨r, e', s0, h', _, _, _, _, h5⟩ := C56_clone fails o hi
  rw [h] at h'
  cases h'
  obtain ⟨g1, g2, g3, g4, g5⟩ := h5 c rfl
  obtain ⟨d1, d2⟩ := C56_destroy c s'
  cases hd : c.destroy s' with
  | none => exact absurd ⟨g2, fun a ha => (g4 a).mpr (.inr ha)⟩ (d1.mp hd)
  | some s'' =>
    obtain ⟨k1, k2, _⟩ := d2 s'' hd
    refine ⟨s'', rfl, ?_, ?_⟩
    · intro a
      have hk := k1 a
      have hg := g4 a
      have hn := g3 a
      by_cases ha : a ∈ c.own
      · rw [hn ha]
        cases hl : s''.live a with
        | false => rfl
        | true => exact absurd ha (hk.mp hl).2
      · cases hl : s''.live a <;> cases hm : s.live a <;> simp_all
    · rw [k2, g5, ← statics_looks c, g1, statics_looks]

/-- C56, limit. With `*allocation_error` set before the call and no allocation failing, a type that points to an allocated
type without containees is not cloned: the result is NULL and a new object stays allocated. -/
theorem C56_stale_error_leaks (a b : Nat) (x y : α) (ks : List (Obj α)) {s : Mem} (hi : s.Inv) :
    ∃ s', clone (fun _ => false) (.node a false x (.node b false y [] :: ks)) true s = some (none, true, s') ∧
      ∃ p, s'.live p = true ∧ s.live p = false := by
  refine ⟨{ s with live := fun b => b != s.next && (b == s.next + 1 || (b == s.next || s.live b)), next := s.next + 2 }, ?_,
    s.next + 1, ?_, hi _ (by simp)⟩
  · simp [clone, cloneAll, malloc, destroyAll, Mem.free]
  · simp

/-- C56, limit. A type that points twice to the same allocated object cannot be destroyed: the object is freed twice. -/
theorem C56_shared_double_free (a b : Nat) (x y : α) (l1 l2 l3 k : List (Obj α)) (s : Mem) :
    destroy (.node a false x (l1 ++ .node b false y k :: (l2 ++ .node b false y k :: l3))) s = none := by
  rw [(C56_destroy _ s).1]
  rintro ⟨h, _⟩
  simp only [own, Bool.false_eq_true, if_false, ownAll_append, ownAll, List.nodup_cons, List.nodup_append] at h
  simp at h
  exact absurd rfl (h.2.2.1.2.2.1 b (.inr (.inl rfl)))

end

/-- A tuple of a static type, an array of an allocated type, and a string; the tuple is at 1, the array at 2, its containee at 3, the string at 4,
static types at 10 and 11. -/
def exObj : Obj Part :=
  .node 1 false (.tup { count := 3 } [{ }, { }, { }])
    [.node 10 true (.prim .int { size := 4, isStatic := true }) [],
     .node 2 false (.arr { varCount := true, maxSize := 100 }) [.node 3 false (.prim .uint { size := 2, name := [97] }) []],
     .node 4 false (.str false { varCount := true, maxSize := 50 }) [.node 11 true (.prim .uint { size := 1, isStatic := true }) []]]

/-- The state in which its objects are allocated. -/
def exHeap : Mem := { live := fun a => decide (1 ≤ a ∧ a ≤ 4), next := 20, log := [] }

theorem exHeap_inv : exHeap.Inv := by intro a ha; simp [exHeap] at ha ⊢; omega

example : exObj.ty = some (.tup { count := 3 } [({ }, .prim .int { size := 4, isStatic := true }),
    ({ }, .arr { varCount := true, maxSize := 100 } (.prim .uint { size := 2, name := [97] })),
    ({ }, .str false { varCount := true, maxSize := 50 })]) := rfl
/-- All allocations succeed: four new objects, two callbacks. -/
example : (clone (fun _ => false) exObj false exHeap).map (fun r => (r.1.map own, r.2.1, r.2.2.log)) =
    some (some [20, 21, 22, 23], false, [.link 10, .link 11]) := rfl
/-- The last one fails: the array and its containee are freed, and the tuple. -/
example : (clone (fun i => i == 23) exObj false exHeap).map (fun r => (r.1.map own, r.2.1, r.2.2.log, (List.range 30).filter r.2.2.live)) =
    some (none, true, [.link 10, .unlink 10], [1, 2, 3, 4]) := rfl
example : (exObj.destroy exHeap).map (fun s => ((List.range 30).filter s.live, s.log)) =
    some ([], [.unlink 10, .unlink 11]) := rfl
example : ∃ c e s', clone (fun _ => false) exObj false exHeap = some (some c, e, s') := ⟨_, _, _, rfl⟩

/-! ### C57: the allocations of deserialize_type_info -/

/-- C57. If no allocation fails, `deserialize_type_info` with its allocations gives what it gives without (`deser`). -/
theorem C57_as_without_failures {fails : Nat → Bool} (sa : Statics) (m : Bytes) (e : Bool) {s : Mem} (hi : s.Inv)
    (hf : ∀ i, fails i = false) : (deserialize fails sa m e s).map (fun r => (r.1.map Prod.fst, r.2.1)) = (deser m).map (fun t => (t, e)) := by
  unfold deserialize deser
  have hn : ∀ s', ¬ Failed fails s s' := by
    rintro s' ⟨i, _, _, h⟩
    rw [hf] at h; cases h
  rcases deserH_ok fails sa (m.length + 1) m m.length e s hi with
    ⟨h1, h2⟩ | ⟨t, o, s', h1, h2, _⟩ | ⟨s', h1, h2, _⟩ | ⟨s', _, _, h⟩
  · rw [h1, h2]; rfl
  · rw [h1, h2]; rfl
  · rw [h1, h2]; rfl
  · exact absurd h (hn s')

/-- C57. `deserialize_type_info`, on any bytes and whichever allocations fail: if it returns a type, this is the one that
it returns without failures, its objects are new, different and the only addition to what is allocated (primitive types without a
name are the static ones of their kind, size and nullability), and it can be destroyed, which restores the state before; if it returns NULL, all that it allocated is
freed again and nothing else; then either `*allocation_error` is as before and the bytes are refused anyway, or it is set and an
allocation failed. It faults only where it does so without failing allocations (see C32). -/
theorem C57_no_leak (fails : Nat → Bool) (sa : Statics) (m : Bytes) (e : Bool) {s : Mem} (hi : s.Inv) :
    (deserialize fails sa m e s = none → deser m = none) ∧
    (∀ t o e' s', deserialize fails sa m e s = some (some (t, o), e', s') →
      deser m = some (some t) ∧ e' = e ∧ o.bare = shape sa t ∧ o.own.Nodup ∧ (∀ a, a ∈ o.own → s.live a = false) ∧
      (∀ a, s'.live a = true ↔ s.live a = true ∨ a ∈ o.own) ∧
      ∃ s'', o.destroy s' = some s'' ∧ ∀ a, s''.live a = s.live a) ∧
    (∀ e' s', deserialize fails sa m e s = some (none, e', s') →
      (∀ a, s'.live a = s.live a) ∧
      ((e' = e ∧ deser m = some none ∧ ∀ i, s.next ≤ i → i < s'.next → fails i = false) ∨
       (e' = true ∧ ∃ i, s.next ≤ i ∧ i < s'.next ∧ fails i = true))) := by
  unfold deserialize deser
  rcases deserH_ok fails sa (m.length + 1) m m.length e s hi with
    ⟨h1, h2⟩ | ⟨t, o, s', h1, h2, h3, h4, h5⟩ | ⟨s', h1, h2, h3, h4⟩ | ⟨s', h1, h3, h4⟩
  · rw [h1, h2]
    exact ⟨fun _ => rfl, fun _ _ _ _ h => by (cases h), fun _ _ h => by (cases h)⟩
  · rw [h1, h2]
    refine ⟨fun h => by (cases h), ?_, fun _ _ h => by (cases h)⟩
    intro t' o' e' s'' h
    cases h
    obtain ⟨r1, r2⟩ := h4.release hi (o.statics.map .unlink)
    refine ⟨rfl, rfl, h3, h4.2.1, fun a ha => hi a (h4.2.2.1 a ha).1, ?_, s'.gone o.own (o.statics.map .unlink), ?_, ?_⟩
    · intro a; rw [h4.2.2.2]; simp
    · rw [destroy_eq, r1]
    · intro a
      have := r2.2.2.2 a
      rw [this]; simp
  · rw [h1, h2]
    refine ⟨fun h => by (cases h), fun _ _ _ _ h => by (cases h), ?_⟩
    intro e' s'' h
    cases h
    refine ⟨fun a => by rw [h3.2.2.2]; simp, .inl ⟨rfl, rfl, ?_⟩⟩
    intro i hi1 hi2
    cases hx : fails i with
    | false => rfl
    | true => exact absurd ⟨i, hi1, hi2, hx⟩ h4
  · rw [h1]
    refine ⟨fun h => by (cases h), fun _ _ _ _ h => by (cases h), ?_⟩
    intro e' s'' h
    cases h
    exact ⟨fun a => by rw [h3.2.2.2]; simp, .inr ⟨rfl, h4⟩⟩

/-- C57. On the bytes of a serialised type, whatever follows them, `deserialize_type_info` never faults, and it
returns NULL exactly if an allocation failed; otherwise the type it returns can be finalised and is interchangeable
with the original (C31). -/
theorem C57_serialised_type {d d' : Dti} {rest : Bytes} (hr : Raw d) (hf : finalize d = some d') (hu : U32 d')
    (hl : (ser d' ++ rest).length < 4294967296) (fails : Nat → Bool) (sa : Statics) {s : Mem} (hi : s.Inv) :
    ∃ r e s', deserialize fails sa (ser d' ++ rest) false s = some (r, e, s') ∧
      (r = none ↔ ∃ i, s.next ≤ i ∧ i < s'.next ∧ fails i = true) ∧ (e = true ↔ r = none) ∧
      ∀ t o, r = some (t, o) → ∃ t', finalize t = some t' ∧ Interchangeable t' d' := by
  obtain ⟨_, t, t', h1, h2, _, h3, _⟩ := C31_serialisation_round_trips (rest := rest) hr hf hu hl
  unfold deser at h1
  unfold deserialize
  rcases deserH_ok fails sa ((ser d' ++ rest).length + 1) (ser d' ++ rest) (ser d' ++ rest).length false s hi with
    ⟨_, g2⟩ | ⟨u, o, s', g1, g2, g3, g4, g5⟩ | ⟨s', g1, g2, _⟩ | ⟨s', g1, g3, g4⟩
  · rw [h1] at g2; cases g2
  · rw [h1] at g2
    cases g2
    refine ⟨_, _, s', g1, ⟨fun h => by (cases h), fun h => absurd h g5⟩, ⟨fun h => by (cases h), fun h => by (cases h)⟩, ?_⟩
    intro t0 o0 h
    cases h
    exact ⟨t', h2, h3⟩
  · rw [h1] at g2; cases g2
  · exact ⟨_, _, s', g1, ⟨fun _ => g4, fun _ => rfl⟩, ⟨fun _ => rfl, fun _ => rfl⟩, fun _ _ h => by cases h⟩

example : Raw exType ∧ finalize exType = some exFinal ∧ U32 exFinal ∧ (ser exFinal ++ [9]).length < 4294967296 ∧ exHeap.Inv :=
  ⟨exType_raw, rfl, by simp [exFinal, U32, U32.U32All], by decide +kernel, exHeap_inv⟩

/-- Bytes of a tuple of a named UINT, an array of a named INT, and an unnamed INT. -/
def exTypeBytes : Bytes := [127, 3, 0, 0, 0, 0, 97, 0, 2, 1, 98, 0, 99, 0, 130, 5, 0, 0, 0, 0, 4, 1, 98, 0, 100, 0, 4, 1, 0]

example : (deserialize (fun _ => false) (fun _ _ _ => 7) exTypeBytes false exHeap).map (fun r => (r.1.map (fun p => (p.2.own, p.2.statics)), r.2.1,
    (List.range 30).filter r.2.2.live)) = some (some ([20, 21, 23, 22], [7]), false, [1, 2, 3, 4, 20, 21, 22, 23]) := by decide +kernel
/-- The third allocation fails. -/
example : (deserialize (fun i => i == 22) (fun _ _ _ => 7) exTypeBytes false exHeap).map (fun r => (r.1.map (fun p => (p.2.own, p.2.statics)), r.2.1,
    (List.range 30).filter r.2.2.live)) = some (none, true, [1, 2, 3, 4]) := by decide +kernel
/-- Cut off bytes: everything is freed as well. -/
example : (deserialize (fun _ => false) (fun _ _ _ => 7) (exTypeBytes.take 20) false exHeap).map (fun r => (r.1.map (fun p => (p.2.own, p.2.statics)), r.2.1,
    (List.range 30).filter r.2.2.live)) = some (none, false, [1, 2, 3, 4]) := by decide +kernel

end Props
end TS
