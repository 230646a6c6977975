import Verif.Heap
/-
Proofs about destroying and cloning types.
-/
namespace TS

namespace Mem

/-- Nothing is allocated at the addresses that are still to be given out. -/
def Inv (s : Mem) : Prop := ∀ a, s.next ≤ a → s.live a = false

/-- From `s` to `s'` exactly the objects at the addresses `l` were added. -/
def Grown (s s' : Mem) (l : List Nat) : Prop :=
  s.next ≤ s'.next ∧ l.Nodup ∧ (∀ a, a ∈ l → s.next ≤ a ∧ a < s'.next) ∧ ∀ a, s'.live a = (s.live a || l.contains a)

/-- The state after the objects at `l` are freed and the callbacks `ev` are made. -/
def gone (s : Mem) (l : List Nat) (ev : List Event) : Mem :=
  { s with live := fun a => s.live a && !l.contains a, log := s.log ++ ev }

theorem ext' {s t : Mem} (h1 : ∀ a, s.live a = t.live a) (h2 : s.next = t.next) (h3 : s.log = t.log) : s = t := by
  cases s; cases t
  simp only at h1 h2 h3
  subst h2 h3
  simp only [Mem.mk.injEq, and_true]
  exact funext h1

theorem Grown.refl (s : Mem) : Grown s s [] := ⟨Nat.le_refl _, List.nodup_nil, by simp, by simp⟩

theorem Grown.inv {s s' : Mem} {l : List Nat} (h : Grown s s' l) (hi : s.Inv) : s'.Inv := by
  obtain ⟨h1, _, h3, h4⟩ := h
  intro a ha
  rw [h4, hi a (by omega), Bool.false_or]
  by_cases hl : a ∈ l
  · have := h3 a hl; omega
  · simpa using hl

theorem Grown.trans {s s' s'' : Mem} {l l' : List Nat} (h : Grown s s' l) (h' : Grown s' s'' l') : Grown s s'' (l ++ l') := by
  obtain ⟨h1, h2, h3, h4⟩ := h
  obtain ⟨g1, g2, g3, g4⟩ := h'
  refine ⟨by omega, ?_, ?_, ?_⟩
  · rw [List.nodup_append]
    refine ⟨h2, g2, ?_⟩
    intro a ha b hb hab
    subst hab
    have := h3 a ha
    have := g3 a hb
    omega
  · intro a ha
    rcases List.mem_append.mp ha with ha | ha
    · have := h3 a ha; omega
    · have := g3 a ha; omega
  · intro a
    rw [g4, h4, Bool.or_assoc]
    congr 1
    simp

/-- Frees the objects at `l`, if they are allocated and different. -/
def release (s : Mem) (l : List Nat) (ev : List Event) : Option Mem :=
  if l.Nodup ∧ ∀ a, a ∈ l → s.live a = true then some (s.gone l ev) else none

theorem gone_nil (s : Mem) : s.gone [] [] = s := ext' (by simp [gone]) rfl (by simp [gone])

theorem release_nil (s : Mem) (ev : List Event) : s.release [] ev = some (s.gone [] ev) := by
  unfold release
  rw [if_pos ⟨List.nodup_nil, by simp⟩]

theorem bind_congr' {β γ : Type} {x : Option β} {f g : β → Option γ} (h : ∀ b, f b = g b) : x.bind f = x.bind g := by
  rw [funext h]

theorem release_append (s : Mem) (l l' : List Nat) (ev ev' : List Event) :
    ((s.release l ev).bind fun t => t.release l' ev') = s.release (l ++ l') (ev ++ ev') := by
  unfold release
  by_cases h1 : l.Nodup ∧ ∀ a, a ∈ l → s.live a = true
  · rw [if_pos h1, Option.bind_some]
    by_cases h2 : l'.Nodup ∧ ∀ a, a ∈ l' → (s.gone l ev).live a = true
    · rw [if_pos h2, if_pos]
      · congr 1
        exact ext' (by intro a; simp [gone, Bool.and_assoc]) rfl (by simp [gone])
      · refine ⟨?_, ?_⟩
        · rw [List.nodup_append]
          refine ⟨h1.1, h2.1, ?_⟩
          intro a ha b hb hab
          subst hab
          have := h2.2 a hb
          simp [gone] at this
          exact this.2 ha
        · intro a ha
          rcases List.mem_append.mp ha with ha | ha
          · exact h1.2 a ha
          · have := h2.2 a ha
            simp [gone] at this
            exact this.1
    · rw [if_neg h2, if_neg]
      rintro ⟨h3, h4⟩
      rw [List.nodup_append] at h3
      refine h2 ⟨h3.2.1, ?_⟩
      intro a ha
      simp only [gone, Bool.and_eq_true]
      refine ⟨h4 a (by simp [ha]), ?_⟩
      simp only [Bool.not_eq_true', List.contains_eq_mem, decide_eq_false_iff_not]
      intro hk'
      exact h3.2.2 a hk' a ha rfl
  · rw [if_neg h1, Option.bind_none, if_neg]
    rintro ⟨h3, h4⟩
    rw [List.nodup_append] at h3
    exact h1 ⟨h3.1, fun a ha => h4 a (by simp [ha])⟩

theorem release_free (s : Mem) (l : List Nat) (ev : List Event) (a : Nat) :
    ((s.release l ev).bind fun t => t.free a) = s.release (a :: l) ev := by
  unfold release Mem.free
  by_cases h1 : l.Nodup ∧ ∀ b, b ∈ l → s.live b = true
  · rw [if_pos h1, Option.bind_some]
    by_cases h2 : (s.gone l ev).live a = true
    · rw [if_pos h2, if_pos]
      · congr 1
        refine ext' ?_ rfl (by simp [gone])
        intro b
        simp [gone]
        by_cases hab : b = a <;> simp [hab]
      · simp [gone] at h2
        refine ⟨List.nodup_cons.mpr ⟨h2.2, h1.1⟩, ?_⟩
        intro b hb
        rcases List.mem_cons.mp hb with rfl | hb
        · exact h2.1
        · exact h1.2 b hb
    · rw [if_neg h2, if_neg]
      rintro ⟨h3, h4⟩
      apply h2
      simp [gone]
      exact ⟨h4 a (by simp), (List.nodup_cons.mp h3).1⟩
  · rw [if_neg h1, Option.bind_none, if_neg]
    rintro ⟨h3, h4⟩
    exact h1 ⟨(List.nodup_cons.mp h3).2, fun b hb => h4 b (by simp [hb])⟩

/-- Freeing what was added restores the allocator. -/
theorem Grown.release {s s' : Mem} {l : List Nat} (h : Grown s s' l) (hi : s.Inv) (ev : List Event) :
    s'.release l ev = some (s'.gone l ev) ∧ Grown s (s'.gone l ev) [] := by
  obtain ⟨h1, h2, h3, h4⟩ := h
  refine ⟨?_, h1, List.nodup_nil, by simp, ?_⟩
  · unfold Mem.release
    rw [if_pos]
    refine ⟨h2, ?_⟩
    intro a ha
    rw [h4]
    simp [ha]
  · intro a
    simp only [gone, h4, List.contains_nil, Bool.or_false]
    by_cases hl : a ∈ l
    · have := hi a (h3 a hl).1
      simp [hl, this]
    · simp [hl]

end Mem

namespace Obj
variable {α : Type}
open Mem

/-- What `destroy` does: all objects of the type have to be allocated and different. -/
theorem destroy_eq (o : Obj α) : ∀ s : Mem, o.destroy s = s.release o.own (o.statics.map .unlink) := by
  have hall : ∀ ks : List (Obj α), (∀ k, k ∈ ks → ∀ s : Mem, k.destroy s = s.release k.own (k.statics.map .unlink)) →
      ∀ s : Mem, destroyAll ks s = s.release (ownAll ks) ((staticsAll ks).map .unlink) := by
    intro ks
    induction ks with
    | nil => intro _ s; simp only [destroyAll, ownAll, staticsAll, List.map_nil, release_nil, gone_nil]
    | cons k ks ih =>
      intro hk s
      simp only [destroyAll, ownAll, staticsAll, Option.bind_eq_bind, List.map_append]
      rw [hk k (by simp), ← release_append]
      exact bind_congr' fun t => ih (fun k' h' => hk k' (by simp [h'])) t
  induction o using Obj.ind with
  | h a st x ks ih =>
    intro s
    cases st with
    | true =>
      simp only [destroy, own, statics, if_true, release_nil]
      congr 1
      exact ext' (by simp [gone, call]) rfl (by simp [gone, call])
    | false =>
      simp only [destroy, own, statics, Option.bind_eq_bind, Bool.false_eq_true, if_false]
      rw [hall ks ih, release_free]

theorem destroyAll_eq (ks : List (Obj α)) (s : Mem) :
    destroyAll ks s = s.release (ownAll ks) ((staticsAll ks).map .unlink) := by
  induction ks generalizing s with
  | nil => simp only [destroyAll, ownAll, staticsAll, List.map_nil, release_nil, gone_nil]
  | cons k ks ih =>
    simp only [destroyAll, ownAll, staticsAll, Option.bind_eq_bind, List.map_append]
    rw [destroy_eq, ← release_append]
    exact bind_congr' fun t => ih t

/-! ### clone -/

/-- As many calls of one callback as of the other for every static type. -/
def Balanced (l : List Event) : Prop := ∀ a, l.count (.link a) = l.count (.unlink a)

theorem balanced_links (l : List Nat) {ev : List Event} (h : Balanced ev) :
    Balanced (l.map .link ++ ev ++ l.map .unlink) := by
  intro a
  have h1 : ∀ l : List Nat, (l.map Event.unlink).count (.link a) = 0 := by
    intro l; rw [List.count_eq_zero]; simp
  have h2 : ∀ l : List Nat, (l.map Event.link).count (.unlink a) = 0 := by
    intro l; rw [List.count_eq_zero]; simp
  have h3 : ∀ l : List Nat, (l.map Event.link).count (.link a) = (l.map Event.unlink).count (.unlink a) := by
    intro l
    induction l with
    | nil => rfl
    | cons b l ih => simp only [List.map_cons, List.count_cons, ih]; simp
  simp only [List.count_append, h1, h2, h a, h3]
  omega

mutual
theorem statics_looks : ∀ o : Obj α, o.looks.statics = o.statics
  | .node a st x ks => by
    cases st with
    | true => simp [looks, statics]
    | false => simp [looks, statics, staticsAll_looks ks]
theorem staticsAll_looks : ∀ ks : List (Obj α), staticsAll (looksAll ks) = staticsAll ks
  | [] => rfl
  | k :: ks => by simp [looksAll, staticsAll, statics_looks k, staticsAll_looks ks]
end

theorem ownAll_append (l l' : List (Obj α)) : ownAll (l ++ l') = ownAll l ++ ownAll l' := by
  induction l with
  | nil => rfl
  | cons k l ih => simp [ownAll, ih]

theorem staticsAll_append (l l' : List (Obj α)) : staticsAll (l ++ l') = staticsAll l ++ staticsAll l' := by
  induction l with
  | nil => rfl
  | cons k l ih => simp [staticsAll, ih]

theorem looksAll_append (l l' : List (Obj α)) : looksAll (l ++ l') = looksAll l ++ looksAll l' := by
  induction l with
  | nil => rfl
  | cons k l ih => simp [looksAll, ih]

/-- A call of `malloc` between the states fails. -/
def Failed (fails : Nat → Bool) (s s' : Mem) : Prop := ∃ i, s.next ≤ i ∧ i < s'.next ∧ fails i = true

/-- The two ways `clone` ends. -/
def Cloned (fails : Nat → Bool) (o : Obj α) (s : Mem) (r : Option (Obj α)) (e : Bool) (s' : Mem) : Prop :=
  (∃ c, r = some c ∧ e = false ∧ c.looks = o.looks ∧ Grown s s' c.own ∧ s'.log = s.log ++ o.statics.map .link ∧
    ¬ Failed fails s s') ∨
  (r = none ∧ e = true ∧ Grown s s' [] ∧ (∃ ev, s'.log = s.log ++ ev ∧ Balanced ev) ∧ Failed fails s s')

theorem cloneAll_ok (fails : Nat → Bool) (s0 : Mem) (hi : s0.Inv) : ∀ (ks done : List (Obj α)) (s : Mem),
    (∀ k, k ∈ ks → ∀ s : Mem, s.Inv → ∃ r e s', clone fails k false s = some (r, e, s') ∧ Cloned fails k s r e s') →
    Grown s0 s (ownAll done) → s.log = s0.log ++ (staticsAll done).map .link → ¬ Failed fails s0 s →
    ∃ r e s', cloneAll fails ks done false s = some (r, e, s') ∧
      ((∃ cs, r = some (done ++ cs) ∧ e = false ∧ looksAll cs = looksAll ks ∧ Grown s0 s' (ownAll (done ++ cs)) ∧
          s'.log = s0.log ++ (staticsAll (done ++ cs)).map .link ∧ ¬ Failed fails s0 s') ∨
       (r = none ∧ e = true ∧ Grown s0 s' [] ∧ (∃ ev, s'.log = s0.log ++ ev ∧ Balanced ev) ∧ Failed fails s0 s')) := by
  intro ks
  induction ks with
  | nil =>
    intro done s _ hg hl hf
    refine ⟨some done, false, s, by simp only [cloneAll], .inl ⟨[], by simp, rfl, rfl, by simpa using hg, by simpa using hl, hf⟩⟩
  | cons k ks ih =>
    intro done s hk hg hl hf
    obtain ⟨r, e, s', hc, hcl⟩ := hk k (by simp) s (hg.inv hi)
    rcases hcl with ⟨c, rfl, rfl, h1, h2, h3, h4⟩ | ⟨rfl, rfl, h1, ⟨ev, h2, h3⟩, h4⟩
    · obtain ⟨r', e', s'', hc', h'⟩ := ih (done ++ [c]) s' (fun k' h' => hk k' (by simp [h']))
        (by rw [ownAll_append]; simpa [ownAll] using hg.trans h2)
        (by rw [h3, hl, staticsAll_append]; simp [staticsAll, ← statics_looks c, h1, statics_looks k])
        (by
          rintro ⟨i, hi1, hi2, hi3⟩
          by_cases h : i < s.next
          · exact hf ⟨i, hi1, h, hi3⟩
          · exact h4 ⟨i, by omega, hi2, hi3⟩)
      refine ⟨r', e', s'', ?_, ?_⟩
      · simp only [cloneAll, hc, Option.bind_eq_bind, Option.bind_some, Bool.false_eq_true, if_false, hc']
      · rcases h' with ⟨cs, g1, g2, g3, g4, g5, g6⟩ | h'
        · refine .inl ⟨c :: cs, by simpa using g1, g2, by simp [looksAll, h1, g3], by simpa using g4, by simpa using g5, g6⟩
        · exact .inr h'
    · have hg' := hg.trans h1
      rw [List.append_nil] at hg'
      obtain ⟨hr, hr'⟩ := hg'.release hi ((staticsAll done).map .unlink)
      refine ⟨none, true, s'.gone (ownAll done) ((staticsAll done).map .unlink), ?_, .inr ⟨rfl, rfl, hr', ?_, ?_⟩⟩
      · simp only [cloneAll, hc, Option.bind_eq_bind, Option.bind_some, if_true, destroyAll_eq, hr, Option.pure_def]
      · refine ⟨_, ?_, balanced_links (staticsAll done) h3⟩
        show s'.log ++ _ = _
        rw [h2, hl]
        simp
      · obtain ⟨i, hi1, hi2, hi3⟩ := h4
        exact ⟨i, by have := hg.1; omega, hi2, hi3⟩

theorem grown_malloc (s : Mem) :
    Grown s { s with live := fun a => a == s.next || s.live a, next := s.next + 1 } [s.next] := by
  refine ⟨by simp, by simp, by simp, ?_⟩
  intro a
  simp only [List.contains_cons, List.contains_nil, Bool.or_false]
  exact Bool.or_comm _ _

/-- `clone` never faults and ends in one of the two ways. -/
theorem clone_ok (fails : Nat → Bool) (o : Obj α) : ∀ s : Mem, s.Inv →
    ∃ r e s', clone fails o false s = some (r, e, s') ∧ Cloned fails o s r e s' := by
  induction o using Obj.ind with
  | h a st x ks ih =>
    intro s hi
    cases st with
    | true =>
      refine ⟨_, _, s.call (.link a), by simp only [clone, if_true], .inl ⟨_, rfl, rfl, rfl, ?_, ?_, ?_⟩⟩
      · simp only [own, if_true]
        exact ⟨Nat.le_refl _, List.nodup_nil, by simp, by simp [call]⟩
      · simp [statics, call]
      · rintro ⟨i, h1, h2, _⟩
        simp only [call] at h2
        omega
    | false =>
      by_cases hf : fails s.next = true
      · refine ⟨none, true, { s with next := s.next + 1 }, ?_, .inr ⟨rfl, rfl, ?_, ⟨[], by simp, fun a => rfl⟩, s.next, by simp, by simp, hf⟩⟩
        · simp only [clone, Bool.false_eq_true, if_false, malloc, hf, if_true]
        · exact ⟨by simp, List.nodup_nil, by simp, by simp⟩
      · have hg := grown_malloc s
        obtain ⟨r, e, s', hc, h⟩ := cloneAll_ok fails _ (hg.inv hi) ks [] _ ih (Grown.refl _) (by simp [staticsAll])
          (by rintro ⟨i, h1, h2, _⟩; simp only at h1 h2; omega)
        rcases h with ⟨cs, rfl, rfl, h1, h2, h3, h4⟩ | ⟨rfl, rfl, h1, ⟨ev, h2, h3⟩, h4⟩
        · refine ⟨some (.node s.next false x cs), false, s', ?_, .inl ⟨_, rfl, rfl, ?_, ?_, ?_, ?_⟩⟩
          · simp only [clone, Bool.false_eq_true, if_false, malloc, hf, hc, Option.bind_eq_bind, Option.bind_some, Option.pure_def, List.nil_append]
          · simp [looks, h1]
          · have := hg.trans h2
            simpa [own] using this
          · rw [h3]
            simp only [statics, Bool.false_eq_true, if_false, List.nil_append]
            rw [← staticsAll_looks cs, h1, staticsAll_looks ks]
          · rintro ⟨i, hi1, hi2, hi3⟩
            by_cases h : i = s.next
            · subst h; exact hf hi3
            · exact h4 ⟨i, by simp only; omega, hi2, hi3⟩
        · have hg' := hg.trans h1
          rw [List.append_nil] at hg'
          obtain ⟨hr, hr'⟩ := hg'.release hi []
          have hfree : s'.free s.next = some (s'.gone [s.next] []) := by
            rw [← hr, ← release_free, release_nil, gone_nil, Option.bind_some]
          refine ⟨none, true, s'.gone [s.next] [], ?_, .inr ⟨rfl, rfl, hr', ⟨ev, ?_, h3⟩, ?_⟩⟩
          · simp only [clone, Bool.false_eq_true, if_false, malloc, hf, hc, Option.bind_eq_bind, Option.bind_some, Option.pure_def,
              hfree]
          · simp [gone, h2]
          · obtain ⟨i, hi1, hi2, hi3⟩ := h4
            exact ⟨i, by simp only at hi1; omega, hi2, hi3⟩

end Obj
end TS
