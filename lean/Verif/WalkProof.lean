import Verif.Accessor
/-
The traversal visits what a recursive walk visits.
-/
namespace TS
namespace Pa

/-- The accessor stands for the path `p` and has room for `cap` positions. -/
structure Holds (cap : Nat) (a : Pa) (p : List Nat) : Prop where
  cells : a.cells.length = cap
  len : a.len = p.length
  path : a.path = p

theorem Holds.le {cap : Nat} {a : Pa} {p : List Nat} (h : Holds cap a p) : p.length ≤ cap := by
  have := congrArg List.length h.path
  simp only [Pa.path, List.length_take, h.cells, h.len] at this
  omega

theorem append_ok {cap : Nat} {a t : Pa} {p q : List Nat} {c : Nat} (h : Holds cap a p) (ht : Holds c t q)
    (hl : p.length + q.length ≤ cap) : ∃ a', a.append t = some a' ∧ Holds cap a' (p ++ q) := by
  have h1 : a.cells.take a.len = p := h.path
  have h2 : t.cells.take t.len = q := ht.path
  have hc := h.cells
  refine ⟨⟨a.cells.take a.len ++ t.cells.take t.len ++ a.cells.drop (a.len + t.len), a.len + t.len⟩, ?_, ?_⟩
  · unfold append
    have := ht.le
    rw [if_pos ⟨by rw [ht.len, ht.cells]; exact this, by rw [h.len, ht.len, hc]; exact hl⟩]
  · refine ⟨?_, ?_, ?_⟩
    · rw [h1, h2]; simp only [List.length_append, List.length_drop, hc, h.len, ht.len]; omega
    · simp only [List.length_append, h.len, ht.len]
    · simp only [path, h1, h2]
      rw [List.take_append_of_le_length (by simp [h.len, ht.len]), List.take_of_length_le (by simp [h.len, ht.len])]

theorem bump_ok {cap : Nat} {a : Pa} {p : List Nat} {i : Nat} (h : Holds cap a (p ++ [i])) (hi : i + 1 < 2 ^ 32) :
    ∃ a', a.bump (a.len - 1) = some a' ∧ Holds cap a' (p ++ [i + 1]) := by
  have hl : a.len = p.length + 1 := by rw [h.len]; simp
  have hle := h.le
  simp only [List.length_append, List.length_cons, List.length_nil] at hle
  have hp : a.cells.take a.len = p ++ [i] := h.path
  have hx : a.cells[p.length]? = some i := by
    have := congrArg (fun l => l[p.length]?) hp
    simpa [List.getElem?_take, hl] using this
  refine ⟨{ a with cells := a.cells.set p.length (i + 1) }, ?_, ?_, ?_, ?_⟩
  · simp only [bump, hl, Nat.add_sub_cancel, hx, Option.bind_eq_bind, Option.bind_some, Nat.mod_eq_of_lt hi]; rfl
  · simp [h.cells]
  · simp [hl]
  · simp only [path]
    rw [List.take_set, hp, List.set_append_right _ _ (Nat.le_refl _)]
    simp

/-- The accessor without its last position. -/
theorem holds_parent {cap : Nat} {a : Pa} {p : List Nat} {i : Nat} (h : Holds cap a (p ++ [i])) :
    Holds cap { a with len := a.len - 1 } p := by
  have hl : a.len = p.length + 1 := by rw [h.len]; simp
  refine ⟨h.cells, by simp [hl], ?_⟩
  have hp : a.cells.take a.len = p ++ [i] := h.path
  simp only [path, hl, Nat.add_sub_cancel]
  have := congrArg (List.take p.length) hp
  rw [List.take_take, hl, Nat.min_eq_left (by omega)] at this
  simpa using this

theorem child_ok {cap : Nat} {a : Pa} {p : List Nat} (h : Holds cap a p) (i : Nat) (hl : p.length < cap) :
    ∃ a', a.toChild i = some a' ∧ Holds cap a' (p ++ [i]) :=
  append_ok h (c := 1) ⟨rfl, rfl, rfl⟩ (by simp; omega)

theorem siblingOr_ok {cap base : Nat} {a : Pa} {p : List Nat} {i : Nat} (h : Holds cap a (p ++ [i])) (hi : i + 1 < 2 ^ 32)
    (hb : base ≤ p.length) : ∃ a', siblingOr base a = some (some a') ∧ Holds cap a' (p ++ [i + 1]) := by
  obtain ⟨a', h1, h2⟩ := bump_ok h hi
  have hl : a.len = p.length + 1 := by rw [h.len]; simp
  refine ⟨a', ?_, h2⟩
  have hs : a.isSelf = false := by simp [isSelf, hl]
  simp only [siblingOr, toNextSibling, hs, Bool.false_eq_true, if_false, Option.bind_eq_bind]
  rw [if_pos (by omega), h1]; rfl

theorem siblingOr_end {cap base : Nat} {a : Pa} {p : List Nat} (h : Holds cap a p) (hb : p.length ≤ base) :
    siblingOr base a = some none := by
  unfold siblingOr
  rw [if_neg (by rw [h.len]; omega)]

theorem uncleOr_ok {cap base : Nat} {a : Pa} {p : List Nat} {i j : Nat} (h : Holds cap a (p ++ [i] ++ [j])) (hi : i + 1 < 2 ^ 32)
    (hb : base ≤ p.length) : ∃ a', uncleOr base a = some (some a') ∧ Holds cap a' (p ++ [i + 1]) := by
  obtain ⟨a', h1, h2⟩ := bump_ok (holds_parent h) hi
  have hl : a.len = p.length + 2 := by rw [h.len]; simp
  refine ⟨a', ?_, h2⟩
  simp only [uncleOr, toNextUncle]
  rw [if_pos (by omega), if_neg (by omega)]
  simp only at h1
  simp only [h1, Option.bind_eq_bind, Option.bind_some]
  rfl

theorem uncleOr_end {cap base : Nat} {a : Pa} {p : List Nat} (h : Holds cap a p) (hb : p.length < base + 2) :
    uncleOr base a = some none := by
  unfold uncleOr
  rw [if_neg (by rw [h.len]; omega)]

section
variable {β : Type} (look : List Nat → Option (Option β)) (down : List Nat → β → Option Bool) (choose : List Nat → β → Choice)
variable (ch : List Nat → Choice) (cnt : List Nat → Nat)

/-- From the path `p`, `n` levels deep, there are `cnt` elements below every path and `ch` is what is
chosen for it. -/
def Agrees : Nat → List Nat → Prop
  | 0, p => ∃ b, look p = some (some b) ∧ choose p b = ch p
  | n + 1, p => ∃ b, look p = some (some b) ∧ choose p b = ch p ∧
      ((down p b = some false ∧ cnt p = 0) ∨
        (down p b = some true ∧ cnt p < 2 ^ 32 ∧ look (p ++ [cnt p]) = some none ∧ ∀ i, i < cnt p → Agrees n (p ++ [i])))

/-- How the walk below a path ends: go on with the next sibling, skip the siblings, or stop. -/
inductive Out where
  | go
  | skip
  | stop

def out : Choice → Out
  | .found => .stop
  | .skipSiblings => .skip
  | _ => .go

/-- `k` siblings from number `i` on below `p`. -/
def kids (f : List Nat → List (List Nat) × Out) (p : List Nat) : Nat → Nat → List (List Nat) × Bool
  | 0, _ => ([], false)
  | k + 1, i =>
    match f (p ++ [i]) with
    | (l, .stop) => (l, true)
    | (l, .skip) => (l, false)
    | (l, .go) => let r := kids f p k (i + 1); (l ++ r.1, r.2)

/-- The recursive walk. -/
def pre : Nat → List Nat → List (List Nat) × Out
  | 0, p => ([p], out (ch p))
  | n + 1, p =>
    match ch p with
    | .next => let r := kids (pre n) p (cnt p) 0; (p :: r.1, if r.2 then .stop else .go)
    | c => ([p], out c)

variable (base cap : Nat)

/-- From every accessor that stands for `p` the loop ends after visiting `l`. -/
def Runs (p : List Nat) (l : List (List Nat)) : Prop :=
  ∀ a, Holds cap a p → ∃ fuel, loop look down choose base cap fuel a = some l

/-- Going on after the last child of `q` ends after visiting `l`. -/
def Up (q : List Nat) (l : List (List Nat)) : Prop :=
  (q.length = base ∧ l = []) ∨
    ∃ r j, q = r ++ [j] ∧ base ≤ r.length ∧ j + 1 < 2 ^ 32 ∧ Runs look down choose base cap (r ++ [j + 1]) l

/-- What must hold after child `i` of `q` has been walked through. -/
def Post (o : Out) (q : List Nat) (i : Nat) (l : List (List Nat)) : Prop :=
  match o with
  | .stop => l = []
  | .go => Runs look down choose base cap (q ++ [i + 1]) l
  | .skip => Up look down choose base cap q l

variable {look down choose ch cnt base cap}

theorem runs_end {p : List Nat} {v : Option (List Nat)} (h : ∀ a, Holds cap a p → step look down choose base cap a = some (v, none)) :
    Runs look down choose base cap p v.toList := by
  intro a ha
  refine ⟨1, ?_⟩
  simp only [loop, h a ha, Option.bind_eq_bind, Option.bind_some, List.append_nil]
  rfl

theorem runs_next {p q : List Nat} {v : Option (List Nat)} {l : List (List Nat)}
    (h : ∀ a, Holds cap a p → ∃ a', step look down choose base cap a = some (v, some a') ∧ Holds cap a' q)
    (hq : Runs look down choose base cap q l) : Runs look down choose base cap p (v.toList ++ l) := by
  intro a ha
  obtain ⟨a', h1, h2⟩ := h a ha
  obtain ⟨f, hf⟩ := hq a' h2
  refine ⟨f + 1, ?_⟩
  simp only [loop, h1, Option.bind_eq_bind, Option.bind_some, hf]
  rfl

/-- After a visit or a miss at child `i` of `q` that leads to `uncleOr`. -/
theorem runs_uncle {q : List Nat} {i : Nat} {v : Option (List Nat)} {l : List (List Nat)}
    (h : ∀ a, Holds cap a (q ++ [i]) → step look down choose base cap a = (uncleOr base a).map (fun x => (v, x)))
    (hu : Up look down choose base cap q l) : Runs look down choose base cap (q ++ [i]) (v.toList ++ l) := by
  rcases hu with ⟨h1, rfl⟩ | ⟨r, j, rfl, h1, h2, h3⟩
  · rw [List.append_nil]
    refine runs_end (fun a ha => ?_)
    rw [h a ha, uncleOr_end ha (by simp [h1])]; rfl
  · refine runs_next (fun a ha => ?_) h3
    obtain ⟨a', e1, e2⟩ := uncleOr_ok (base := base) ha h2 h1
    exact ⟨a', by rw [h a ha, e1]; rfl, e2⟩

theorem runs_sibling {q : List Nat} {i : Nat} {v : Option (List Nat)} {l : List (List Nat)} (hi : i + 1 < 2 ^ 32)
    (hb : base ≤ q.length) (h : ∀ a, Holds cap a (q ++ [i]) → step look down choose base cap a = (siblingOr base a).map (fun x => (v, x)))
    (hu : Runs look down choose base cap (q ++ [i + 1]) l) : Runs look down choose base cap (q ++ [i]) (v.toList ++ l) := by
  refine runs_next (fun a ha => ?_) hu
  obtain ⟨a', e1, e2⟩ := siblingOr_ok (base := base) ha hi hb
  exact ⟨a', by rw [h a ha, e1]; rfl, e2⟩

theorem step_miss {p : List Nat} (h : look p = some none) {a : Pa} (ha : Holds cap a p) :
    step look down choose base cap a = (uncleOr base a).map (fun x => (none, x)) := by
  simp only [step, ha.path, h, Option.bind_eq_bind, Option.bind_some]
  cases uncleOr base a <;> rfl

theorem step_hit {p : List Nat} {b : β} (h : look p = some (some b)) {a : Pa} (ha : Holds cap a p) :
    step look down choose base cap a =
      match choose p b with
      | .found => some (some p, none)
      | .skipSiblings => (uncleOr base a).map (fun x => (some p, x))
      | .skipChildren => (siblingOr base a).map (fun x => (some p, x))
      | .next => if p.length < cap then (down p b).bind fun y =>
            if y then a.toFirstChild.map (fun x => (some p, some x)) else (siblingOr base a).map (fun x => (some p, x))
          else (siblingOr base a).map (fun x => (some p, x)) := by
  simp only [step, ha.path, ha.len, h, Option.bind_eq_bind, Option.bind_some]
  cases choose p b with
  | found => rfl
  | skipSiblings => cases uncleOr base a <;> rfl
  | skipChildren => cases siblingOr base a <;> rfl
  | next =>
    simp only
    split
    · cases down p b with
      | none => rfl
      | some y =>
        simp only [Option.bind_some]
        cases y
        · simp only [Bool.false_eq_true, if_false]; cases siblingOr base a <;> rfl
        · simp only [if_true]; cases a.toFirstChild <;> rfl
    · cases siblingOr base a <;> rfl

/-- The children of `p`, if the walk below each of them is the recursive one. -/
theorem kids_runs {f : List Nat → List (List Nat) × Out} {p : List Nat} (hm : look (p ++ [cnt p]) = some none)
    (hf : ∀ i l', i < cnt p → Post look down choose base cap (f (p ++ [i])).2 p i l' →
      Runs look down choose base cap (p ++ [i]) ((f (p ++ [i])).1 ++ l')) :
    ∀ (k i : Nat) (l' : List (List Nat)), k + i = cnt p → ((kids f p k i).2 = true → l' = []) →
      ((kids f p k i).2 = false → Up look down choose base cap p l') →
      Runs look down choose base cap (p ++ [i]) ((kids f p k i).1 ++ l') := by
  intro k
  induction k with
  | zero =>
    intro i l' hi _ hu
    have : i = cnt p := by omega
    subst this
    exact runs_uncle (v := none) (fun a ha => step_miss hm ha) (hu rfl)
  | succ k ih =>
    intro i l' hi hs hu
    have h := hf i
    unfold kids at hs hu ⊢
    rcases hx : f (p ++ [i]) with ⟨l, o⟩
    rw [hx] at h hs hu
    cases o with
    | stop => exact h l' (by omega) (hs rfl)
    | skip => exact h l' (by omega) (hu rfl)
    | go =>
      simp only [List.append_assoc] at hs hu ⊢
      exact h _ (by omega) (ih (i + 1) l' (by omega) hs hu)

/-- Below a path that is not the base. -/
theorem pre_runs : ∀ (n : Nat) (q : List Nat) (i : Nat) (l' : List (List Nat)), base ≤ q.length → i + 1 < 2 ^ 32 →
    q.length + 1 + n = cap → Agrees look down choose ch cnt n (q ++ [i]) →
    Post look down choose base cap (pre ch cnt n (q ++ [i])).2 q i l' →
    Runs look down choose base cap (q ++ [i]) ((pre ch cnt n (q ++ [i])).1 ++ l') := by
  intro n
  induction n with
  | zero =>
    intro q i l' hb hi hl ha hp
    obtain ⟨b, h1, h2⟩ := ha
    simp only [pre] at hp ⊢
    have hst := fun a ha => step_hit (down := down) (choose := choose) (base := base) (cap := cap) h1 (a := a) ha
    rw [h2] at hst
    cases hc : ch (q ++ [i]) with
    | found =>
      rw [hc] at hp hst
      simp only [out, Post] at hp
      subst hp
      exact runs_end (v := some _) hst
    | skipSiblings => rw [hc] at hp hst; exact runs_uncle (v := some _) hst hp
    | skipChildren => rw [hc] at hp hst; exact runs_sibling (v := some _) hi hb hst hp
    | next =>
      rw [hc] at hp hst
      refine runs_sibling (v := some _) hi hb (fun a ha => ?_) hp
      rw [hst a ha]
      simp only
      rw [if_neg (by simp; omega)]
  | succ n ih =>
    intro q i l' hb hi hl ha hp
    obtain ⟨b, h1, h2, h3⟩ := ha
    simp only [pre] at hp ⊢
    have hst := fun a ha => step_hit (down := down) (choose := choose) (base := base) (cap := cap) h1 (a := a) ha
    rw [h2] at hst
    cases hc : ch (q ++ [i]) with
    | found =>
      rw [hc] at hp hst
      simp only [out, Post] at hp
      subst hp
      exact runs_end (v := some _) hst
    | skipSiblings => rw [hc] at hp hst; exact runs_uncle (v := some _) hst hp
    | skipChildren => rw [hc] at hp hst; exact runs_sibling (v := some _) hi hb hst hp
    | next =>
      rw [hc] at hp hst
      simp only at hp hst ⊢
      rcases h3 with ⟨h3, h4⟩ | ⟨h3, h4, h5, h6⟩
      · rw [h4] at hp ⊢
        simp only [kids, Bool.false_eq_true, if_false, Post] at hp ⊢
        refine runs_sibling (v := some _) hi hb (fun a ha => ?_) hp
        rw [hst a ha, if_pos (by simp; omega), h3]
        rfl
      · refine runs_next (v := some (q ++ [i])) (q := q ++ [i] ++ [0]) (fun a ha => ?_)
          (kids_runs h5 (fun j l'' hj hp => ih (q ++ [i]) j l'' (by simp; omega) (by omega) (by simp; omega) (h6 j hj) hp) _ _ _ rfl ?_ ?_)
        · obtain ⟨a', e1, e2⟩ := child_ok ha 0 (by simp; omega)
          refine ⟨a', ?_, e2⟩
          rw [hst a ha, if_pos (by simp; omega), h3]
          simp only [toFirstChild, e1]
          rfl
        · intro hs
          rw [hs] at hp
          exact hp
        · intro hs
          rw [hs] at hp
          exact .inr ⟨q, i, rfl, hb, hi, hp⟩

/-- From the base. -/
theorem base_runs {n : Nat} {p : List Nat} (hb : p.length = base) (hl : p.length + n = cap) (ha : Agrees look down choose ch cnt n p) :
    Runs look down choose base cap p (pre ch cnt n p).1 := by
  have hend : ∀ {a}, Holds cap a p → uncleOr base a = some none ∧ siblingOr base a = some none := fun h =>
    ⟨uncleOr_end h (by omega), siblingOr_end h (by omega)⟩
  cases n with
  | zero =>
    obtain ⟨b, h1, h2⟩ := ha
    simp only [pre]
    refine runs_end (v := some p) (fun a ha => ?_)
    rw [step_hit h1 ha, h2, (hend ha).1, (hend ha).2]
    cases ch p <;> simp
    intro hh; omega
  | succ n =>
    obtain ⟨b, h1, h2, h3⟩ := ha
    simp only [pre]
    have hst := fun a ha => step_hit (down := down) (choose := choose) (base := base) (cap := cap) h1 (a := a) ha
    rw [h2] at hst
    cases hc : ch p with
    | next =>
      rw [hc] at hst
      simp only at hst ⊢
      rcases h3 with ⟨h3, h4⟩ | ⟨h3, h4, h5, h6⟩
      · rw [h4]
        refine runs_end (v := some p) (fun a ha => ?_)
        rw [hst a ha, if_pos (by omega), h3, (hend ha).2]
        rfl
      · have := kids_runs (f := pre ch cnt n) (base := base) (cap := cap) h5 (fun j l'' hj hp => pre_runs n p j l'' (by omega) (by omega) (by omega) (h6 j hj) hp) (cnt p) 0 []
          rfl (fun _ => rfl) (fun _ => .inl ⟨hb, rfl⟩)
        rw [List.append_nil] at this
        refine runs_next (v := some p) (fun a ha => ?_) this
        obtain ⟨a', e1, e2⟩ := child_ok ha 0 (by omega)
        refine ⟨a', ?_, e2⟩
        rw [hst a ha, if_pos (by omega), h3]
        simp only [toFirstChild, e1]
        rfl
    | _ =>
      rw [hc] at hst
      refine runs_end (v := some p) (fun a ha => ?_)
      have := hst a ha
      first | exact this | (rw [this]; simp [hend ha])

/-! ### What the recursive walk visits -/

variable (ch cnt)

/-- The path `q` is at most `n` levels below `p`, every element on the way to it exists, everything
above it was left by going to the next element, and no sibling before it or before one of the paths above
it asked to skip the siblings. -/
def Reach (n : Nat) (p q : List Nat) : Prop :=
  ∃ r, q = p ++ r ∧ r.length ≤ n ∧ ∀ s i t, r = s ++ i :: t →
    i < cnt (p ++ s) ∧ ch (p ++ s) = .next ∧ ∀ j, j < i → ch (p ++ s ++ [j]) ≠ .skipSiblings

variable {ch cnt}

theorem append_lt_append {p a b : List Nat} : p ++ a < p ++ b ↔ a < b := by
  induction p with
  | nil => rfl
  | cons x p ih => rw [List.cons_append, List.cons_append, List.cons_lt_cons_iff]; simp [ih, Nat.lt_irrefl]

theorem lt_child (p : List Nat) (i : Nat) (t : List Nat) : p < p ++ i :: t := by
  have := (append_lt_append (p := p) (a := []) (b := i :: t)).mpr (List.nil_lt_cons _ _)
  rwa [List.append_nil] at this

theorem child_lt_child (p : List Nat) {i j : Nat} (h : i < j) (s t : List Nat) : p ++ i :: s < p ++ j :: t :=
  append_lt_append.mpr (List.cons_lt_cons_iff.mpr (.inl h))

theorem Reach.self (n : Nat) (p : List Nat) : Reach ch cnt n p p :=
  ⟨[], by simp, by simp, fun s i t h => by simp at h⟩

theorem Reach.child {n : Nat} {p q : List Nat} {i : Nat} (hi : i < cnt p) (hc : ch p = .next)
    (hs : ∀ j, j < i → ch (p ++ [j]) ≠ .skipSiblings) (h : Reach ch cnt n (p ++ [i]) q) : Reach ch cnt (n + 1) p q := by
  obtain ⟨r, rfl, h2, h3⟩ := h
  refine ⟨i :: r, by simp, by simp; omega, ?_⟩
  intro s k t e
  cases s with
  | nil =>
    simp only [List.nil_append, List.cons.injEq] at e
    obtain ⟨rfl, rfl⟩ := e
    simpa using ⟨hi, hc, hs⟩
  | cons a s =>
    simp only [List.cons_append, List.cons.injEq] at e
    obtain ⟨rfl, e⟩ := e
    have := h3 s k t e
    simpa using this

theorem Reach.inv {n : Nat} {p q : List Nat} (h : Reach ch cnt n p q) : q = p ∨ ∃ i n', n = n' + 1 ∧ i < cnt p ∧ ch p = .next ∧
    (∀ j, j < i → ch (p ++ [j]) ≠ .skipSiblings) ∧ Reach ch cnt n' (p ++ [i]) q := by
  obtain ⟨r, rfl, h2, h3⟩ := h
  cases r with
  | nil => exact .inl (by simp)
  | cons i r =>
    right
    cases n with
    | zero => simp at h2
    | succ n =>
      have := h3 [] i r rfl
      simp only [List.append_nil] at this
      refine ⟨i, n, rfl, this.1, this.2.1, this.2.2, r, by simp, by simpa using h2, ?_⟩
      intro s k t e
      have := h3 (i :: s) k t (by rw [e]; rfl)
      simpa using this

/-- The list `l` is a walk of `p`. -/
structure IsWalk (P : List Nat → Prop) (l : List (List Nat)) : Prop where
  sorted : l.Pairwise (· < ·)
  sound : ∀ q, q ∈ l → P q
  complete : ∀ q, P q → q ∈ l ∨ ∃ q', q' ∈ l ∧ ch q' = .found ∧ q' < q
  last : ∀ q q', q ∈ l → q' ∈ l → ch q' = .found → ¬ q' < q

theorem lt_of_reach {n n' : Nat} {p q q' : List Nat} {i j : Nat} (hij : i < j) (h : Reach ch cnt n (p ++ [i]) q)
    (h' : Reach ch cnt n' (p ++ [j]) q') : q < q' := by
  obtain ⟨r, rfl, _⟩ := h
  obtain ⟨r', rfl, _⟩ := h'
  simpa using child_lt_child p hij r r'

/-- What `kids` must visit: the elements below children `i`, `i + 1`, .... -/
def KReach (ch : List Nat → Choice) (cnt : List Nat → Nat) (n : Nat) (p : List Nat) (i : Nat) (q : List Nat) : Prop :=
  ∃ j, i ≤ j ∧ j < cnt p ∧ (∀ k, i ≤ k → k < j → ch (p ++ [k]) ≠ .skipSiblings) ∧ Reach ch cnt n (p ++ [j]) q

theorem kids_walk {n : Nat} {p : List Nat} (hf : ∀ p, IsWalk (ch := ch) (Reach ch cnt n p) (pre ch cnt n p).1 ∧
      match (pre ch cnt n p).2 with
      | .stop => ∃ q, q ∈ (pre ch cnt n p).1 ∧ ch q = .found
      | .skip => ch p = .skipSiblings ∧ ∀ q, q ∈ (pre ch cnt n p).1 → ch q ≠ .found
      | .go => ch p ≠ .skipSiblings ∧ ∀ q, q ∈ (pre ch cnt n p).1 → ch q ≠ .found) :
    ∀ (k i : Nat), k + i = cnt p → IsWalk (ch := ch) (KReach ch cnt n p i) (kids (pre ch cnt n) p k i).1 ∧
      if (kids (pre ch cnt n) p k i).2 then ∃ q, q ∈ (kids (pre ch cnt n) p k i).1 ∧ ch q = .found
      else ∀ q, q ∈ (kids (pre ch cnt n) p k i).1 → ch q ≠ .found := by
  intro k
  induction k with
  | zero =>
    intro i hi
    refine ⟨⟨by simp [kids], by simp [kids], ?_, by simp [kids]⟩, by simp [kids]⟩
    rintro q ⟨j, h1, h2, _⟩
    omega
  | succ k ih =>
    intro i hi
    obtain ⟨w, ho⟩ := hf (p ++ [i])
    have here : ∀ q, Reach ch cnt n (p ++ [i]) q → KReach ch cnt n p i q := fun q h =>
      ⟨i, Nat.le_refl _, by omega, fun k h1 h2 => by omega, h⟩
    unfold kids
    rcases hx : pre ch cnt n (p ++ [i]) with ⟨l, o⟩
    rw [hx] at w ho
    cases o with
    | stop =>
      refine ⟨⟨w.sorted, fun q hq => here q (w.sound q hq), ?_, w.last⟩, by simpa using ho⟩
      rintro q ⟨j, h1, h2, h3, h4⟩
      by_cases hj : j = i
      · subst hj; exact w.complete q h4
      · obtain ⟨q', g1, g2⟩ := ho
        exact .inr ⟨q', g1, g2, lt_of_reach (by omega) (w.sound _ g1) h4⟩
    | skip =>
      refine ⟨⟨w.sorted, fun q hq => here q (w.sound q hq), ?_, w.last⟩, by simpa using ho.2⟩
      rintro q ⟨j, h1, h2, h3, h4⟩
      by_cases hj : j = i
      · subst hj; exact w.complete q h4
      · exact absurd ho.1 (h3 i (Nat.le_refl _) (by omega))
    | go =>
      simp only
      obtain ⟨w2, ho2⟩ := ih (i + 1) (by omega)
      generalize kids (pre ch cnt n) p k (i + 1) = r at w2 ho2
      obtain ⟨l2, s⟩ := r
      simp only at w2 ho2 ⊢
      simp only at w ho
      have hlt : ∀ q q', q ∈ l → q' ∈ l2 → q < q' := by
        intro q q' h1 h2
        obtain ⟨j, g1, _, _, g4⟩ := w2.sound q' h2
        exact lt_of_reach (by omega) (w.sound q h1) g4
      refine ⟨⟨List.pairwise_append.mpr ⟨w.sorted, w2.sorted, fun a ha b hb => hlt a b ha hb⟩, ?_, ?_, ?_⟩, ?_⟩
      · intro q hq
        rcases List.mem_append.mp hq with hq | hq
        · exact here q (w.sound q hq)
        · obtain ⟨j, g1, g2, g3, g4⟩ := w2.sound q hq
          refine ⟨j, by omega, g2, fun k h1 h2 => ?_, g4⟩
          by_cases hk : k = i
          · subst hk; exact ho.1
          · exact g3 k (by omega) h2
      · rintro q ⟨j, h1, h2, h3, h4⟩
        by_cases hj : j = i
        · subst hj
          rcases w.complete q h4 with h | ⟨q', g1, g2, g3⟩
          · exact .inl (List.mem_append_left _ h)
          · exact absurd g2 (ho.2 _ g1)
        · rcases w2.complete q ⟨j, by omega, h2, fun k g1 g2 => h3 k (by omega) g2, h4⟩ with h | ⟨q', g1, g2, g3⟩
          · exact .inl (List.mem_append_right _ h)
          · exact .inr ⟨q', List.mem_append_right _ g1, g2, g3⟩
      · intro q q' h1 h2 h3
        rcases List.mem_append.mp h2 with h2 | h2
        · exact absurd h3 (ho.2 _ h2)
        · rcases List.mem_append.mp h1 with h1 | h1
          · exact fun hh => List.lt_irrefl _ (List.lt_trans hh (hlt _ _ h1 h2))
          · exact w2.last q q' h1 h2 h3
      · cases s
        · simp only [Bool.false_eq_true, if_false] at ho2 ⊢
          intro q hq
          rcases List.mem_append.mp hq with hq | hq
          · exact ho.2 q hq
          · exact ho2 q hq
        · simp only [if_true] at ho2 ⊢
          obtain ⟨q, g1, g2⟩ := ho2
          exact ⟨q, List.mem_append_right _ g1, g2⟩

theorem pre_walk : ∀ (n : Nat) (p : List Nat), IsWalk (ch := ch) (Reach ch cnt n p) (pre ch cnt n p).1 ∧
      match (pre ch cnt n p).2 with
      | .stop => ∃ q, q ∈ (pre ch cnt n p).1 ∧ ch q = .found
      | .skip => ch p = .skipSiblings ∧ ∀ q, q ∈ (pre ch cnt n p).1 → ch q ≠ .found
      | .go => ch p ≠ .skipSiblings ∧ ∀ q, q ∈ (pre ch cnt n p).1 → ch q ≠ .found := by
  have one : ∀ n p, (ch p ≠ .next ∨ n = 0) → IsWalk (ch := ch) (Reach ch cnt n p) [p] := by
    intro n p hc
    refine ⟨by simp, ?_, ?_, ?_⟩
    · intro q hq; simp at hq; subst hq; exact .self _ _
    · intro q hq
      rcases hq.inv with h | ⟨i, n', h1, h2, h3, _⟩
      · left; simp [h]
      · rcases hc with hc | hc
        · exact absurd h3 hc
        · omega
    · intro q q' h1 h2 _ hh
      simp at h1 h2
      subst h1; subst h2
      exact List.lt_irrefl _ hh
  intro n
  induction n with
  | zero =>
    intro p
    simp only [pre]
    refine ⟨one 0 p (.inr rfl), ?_⟩
    cases h : ch p <;> simp [out, h]
  | succ n ih =>
    intro p
    simp only [pre]
    cases hc : ch p with
    | next =>
      simp only
      obtain ⟨w, ho⟩ := kids_walk (p := p) ih (cnt p) 0 rfl
      generalize kids (pre ch cnt n) p (cnt p) 0 = r at w ho
      obtain ⟨l, s⟩ := r
      simp only at w ho ⊢
      have hlt : ∀ q, q ∈ l → p < q := by
        intro q hq
        obtain ⟨j, _, _, _, r, rfl, _⟩ := w.sound q hq
        simpa using lt_child p j r
      refine ⟨⟨List.pairwise_cons.mpr ⟨hlt, w.sorted⟩, ?_, ?_, ?_⟩, ?_⟩
      · intro q hq
        rcases List.mem_cons.mp hq with rfl | hq
        · exact .self _ _
        · obtain ⟨j, g1, g2, g3, g4⟩ := w.sound q hq
          exact g4.child g2 hc (fun k hk => g3 k (by omega) hk)
      · intro q hq
        rcases hq.inv with rfl | ⟨i, n', h1, h2, h3, h4, h5⟩
        · exact .inl (by simp)
        · cases h1
          rcases w.complete q ⟨i, by omega, h2, fun k _ hk => h4 k hk, h5⟩ with h | ⟨q', g1, g2, g3⟩
          · exact .inl (List.mem_cons_of_mem _ h)
          · exact .inr ⟨q', List.mem_cons_of_mem _ g1, g2, g3⟩
      · intro q q' h1 h2 h3
        rcases List.mem_cons.mp h2 with e | h4
        · rw [e, hc] at h3; cases h3
        · rcases List.mem_cons.mp h1 with e | h5
          · subst e; exact fun hh => List.lt_irrefl _ (List.lt_trans hh (hlt _ h4))
          · exact w.last q q' h5 h4 h3
      · cases s
        · simp only [Bool.false_eq_true, if_false] at ho ⊢
          refine ⟨by simp, ?_⟩
          intro q hq
          rcases List.mem_cons.mp hq with rfl | hq
          · rw [hc]; simp
          · exact ho q hq
        · simp only [if_true] at ho ⊢
          obtain ⟨q, g1, g2⟩ := ho
          exact ⟨q, List.mem_cons_of_mem _ g1, g2⟩
    | _ =>
      refine ⟨one _ p (.inl (by rw [hc]; simp)), ?_⟩
      simp [out, hc]

end
end Pa
end TS
