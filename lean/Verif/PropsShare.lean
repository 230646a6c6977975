import Verif.Share
/-
C79: types in memory that share parts. The other properties are about types as trees; these say that this is no restriction.
-/
namespace TS
namespace Props
open Dti Share

/-- **C79.** Let the type at `a` be the tree `t`, in a memory in which any of its parts may be at the same place as another part or
may be part of other types too. `finalize_type_info` ends, accepts the type exactly if it would accept `t` with every part in a place
of its own, and if so the type at `a` is then the tree that would have come out. The only types written are those reachable from `a`
and the static type that strings point to. Pointers stay as they are. Every other type that was the tree `s` is now a tree with the same declaration that `finalize_type_info`
treats as it treats `s`; if `s` was finalised already, it is still `s`. -/
theorem C79_shared (u1 f a : Nat) (t : Dti) (H : Store) (hu : Unf H a t) (hr : Raw t) (hstd : Std u1 H) (hd : deep t ≤ f) :
    ∃ K, finH u1 f a H = some (K, (finalize t).isSome) ∧
      (∀ t', finalize t = some t' → Unf K a t') ∧
      (∀ b, ¬ Reach H a b → b ≠ u1 → K b = H b) ∧
      (∀ b, (K b).map Node.ptrs = (H b).map Node.ptrs) ∧
      (∀ b s, Unf H b s → Raw s → ∃ s', Unf K b s' ∧ Raw s' ∧ finalize s' = finalize s ∧ declOf s' = declOf s) ∧
      (∀ b s, Unf H b s → Made s → Unf K b s) ∧ Std u1 K := by
  obtain ⟨K, ok, h1, h2, h3, h4, h5, h6⟩ := good_main u1 f a t H hu hr hstd hd
  have hok : ok = (finalize t).isSome := by
    cases ht : finalize t with
    | none => exact h5 ht
    | some t' => exact (h6 t' ht).1
  subst hok
  refine ⟨K, h1, fun t' ht => (h6 t' ht).2, h4, h3, fun b s hb hs => ?_, fun b s hb hs => ?_, hstd.evolves h2⟩
  · obtain ⟨s', k1, k2⟩ := h2 b s hb hs
    exact ⟨s', k1, k2.raw hs, k2.fin, k2.decl⟩
  · obtain ⟨s', k1, k2⟩ := h2 b s hb (.made hs)
    rw [k2.made hs] at k1
    exact k1

/-- One call after another. -/
def finCalls (u1 f : Nat) : List Nat → Store → Option (Store × List Bool)
  | [], H => some (H, [])
  | a :: l, H => do
    let (H, ok) ← finH u1 f a H
    let (H, oks) ← finCalls u1 f l H
    pure (H, ok :: oks)

/-- **C79, in any order.** `finalize_type_info` is called on any types, one after another, in any order and any number of times,
whether they share parts, contain each other, or have been refused before. Every call accepts exactly the types that it would accept
alone, and afterwards every type accepted is what it would be had nothing been shared. -/
theorem C79_calls (u1 f : Nat) : ∀ (l : List (Nat × Dti)) (H : Store), (∀ a t, (a, t) ∈ l → Unf H a t ∧ Raw t ∧ deep t ≤ f) → Std u1 H →
    ∃ K, finCalls u1 f (l.map (·.1)) H = some (K, l.map (fun x => (finalize x.2).isSome)) ∧
      (∀ a t t', (a, t) ∈ l → finalize t = some t' → Unf K a t') ∧
      (∀ b, (∀ a t, (a, t) ∈ l → ¬ Reach H a b) → b ≠ u1 → K b = H b) ∧
      (∀ b s, Unf H b s → Raw s → ∃ s', Unf K b s' ∧ Raw s' ∧ finalize s' = finalize s ∧ declOf s' = declOf s) ∧
      (∀ b s, Unf H b s → Made s → Unf K b s) := by
  -- the calls that come later see trees that are treated as those before
  have main : ∀ (l : List (Nat × Dti)) (H : Store), (∀ a t, (a, t) ∈ l → ∃ s, Unf H a s ∧ Raw s ∧ deep s ≤ f ∧ finalize s = finalize t) → Std u1 H →
      ∃ K, finCalls u1 f (l.map (·.1)) H = some (K, l.map (fun x => (finalize x.2).isSome)) ∧
        (∀ a t t', (a, t) ∈ l → finalize t = some t' → Unf K a t') ∧
        (∀ b, (∀ a t, (a, t) ∈ l → ¬ Reach H a b) → b ≠ u1 → K b = H b) ∧
        (∀ b s, Unf H b s → Raw s → ∃ s', Unf K b s' ∧ Raw s' ∧ finalize s' = finalize s ∧ declOf s' = declOf s) ∧
        (∀ b s, Unf H b s → Made s → Unf K b s) := by
    intro l
    induction l with
    | nil => exact fun H _ _ => ⟨H, rfl, fun _ _ _ h => (by cases h), fun _ _ _ => rfl, fun b s h1 h2 => ⟨s, h1, h2, rfl, rfl⟩, fun _ _ h _ => h⟩
    | cons x l ih =>
      obtain ⟨a, t⟩ := x
      intro H hl hstd
      obtain ⟨s, s1, s2, s3, s4⟩ := hl a t (by simp)
      obtain ⟨K, k1, k2, k3, k4, k5, k6, k7⟩ := C79_shared u1 f a s H s1 s2 hstd s3
      obtain ⟨L, m1, m2, m3, m4, m5⟩ := ih K (fun b u hb => by
        obtain ⟨v, v1, v2, v3, v4⟩ := hl b u (by simp [hb])
        obtain ⟨w, w1, w2, w3, w4⟩ := k5 b v v1 v2
        exact ⟨w, w1, w2, by rw [← deep_decl, w4, deep_decl]; exact v3, w3.trans v4⟩) k7
      rw [s4] at k1 k2
      refine ⟨L, ?_, ?_, ?_, ?_, ?_⟩
      · simp only [List.map_cons, finCalls, k1, m1, Option.bind_eq_bind, Option.bind_some]; rfl
      · intro b u t' hm ht
        rcases List.mem_cons.mp hm with hm | hm
        · cases hm
          exact m5 a t' (k2 t' ht) (raw_finalize s t' s2 (s4.trans ht))
        · exact m2 b u t' hm ht
      · intro b hb hb1
        rw [m3 b (fun c u hm hr => hb c u (by simp [hm]) (reach_same (fun x => (k4 x).symm) hr)) hb1]
        exact k3 b (hb a t (by simp)) hb1
      · intro b s h1 h2
        obtain ⟨s', q1, q2, q3, q4⟩ := k5 b s h1 h2
        obtain ⟨s'', r1, r2, r3, r4⟩ := m4 b s' q1 q2
        exact ⟨s'', r1, r2, r3.trans q3, r4.trans q4⟩
      · exact fun b s h1 h2 => m5 b s (k6 b s h1 h2) h2
  intro l H hl hstd
  exact main l H (fun a t hm => ⟨t, (hl a t hm).1, (hl a t hm).2.1, (hl a t hm).2.2, rfl⟩) hstd

/-- A type that is finalised is not looked into. -/
theorem finH_final {u1 f p : Nat} {H : Store} {n : Node} (h : H p = some n) (hf : n.top.hdr.isFinal = true) :
    finH u1 (f + 1) p H = some (H, true) := by
  unfold finH
  rw [h]
  cases n <;> simp only [Node.top, Dti.hdr] at hf <;> simp [hf]

theorem finAllH_final {u1 f : Nat} {H : Store} {q : Nat} (hq : finH u1 f q H = none) : ∀ (fs : List (Fld × Nat)) (g : Fld) (r : List (Fld × Nat)) (v : Bool) (b : Nat),
    (∀ p, p ∈ fs.map (·.2) → ∃ n, H p = some n ∧ n.top.hdr.isFinal = true) → finAllH (finH u1 f) (fs ++ (g, q) :: r) v b H = none
  | [], g, r, v, b, _ => by simp [finAllH, hq]
  | (g0, p) :: fs, g, r, v, b, h => by
    obtain ⟨n, h1, h2⟩ := h p (by simp)
    cases f with
    | zero => simp [finAllH, finH]
    | succ f =>
      simp only [List.cons_append, finAllH, finH_final h1 h2, Option.bind_eq_bind, Option.bind_some, Bool.not_true, Bool.false_eq_true, if_false, h1]
      rw [finAllH_final hq fs g r _ _ (fun p hp => h p (by simp at hp ⊢; exact .inr hp))]
      rfl

/-- **C79, types that contain themselves.** Where every type of `S` is a container not finalised yet with a containee in `S` (before
which there are only finalised ones), `finalize_type_info` never returns on a type of `S`, however much stack there is: there is no
check against it. -/
theorem C79_cycle (u1 : Nat) (S : Nat → Prop) (H : Store)
    (hS : ∀ a, S a → (∃ h c, H a = some (.arr h c) ∧ h.isFinal = false ∧ S c) ∨
      ∃ h fs g q r, H a = some (.tup h (fs ++ (g, q) :: r)) ∧ h.isFinal = false ∧ h.count ≠ 0 ∧ S q ∧
        ∀ p, p ∈ fs.map (·.2) → ∃ n, H p = some n ∧ n.top.hdr.isFinal = true) :
    ∀ f a, S a → finH u1 f a H = none := by
  intro f
  induction f with
  | zero => intro a _; rfl
  | succ f ih =>
    intro a ha
    unfold finH
    rcases hS a ha with ⟨h, c, h1, h2, h3⟩ | ⟨h, fs, g, q, r, h1, h2, h3, h4, h5⟩
    · rw [h1]
      simp [h2, ih c h3]
    · rw [h1]
      simp only [Option.bind_eq_bind, Option.bind_some, h2, Bool.false_eq_true, if_false, h3]
      rw [finAllH_final (ih q h4) fs g r _ _ h5]
      rfl

/-- The static type that strings point to, and whether it is finalised. -/
def StrPart (u1 : Nat) (H : Store) (f : Bool) : Prop := ∃ h, H u1 = some (.prim .uint h) ∧ h.isFinal = f

/-- Every finalised string points to a finalised type. -/
def StrOk (u1 : Nat) (H : Store) : Prop := ∀ a b g, H a = some (.str b g) → g.isFinal = true → StrPart u1 H true

theorem strPart_upd {u1 a : Nat} {H : Store} {n : Node} {f : Bool} (h : StrPart u1 H f) (hn : a ≠ u1) : StrPart u1 (upd H a n) f := by
  obtain ⟨g, h1, h2⟩ := h
  exact ⟨g, by unfold upd; rw [if_neg (Ne.symm hn)]; exact h1, h2⟩

/-- Types that are no strings, written to a place that is not that of the static type. -/
theorem strOk_upd {u1 a : Nat} {H : Store} {n : Node} (h : StrOk u1 H) (hn : a ≠ u1) (hs : ∀ b g, n = .str b g → g.isFinal = true → StrPart u1 H true) :
    StrOk u1 (upd H a n) := by
  intro c b g hc hg
  unfold upd at hc
  split at hc
  · exact strPart_upd (hs b g (Option.some.inj hc) hg) hn
  · exact strPart_upd (h c b g hc hg) hn

def StrStep (u1 : Nat) (H K : Store) : Prop := (∃ f, StrPart u1 K f) ∧ StrOk u1 K ∧ (StrPart u1 H true → StrPart u1 K true)

theorem finAllH_str {u1 : Nat} {rec : Nat → Store → Option (Store × Bool)}
    (hrec : ∀ p H K ok, rec p H = some (K, ok) → (∃ f, StrPart u1 H f) → StrOk u1 H → StrStep u1 H K) :
    ∀ (fs : List (Fld × Nat)) (v : Bool) (b : Nat) (H : Store) x, finAllH rec fs v b H = some x → (∃ f, StrPart u1 H f) → StrOk u1 H → StrStep u1 H x.2.2.2.2
  | [], v, b, H, x, h, h1, h2 => by cases h; exact ⟨h1, h2, id⟩
  | (f, p) :: r, v, b, H, x, h, h1, h2 => by
    simp only [finAllH, Option.bind_eq_bind, Option.bind_eq_some_iff] at h
    obtain ⟨⟨K, ok⟩, h3, h⟩ := h
    obtain ⟨k1, k2, k3⟩ := hrec p H K ok h3 h1 h2
    cases ok with
    | false => cases h; exact ⟨k1, k2, k3⟩
    | true =>
      simp only [Bool.not_true, Bool.false_eq_true, if_false, Option.bind_eq_some_iff] at h
      obtain ⟨n, _, ⟨fs', v', b', ok', L⟩, h4, h5⟩ := h
      cases h5
      obtain ⟨m1, m2, m3⟩ := finAllH_str hrec r _ _ K _ h4 k1 k2
      exact ⟨m1, m2, fun h => m3 (k3 h)⟩

/-- **C79, strings.** If every finalised string points to a finalised type, that is still so after any call of `finalize_type_info`,
whether it accepts the type or not: the type that strings point to is finalised with the first of them. -/
theorem C79_strings (u1 f : Nat) : ∀ (a : Nat) (H K : Store) (ok : Bool), finH u1 f a H = some (K, ok) → (∃ f, StrPart u1 H f) → StrOk u1 H →
    (∃ f, StrPart u1 K f) ∧ StrOk u1 K ∧ (StrPart u1 H true → StrPart u1 K true) := by
  induction f with
  | zero => intro a H K ok h; cases h
  | succ f ih =>
    intro a H K ok h h1 h2
    unfold finH at h
    simp only [Option.bind_eq_bind, Option.bind_eq_some_iff] at h
    obtain ⟨n, hn, h⟩ := h
    have hsame : StrStep u1 H H := ⟨h1, h2, id⟩
    have hne : (∀ k g, n ≠ .prim k g) → a ≠ u1 := by
      rintro hk rfl
      obtain ⟨_, g, h3, _⟩ := h1
      rw [hn] at h3
      exact hk _ _ (Option.some.inj h3)
    cases n with
    | prim k g =>
      cases hf : g.isFinal with
      | true => simp only [hf, if_true] at h; cases h; exact hsame
      | false =>
        simp only [hf, Bool.false_eq_true, if_false] at h
        cases hp : finPrim k g with
        | none => rw [hp] at h; cases h; exact hsame
        | some d =>
          rw [hp] at h
          cases h
          by_cases ha : a = u1
          · subst ha
            obtain ⟨_, g', h3, _⟩ := h1
            rw [hn] at h3
            cases h3
            have hd : d.hdr.isFinal = true := by rw [(finPrim_eq hp).1]; rfl
            have hK : StrPart a (upd H a (.prim .uint d.hdr)) true := ⟨_, by simp [upd], hd⟩
            exact ⟨⟨_, hK⟩, fun _ _ _ _ _ => hK, fun _ => hK⟩
          · obtain ⟨e, he⟩ := h1
            exact ⟨⟨e, strPart_upd he ha⟩, strOk_upd h2 ha (fun _ _ h => by cases h), fun h => strPart_upd h ha⟩
    | str b g =>
      have ha := hne (fun _ _ h => by cases h)
      cases hf : g.isFinal with
      | true => simp only [hf, if_true] at h; cases h; exact hsame
      | false =>
        simp only [hf, Bool.false_eq_true, if_false, Option.bind_eq_some_iff] at h
        obtain ⟨⟨L, ok'⟩, h3, h⟩ := h
        obtain ⟨⟨e, k1⟩, k2, k3⟩ := ih u1 H L ok' h3 h1 h2
        cases ok' with
        | false => cases h; exact ⟨⟨e, k1⟩, k2, k3⟩
        | true =>
          cases h
          -- the static type was accepted, so it is finalised
          have hfin : StrPart u1 L true := by
            cases f with
            | zero => cases h3
            | succ f =>
              obtain ⟨e, q, h4, h5⟩ := h1
              unfold finH at h3
              rw [h4] at h3
              cases hq : q.isFinal with
              | true => exact k3 ⟨q, h4, hq⟩
              | false =>
                simp only [Option.bind_eq_bind, Option.bind_some, hq, Bool.false_eq_true, if_false] at h3
                cases hp : finPrim .uint q with
                | none => rw [hp] at h3; cases h3
                | some d =>
                  rw [hp] at h3
                  cases h3
                  exact ⟨d.hdr, by simp [upd], by rw [(finPrim_eq hp).1]; rfl⟩
          exact ⟨⟨_, strPart_upd hfin ha⟩, strOk_upd k2 ha (fun _ _ _ _ => hfin), fun _ => strPart_upd hfin ha⟩
    | tup g fs =>
      have ha := hne (fun _ _ h => by cases h)
      cases hf : g.isFinal with
      | true => simp only [hf, if_true] at h; cases h; exact hsame
      | false =>
        by_cases h0 : g.count = 0
        · simp only [hf, Bool.false_eq_true, if_false, h0, if_true] at h; cases h; exact hsame
        · simp only [hf, Bool.false_eq_true, if_false, h0, Option.bind_eq_some_iff] at h
          obtain ⟨⟨fs', v, b, ok', L⟩, h3, h⟩ := h
          obtain ⟨⟨e, k1⟩, k2, k3⟩ := finAllH_str ih _ _ _ _ _ h3 h1 h2
          have hw : ∀ n, (∀ b g, n ≠ .str b g) → StrStep u1 H (upd L a n) := fun n hn =>
            ⟨⟨e, strPart_upd k1 ha⟩, strOk_upd k2 ha (fun b g h => absurd h (hn b g)), fun h => strPart_upd (k3 h) ha⟩
          cases ok' with
          | false => cases h; exact hw _ (fun _ _ h => by cases h)
          | true =>
            simp only [Bool.not_true, Bool.false_eq_true, if_false, Option.bind_eq_some_iff] at h
            obtain ⟨⟨fs2, e2⟩, _, h⟩ := h
            split at h
            · cases h; exact hw _ (fun _ _ h => by cases h)
            · cases h; exact hw _ (fun _ _ h => by cases h)
    | arr g c =>
      have ha := hne (fun _ _ h => by cases h)
      cases hf : g.isFinal with
      | true => simp only [hf, if_true] at h; cases h; exact hsame
      | false =>
        simp only [hf, Bool.false_eq_true, if_false, Option.bind_eq_some_iff] at h
        obtain ⟨⟨L, ok'⟩, h3, h⟩ := h
        obtain ⟨⟨e, k1⟩, k2, k3⟩ := ih c H L ok' h3 h1 h2
        cases ok' with
        | false => cases h; exact ⟨⟨e, k1⟩, k2, k3⟩
        | true =>
          simp only [Bool.not_true, Bool.false_eq_true, if_false, Option.bind_eq_some_iff] at h
          obtain ⟨m, _, h⟩ := h
          cases h
          exact ⟨⟨e, strPart_upd k1 ha⟩, strOk_upd k2 ha (fun _ _ h => by cases h), fun h => strPart_upd (k3 h) ha⟩

/-! ### Examples -/

namespace ShareEx

/-- A memory with: 0 the static one byte UINT (not finalised), 1 a nullable UINT, 2 a string of up to 50 bytes, 3 an array of
strings (pointing to 2), 4 a tuple of 1, 2, 3, 1 and 3, 5 a tuple of 3 and 4, 6 a tuple whose limit of 3 bytes is too small for two
strings (both 2), 7 an array of 8, and 8 a tuple of a finalised UINT and 7: types that contain themselves. -/
def shareEx : Store
  | 0 => some (.prim .uint { size := 1, isStatic := true })
  | 1 => some (.prim .uint { size := 4, nullable := true })
  | 2 => some (.str false { isVar := true, varCount := true, maxSize := 50 })
  | 3 => some (.arr { isVar := true, varCount := true, maxSize := 100 } 2)
  | 4 => some (.tup { maxSize := 1000, count := 5 } [({}, 1), ({}, 2), ({}, 3), ({}, 1), ({}, 3)])
  | 5 => some (.tup { maxSize := 2000, count := 2 } [({}, 3), ({}, 4)])
  | 6 => some (.tup { maxSize := 2, count := 2 } [({}, 2), ({}, 2)])
  | 7 => some (.arr { isVar := true, varCount := true, maxSize := 100 } 8)
  | 8 => some (.tup { maxSize := 1000, count := 2 } [({}, 9), ({}, 7)])
  | 9 => some (.prim .uint { size := 4, isFinal := true })
  | _ => none

def exS : Dti := .str false { isVar := true, varCount := true, maxSize := 50 }
def exU : Dti := .prim .uint { size := 4, nullable := true }
def exA : Dti := .arr { isVar := true, varCount := true, maxSize := 100 } exS
def exT : Dti := .tup { maxSize := 1000, count := 5 } [({}, exU), ({}, exS), ({}, exA), ({}, exU), ({}, exA)]
def exT2 : Dti := .tup { maxSize := 2000, count := 2 } [({}, exA), ({}, exT)]
def exR : Dti := .tup { maxSize := 2, count := 2 } [({}, exS), ({}, exS)]

theorem exS_raw : Raw exS := .str _ _ rfl
theorem exU_raw : Raw exU := .prim _ _ rfl
theorem exA_raw : Raw exA := .arr _ _ rfl exS_raw
theorem exS_unf : Unf shareEx 2 exS := rfl
theorem exU_unf : Unf shareEx 1 exU := rfl
theorem exA_unf : Unf shareEx 3 exA := ⟨2, rfl, exS_unf⟩
theorem exT_unf : Unf shareEx 4 exT :=
  ⟨_, rfl, 1, _, rfl, exU_unf, 2, _, rfl, exS_unf, 3, _, rfl, exA_unf, 1, _, rfl, exU_unf, 3, _, rfl, exA_unf, rfl⟩
theorem exT2_unf : Unf shareEx 5 exT2 := ⟨_, rfl, 3, _, rfl, exA_unf, 4, _, rfl, exT_unf, rfl⟩
theorem exR_unf : Unf shareEx 6 exR := ⟨_, rfl, 2, _, rfl, exS_unf, 2, _, rfl, exS_unf, rfl⟩

theorem exT_raw : Raw exT := .tup _ _ rfl rfl (by
  intro f t hm
  simp only [List.mem_cons, Prod.mk.injEq, List.not_mem_nil, or_false] at hm
  rcases hm with ⟨_, rfl⟩ | ⟨_, rfl⟩ | ⟨_, rfl⟩ | ⟨_, rfl⟩ | ⟨_, rfl⟩
  · exact exU_raw
  · exact exS_raw
  · exact exA_raw
  · exact exU_raw
  · exact exA_raw)
theorem exT2_raw : Raw exT2 := .tup _ _ rfl rfl (by
  intro f t hm
  simp only [List.mem_cons, Prod.mk.injEq, List.not_mem_nil, or_false] at hm
  rcases hm with ⟨_, rfl⟩ | ⟨_, rfl⟩
  · exact exA_raw
  · exact exT_raw)
theorem exR_raw : Raw exR := .tup _ _ rfl rfl (by
  intro f t hm
  simp only [List.mem_cons, Prod.mk.injEq, List.not_mem_nil, or_false] at hm
  rcases hm with ⟨_, rfl⟩ | ⟨_, rfl⟩ <;> exact exS_raw)
theorem ex_std : Std 0 shareEx := ⟨_, rfl, rfl, .prim _ _ rfl⟩

/-- The refused tuple first, then the others, in an order in which parts come before and after the whole, one of them twice. -/
example := C79_calls 0 6 [(6, exR), (3, exA), (5, exT2), (4, exT), (6, exR), (5, exT2)] shareEx (by
  intro a t hm
  simp only [List.mem_cons, Prod.mk.injEq, List.not_mem_nil, or_false] at hm
  rcases hm with ⟨rfl, rfl⟩ | ⟨rfl, rfl⟩ | ⟨rfl, rfl⟩ | ⟨rfl, rfl⟩ | ⟨rfl, rfl⟩ | ⟨rfl, rfl⟩
  · exact ⟨exR_unf, exR_raw, by decide⟩
  · exact ⟨exA_unf, exA_raw, by decide⟩
  · exact ⟨exT2_unf, exT2_raw, by decide⟩
  · exact ⟨exT_unf, exT_raw, by decide⟩
  · exact ⟨exR_unf, exR_raw, by decide⟩
  · exact ⟨exT2_unf, exT2_raw, by decide⟩) ex_std

example : (finCalls 0 6 [6, 3, 5, 4, 6, 5] shareEx).map (·.2) = some [false, true, true, true, false, true] := by decide +kernel

/-- The tuple at 5: all of it is finalised, and the tuple at 4 takes 2 + 1 + 2 * 4 + 3 * 2 bytes at least. -/
example : ((finCalls 0 6 [5] shareEx).bind (fun x => x.1 4)).map (fun n => (n.top.hdr.size, n.top.hdr.bits, n.top.hdr.isFinal)) = some (17, 2, true) := by
  decide +kernel

example := C79_shared 0 6 5 exT2 shareEx exT2_unf exT2_raw ex_std (by decide)

/-- Afterwards the static type at 0 is finalised. -/
example : ∀ K ok, finH 0 6 5 shareEx = some (K, ok) → StrOk 0 K := fun K ok h =>
  (C79_strings 0 6 5 shareEx K ok h ⟨_, _, rfl, rfl⟩ (fun a b g h hg => by
    simp only [shareEx] at h
    split at h <;> cases h
    cases hg)).2.1

example : ((finH 0 6 5 shareEx).bind (fun x => x.1 0)).map (fun n => n.top.hdr.isFinal) = some true := by decide +kernel

/-- `finalize_type_info` on an array of tuples with that array in them. -/
example : ∀ f, finH 0 f 7 shareEx = none := fun f =>
  C79_cycle 0 (fun a => a = 7 ∨ a = 8) shareEx (by
    rintro a (rfl | rfl)
    · exact .inl ⟨_, _, rfl, rfl, .inr rfl⟩
    · exact .inr ⟨_, [({}, 9)], {}, 7, [], rfl, rfl, by decide, .inl rfl, fun p hp => by
        simp only [List.map_cons, List.map_nil, List.mem_singleton] at hp
        subst hp
        exact ⟨_, rfl, rfl⟩⟩) f 7 (.inl rfl)

end ShareEx

end Props
end TS
