import Verif.TypeHeap
import Verif.HeapProof
import Verif.TypeTrunc
/-
Proof that `deserialize_type_info` neither leaks nor frees twice.
-/
namespace TS
namespace Dti
open Mem Obj

/-- Both are what the head says. -/
def HeadOf (rec : Bytes → Nat → Option (Option Dti)) (c : Nat) (m : Bytes) (n : Nat) : Prop :=
  (deserHead c m n = none ∧ deserBody rec c m n = none) ∨
  (deserHead c m n = some none ∧ deserBody rec c m n = some none) ∨
  (∃ d b, deserHead c m n = some (some (.leaf d b)) ∧ deserBody rec c m n = finishName d m n b ∧
    ((∃ k h, d = .prim k h) ∨ ∃ b h, d = .str b h ∧ h.isStatic = false)) ∨
  (∃ h b, deserHead c m n = some (some (.tup h b)) ∧ deserBody rec c m n = deserTup rec h m n b) ∨
  (∃ h b, deserHead c m n = some (some (.arr h b)) ∧ deserBody rec c m n = deserArr rec h m n b)

section
attribute [local irreducible] finishName deserTup deserArr num4
variable (rec : Bytes → Nat → Option (Option Dti)) {m : Bytes} {n c : Nat}

theorem head_prim {p : PKind × Bool × Nat} (hp : primOf c = some p) (hn : 2 ≤ n) : HeadOf rec c m n := by
  obtain ⟨k, nl, mx⟩ := p
  cases hs : m[1]? with
  | none =>
    left
    constructor
    · unfold deserHead
      rw [hp, if_pos (by simp [hn]), hs, Option.bind_eq_bind, Option.bind_some]
      rfl
    · unfold deserBody
      rw [hp, if_pos (by simp [hn]), hs, Option.bind_eq_bind, Option.bind_some]
      rfl
  | some s =>
    by_cases hv : (decide (s.toNat < 1) || decide (mx < s.toNat)) = true
    · refine .inr (.inl ⟨?_, ?_⟩)
      · unfold deserHead
        rw [hp, if_pos (by simp [hn]), hs]
        simp only [Option.bind_eq_bind, Option.bind_some, hv, if_true, Option.pure_def]
      · unfold deserBody
        rw [hp, if_pos (by simp [hn]), hs]
        simp only [Option.bind_eq_bind, Option.bind_some, hv, if_true, Option.pure_def]
    · refine .inr (.inr (.inl ⟨.prim k { nullable := nl, size := s.toNat }, 2, ?_, ?_, .inl ⟨_, _, rfl⟩⟩))
      · unfold deserHead
        rw [hp, if_pos (by simp [hn]), hs]
        simp only [Option.bind_eq_bind, Option.bind_some, hv, Option.pure_def]
        rfl
      · simp at hv
        exact deserBody_prim rec hn hs hp (by omega) (by omega)

theorem head_float (hp : primOf c = none) {d : Dti} (hf : floatOf c = some d) : HeadOf rec c m n := by
  refine .inr (.inr (.inl ⟨d, 1, ?_, deserBody_float rec hp hf, .inl ?_⟩))
  · unfold deserHead
    rw [hp, if_neg (by simp), hf, if_pos (by simp), Option.bind_eq_bind, Option.bind_some, Option.pure_def]
  · unfold floatOf at hf
    split at hf <;> first | (cases hf; exact ⟨_, _, rfl⟩) | cases hf

/-- A number cannot be read. -/
theorem head_fault (h1 : 120 ≤ c) (h2 : c ≤ 132) (hx : num4 m n 1 = none) : HeadOf rec c m n := by
  obtain ⟨p1, p2⟩ := prim_float_none h1
  left
  constructor
  · unfold deserHead
    rw [p1, p2, if_neg (by simp), if_neg (by simp), hx]
    simp only [Option.bind_eq_bind, Option.bind_none]
    by_cases a1 : (decide (120 ≤ c) && decide (c ≤ 125)) = true
    · rw [if_pos a1]
    rw [if_neg a1]
    by_cases a2 : (decide (126 ≤ c) && decide (c ≤ 127)) = true
    · rw [if_pos a2]
    rw [if_neg a2]
    by_cases a3 : c = 128
    · rw [if_pos a3]
    rw [if_neg a3]
    by_cases a4 : (decide (129 ≤ c) && decide (c ≤ 130)) = true
    · rw [if_pos a4]
    rw [if_neg a4]
    by_cases a5 : c = 131
    · rw [if_pos a5]
    rw [if_neg a5, if_pos (by simp at a1 a2 a4; omega)]
  · unfold deserBody
    rw [p1, p2, if_neg (by simp), if_neg (by simp), hx]
    simp only [Option.bind_eq_bind, Option.bind_none]
    by_cases a1 : (decide (120 ≤ c) && decide (c ≤ 125)) = true
    · rw [if_pos a1]
    rw [if_neg a1]
    by_cases a2 : (decide (126 ≤ c) && decide (c ≤ 127)) = true
    · rw [if_pos a2]
    rw [if_neg a2]
    by_cases a3 : c = 128
    · rw [if_pos a3]
    rw [if_neg a3]
    by_cases a4 : (decide (129 ≤ c) && decide (c ≤ 130)) = true
    · rw [if_pos a4]
    rw [if_neg a4]
    by_cases a5 : c = 131
    · rw [if_pos a5]
    rw [if_neg a5, if_pos (by simp at a1 a2 a4; omega)]

/-- There are not enough bytes for a number. -/
theorem head_short (h1 : 120 ≤ c) (hx : num4 m n 1 = some none) : HeadOf rec c m n := by
  obtain ⟨p1, p2⟩ := prim_float_none h1
  refine .inr (.inl ⟨?_, deserBody_num4_short rec h1 hx⟩)
  unfold deserHead
  rw [p1, p2, if_neg (by simp), if_neg (by simp), hx]
  simp only [Option.bind_eq_bind, Option.bind_some, Option.pure_def, ite_self]

theorem head_str (h1 : 120 ≤ c) (h2 : c ≤ 125) {x : Nat} (hx : num4 m n 1 = some (some x)) : HeadOf rec c m n := by
  obtain ⟨p1, p2⟩ := prim_float_none h1
  have hb := deserBody_str rec h1 h2 hx
  have hh : deserHead c m n = if c = 122 ∨ c = 125 then
      some (some (.leaf (.str (decide (123 ≤ c)) { maxSize := x, varCount := true }) 5))
      else some (some (.leaf (.str (decide (123 ≤ c)) { nullable := decide (c = 120 ∨ c = 123), size := x, count := x }) 5)) := by
    unfold deserHead
    rw [p1, p2, if_neg (by simp), if_neg (by simp), if_pos (by simp [h1, h2]), hx, Option.bind_eq_bind, Option.bind_some]
    simp only [Bool.or_eq_true, decide_eq_true_eq, Option.pure_def]
  by_cases h : c = 122 ∨ c = 125
  · rw [if_pos h] at hb hh
    exact .inr (.inr (.inl ⟨_, _, hh, hb, .inr ⟨_, _, rfl, rfl⟩⟩))
  · rw [if_neg h] at hb hh
    exact .inr (.inr (.inl ⟨_, _, hh, hb, .inr ⟨_, _, rfl, rfl⟩⟩))

theorem head_tup (h : c = 126 ∨ c = 127) {x : Nat} (hx : num4 m n 1 = some (some x)) : HeadOf rec c m n := by
  obtain ⟨p1, p2⟩ := prim_float_none (x := c) (by omega)
  refine .inr (.inr (.inr (.inl ⟨_, _, ?_, deserBody_tup rec h hx⟩)))
  unfold deserHead
  rw [p1, p2, if_neg (by simp), if_neg (by simp), if_neg (by simp; omega), if_pos (by simp; omega), hx,
    Option.bind_eq_bind, Option.bind_some]
  rfl

/-- The second number of variable sized tuples and arrays. -/
theorem head_second (h : c = 128 ∨ c = 131) {x : Nat} (hx : num4 m n 1 = some (some x)) : HeadOf rec c m n := by
  obtain ⟨p1, p2⟩ := prim_float_none (x := c) (by omega)
  cases hy : num4 m n 5 with
  | none =>
    left
    constructor
    · unfold deserHead
      rw [p1, p2, if_neg (by simp), if_neg (by simp), if_neg (by simp; omega), if_neg (by simp; omega)]
      rcases h with h | h
      · rw [if_pos h, hx, Option.bind_eq_bind, Option.bind_some]
        dsimp only
        rw [hy, Option.bind_none]
      · rw [if_neg (by omega), if_neg (by simp; omega), if_pos h, hx, Option.bind_eq_bind, Option.bind_some]
        dsimp only
        rw [hy, Option.bind_none]
    · unfold deserBody
      rw [p1, p2, if_neg (by simp), if_neg (by simp), if_neg (by simp; omega), if_neg (by simp; omega)]
      rcases h with h | h
      · rw [if_pos h, hx, Option.bind_eq_bind, Option.bind_some]
        dsimp only
        rw [hy, Option.bind_none]
      · rw [if_neg (by omega), if_neg (by simp; omega), if_pos h, hx, Option.bind_eq_bind, Option.bind_some]
        dsimp only
        rw [hy, Option.bind_none]
  | some y =>
    cases y with
    | none =>
      refine .inr (.inl ⟨?_, deserBody_num4_short2 rec h hx hy⟩)
      unfold deserHead
      rw [p1, p2, if_neg (by simp), if_neg (by simp), if_neg (by simp; omega), if_neg (by simp; omega)]
      rcases h with h | h
      · rw [if_pos h, hx, Option.bind_eq_bind, Option.bind_some]
        dsimp only
        rw [hy, Option.bind_some]
        rfl
      · rw [if_neg (by omega), if_neg (by simp; omega), if_pos h, hx, Option.bind_eq_bind, Option.bind_some]
        dsimp only
        rw [hy, Option.bind_some]
        rfl
    | some y =>
      rcases h with h | h
      · refine .inr (.inr (.inr (.inl ⟨_, _, ?_, deserBody_vtup rec h hx hy⟩)))
        unfold deserHead
        rw [p1, p2, if_neg (by simp), if_neg (by simp), if_neg (by simp; omega), if_neg (by simp; omega), if_pos h, hx,
          Option.bind_eq_bind, Option.bind_some]
        dsimp only
        rw [hy, Option.bind_some]
        rfl
      · refine .inr (.inr (.inr (.inr ⟨_, _, ?_, deserBody_varr rec h hx hy⟩)))
        unfold deserHead
        rw [p1, p2, if_neg (by simp), if_neg (by simp), if_neg (by simp; omega), if_neg (by simp; omega), if_neg (by omega),
          if_neg (by simp; omega), if_pos h, hx, Option.bind_eq_bind, Option.bind_some]
        dsimp only
        rw [hy, Option.bind_some]
        rfl

theorem head_arr (h : c = 129 ∨ c = 130) {x : Nat} (hx : num4 m n 1 = some (some x)) : HeadOf rec c m n := by
  obtain ⟨p1, p2⟩ := prim_float_none (x := c) (by omega)
  refine .inr (.inr (.inr (.inr ⟨_, _, ?_, deserBody_arr rec h hx⟩)))
  unfold deserHead
  rw [p1, p2, if_neg (by simp), if_neg (by simp), if_neg (by simp; omega), if_neg (by simp; omega), if_neg (by omega),
    if_pos (by simp; omega), hx, Option.bind_eq_bind, Option.bind_some]
  rfl

theorem head_carr (h : c = 132) {x : Nat} (hx : num4 m n 1 = some (some x)) : HeadOf rec c m n := by
  obtain ⟨p1, p2⟩ := prim_float_none (x := c) (by omega)
  refine .inr (.inr (.inr (.inr ⟨_, _, ?_, deserBody_carr rec h hx⟩)))
  unfold deserHead
  rw [p1, p2, if_neg (by simp), if_neg (by simp), if_neg (by simp; omega), if_neg (by simp; omega), if_neg (by omega),
    if_neg (by simp; omega), if_neg (by omega), if_pos h, hx, Option.bind_eq_bind, Option.bind_some]
  rfl

/-- An unknown type code, or a primitive type without its size. -/
theorem head_other (hp : primOf c = none ∨ n < 2) (hf : floatOf c = none) (hc : c < 120 ∨ 132 < c) : HeadOf rec c m n := by
  have h1 : ¬ ((primOf c).isSome && decide (2 ≤ n)) = true := by
    rcases hp with hp | hp
    · simp [hp]
    · simp; omega
  refine .inr (.inl ⟨?_, ?_⟩)
  · unfold deserHead
    rw [if_neg h1, hf, if_neg (by simp), if_neg (by simp; omega), if_neg (by simp; omega), if_neg (by omega),
      if_neg (by simp; omega), if_neg (by omega), if_neg (by omega)]
    rfl
  · unfold deserBody
    rw [if_neg h1, hf, if_neg (by simp), if_neg (by simp; omega), if_neg (by simp; omega), if_neg (by omega),
      if_neg (by simp; omega), if_neg (by omega), if_neg (by omega)]
    rfl

theorem head_of : HeadOf rec c m n := by
  by_cases hc : 120 ≤ c ∧ c ≤ 132
  · cases hx : num4 m n 1 with
    | none => exact head_fault rec hc.1 hc.2 hx
    | some x =>
      cases x with
      | none => exact head_short rec hc.1 hx
      | some x =>
        by_cases h1 : c ≤ 125
        · exact head_str rec hc.1 h1 hx
        by_cases h2 : c ≤ 127
        · exact head_tup rec (by omega) hx
        by_cases h3 : c = 128 ∨ c = 131
        · exact head_second rec h3 hx
        by_cases h4 : c ≤ 130
        · exact head_arr rec (by omega) hx
        · exact head_carr rec (by omega) hx
  · cases hf : floatOf c with
    | some d =>
      refine head_float rec ?_ hf
      unfold floatOf at hf
      split at hf <;> first | rfl | cases hf
    | none =>
      cases hp : primOf c with
      | none => exact head_other rec (.inl hp) hf (by omega)
      | some p =>
        by_cases hn : 2 ≤ n
        · exact head_prim rec hp hn
        · exact head_other rec (.inr (by omega)) hf (by omega)
end

/-! ### What is allocated for a type -/

mutual
/-- The type as a tree of objects, with the addresses of the static ones: primitive types may be static, the containee of STRING and
BINARY is. -/
def shape (sa : Statics) : Dti → Obj Unit
  | .prim k h => .node (if h.isStatic then sa k h.nullable h.size else 0) h.isStatic () []
  | .str .. => .node 0 false () [.node (sa .uint false 1) true () []]
  | .tup _ fs => .node 0 false () (shapeAll sa fs)
  | .arr _ c => .node 0 false () [shape sa c]
def shapeAll (sa : Statics) : List (Fld × Dti) → List (Obj Unit)
  | [] => []
  | (_, t) :: r => shape sa t :: shapeAll sa r
end

section
variable {sa : Statics}
theorem shapeAll_map (fs : List (Fld × Dti)) : shapeAll sa fs = (fs.map Prod.snd).map (shape sa) := by
  induction fs with
  | nil => rfl
  | cons x fs ih => obtain ⟨f, t⟩ := x; simp [shapeAll, ih]

theorem finalizeAll_shape {fs gs : List (Fld × Dti)} (ih : ∀ f t, (f, t) ∈ fs → ∀ t', finalize t = some t' → shape sa t' = shape sa t)
    (h : finalizeAll fs = some gs) : shapeAll sa gs = shapeAll sa fs := by
  induction fs generalizing gs with
  | nil => simp [finalizeAll] at h; subst h; rfl
  | cons x fs ihf =>
    obtain ⟨f, t⟩ := x
    simp only [finalizeAll, Option.bind_eq_bind, Option.bind_eq_some_iff, Option.pure_def] at h
    obtain ⟨t1, h1, r, h2, h3⟩ := h
    cases h3
    simp [shapeAll, ih f t (by simp) t1 h1, ihf (fun f' t' h' => ih f' t' (by simp [h'])) h2]

theorem finalize_shape (d : Dti) : ∀ d', finalize d = some d' → shape sa d' = shape sa d := by
  induction d using Dti.ind with
  | hp k h =>
    intro d' hf
    simp only [finalize] at hf
    split at hf
    · cases hf; rfl
    · rw [(finPrim_eq hf).1]; rfl
  | hs b h =>
    intro d' hf
    simp only [finalize] at hf
    split at hf
    · cases hf; rfl
    · unfold finStr at hf
      repeat' split at hf
      all_goals cases hf
      all_goals rfl
  | ht h fs ih =>
    intro d' hf
    simp only [finalize] at hf
    split at hf
    · cases hf; rfl
    · split at hf
      · cases hf
      · simp only [Option.bind_eq_bind, Option.bind_eq_some_iff] at hf
        obtain ⟨gs, h1, h2⟩ := hf
        obtain ⟨h', gs', rfl, h3⟩ := finTup_fields h2
        simp only [shape, Obj.node.injEq, true_and]
        rw [← finalizeAll_shape ih h1, shapeAll_map, shapeAll_map, h3]
  | ha h c ih =>
    intro d' hf
    simp only [finalize] at hf
    split at hf
    · cases hf; rfl
    · simp only [Option.bind_eq_bind, Option.bind_eq_some_iff] at hf
      obtain ⟨c', h1, h2⟩ := hf
      obtain ⟨h', rfl⟩ := finArr_cont h2
      simp [shape, ih c' h1]

theorem finPre_shape {fs : List (Fld × Dti)} (ih : ∀ f t, (f, t) ∈ fs → shape sa (finLeft t) = shape sa t) :
    shapeAll sa (finPre fs).1 = shapeAll sa fs := by
  induction fs with
  | nil => rfl
  | cons x fs ihf =>
    obtain ⟨f, t⟩ := x
    simp only [finPre]
    cases h : finalize t with
    | none => simp [shapeAll, ih f t (by simp)]
    | some t' => simp [shapeAll, finalize_shape t t' h, ihf (fun f' t' h' => ih f' t' (by simp [h']))]

theorem finLeft_shape (d : Dti) : shape sa (finLeft d) = shape sa d := by
  induction d using Dti.ind with
  | hp k h => rfl
  | hs b h => rfl
  | ht h fs ih =>
    simp only [finLeft]
    split
    · rfl
    · simp [shape, finPre_shape ih]
  | ha h c ih =>
    simp only [finLeft]
    cases h' : finalize c with
    | none => simp [shape, ih]
    | some c' => simp [shape, finalize_shape c c' h']

theorem fin_shape (d : Dti) : shape sa ((finalize d).getD (finLeft d)) = shape sa d := by
  cases h : finalize d with
  | none => simp [finLeft_shape]
  | some d' => simp [finalize_shape d d' h]

end
end Dti

namespace Obj
variable {α : Type}
mutual
/-- The tree of objects without the addresses of those that are not static. -/
def bare : Obj α → Obj α
  | .node a static x ks => .node (if static then a else 0) static x (bareAll ks)
def bareAll : List (Obj α) → List (Obj α)
  | [] => []
  | k :: ks => bare k :: bareAll ks
end

theorem bareAll_append (l l' : List (Obj α)) : bareAll (l ++ l') = bareAll l ++ bareAll l' := by
  induction l with
  | nil => rfl
  | cons k l ih => simp [bareAll, ih]
end Obj

namespace Dti
open Mem Obj

/-- How a call of `deserialize_type_info` with allocations relates to `p`, the result without failing allocations. -/
def Des (sa : Statics) (fails : Nat → Bool) (p : Option (Option Dti)) (e : Bool) (s : Mem) (res : HRes) : Prop :=
  (res = none ∧ p = none) ∨
  (∃ t o s', res = some (some (t, o), e, s') ∧ p = some (some t) ∧ o.bare = shape sa t ∧ Grown s s' o.own ∧ ¬ Failed fails s s') ∨
  (∃ s', res = some (none, e, s') ∧ p = some none ∧ Grown s s' [] ∧ ¬ Failed fails s s') ∨
  (∃ s', res = some (none, true, s') ∧ Grown s s' [] ∧ Failed fails s s')

theorem not_failed_refl (fails : Nat → Bool) (s : Mem) : ¬ Failed fails s s := by
  rintro ⟨i, h1, h2, _⟩; omega

theorem not_failed_trans {fails : Nat → Bool} {s s' s'' : Mem} (h1 : ¬ Failed fails s s') (h2 : ¬ Failed fails s' s'') :
    ¬ Failed fails s s'' := by
  rintro ⟨i, hi1, hi2, hi3⟩
  by_cases h : i < s'.next
  · exact h1 ⟨i, hi1, h, hi3⟩
  · exact h2 ⟨i, by omega, hi2, hi3⟩

theorem failed_mono {fails : Nat → Bool} {s s' s'' : Mem} (h1 : s.next ≤ s'.next) (h2 : Failed fails s' s'') :
    Failed fails s s'' := by
  obtain ⟨i, hi1, hi2, hi3⟩ := h2
  exact ⟨i, by omega, hi2, hi3⟩

theorem malloc_cases (fails : Nat → Bool) (s : Mem) :
    (∃ s', s.malloc fails = (none, s') ∧ Grown s s' [] ∧ Failed fails s s') ∨
    (∃ a s', s.malloc fails = (some a, s') ∧ Grown s s' [a] ∧ ¬ Failed fails s s') := by
  unfold Mem.malloc
  by_cases hf : fails s.next = true
  · left
    refine ⟨_, if_pos hf, ⟨by simp, List.nodup_nil, by simp, by simp⟩, s.next, Nat.le_refl _, by simp, hf⟩
  · right
    refine ⟨_, _, if_neg hf, grown_malloc s, ?_⟩
    rintro ⟨i, h1, h2, h3⟩
    have : i = s.next := by simp only at h2; omega
    exact hf (this ▸ h3)

theorem free_grown {s s' : Mem} {a : Nat} (h : Grown s s' [a]) (hi : s.Inv) :
    ∃ t, s'.free a = some t ∧ Grown s t [] ∧ t.next = s'.next := by
  obtain ⟨h1, h2⟩ := h.release hi []
  refine ⟨_, ?_, h2, rfl⟩
  rw [← h1, ← release_free, release_nil, gone_nil, Option.bind_some]

theorem finishNameH_ok (fails : Nat → Bool) (sa : Statics) {d : Dti} (hd : (∃ k h, d = .prim k h) ∨ ∃ b h, d = .str b h ∧ h.isStatic = false)
    (m : Bytes) (n b : Nat) (e : Bool) (s : Mem) : Des sa fails (finishName d m n b) e s (finishNameH fails sa d m n b e s) := by
  unfold finishName finishNameH
  cases hn : deserName (m.drop b) (wsub n b) with
  | none => exact .inl ⟨rfl, rfl⟩
  | some r =>
    cases r with
    | none => exact .inr (.inr (.inl ⟨s, rfl, rfl, Grown.refl s, not_failed_refl _ _⟩))
    | some x =>
      obtain ⟨nm, l⟩ := x
      simp only [Option.bind_eq_bind, Option.bind_some, Option.pure_def]
      by_cases hst : (withName d nm).hdr.isStatic = true
      · rw [if_pos hst]
        refine .inr (.inl ⟨_, _, s, rfl, rfl, ?_, ?_, not_failed_refl _ _⟩)
        · rcases hd with ⟨k, h, rfl⟩ | ⟨b, h, rfl, h0⟩
          · simp only [withName, hdr] at hst
            simp only [bare, bareAll, withName, shape, hst, staticAt]
          · simp [withName, hdr, h0] at hst
        · simpa [own] using Grown.refl s
      · rw [if_neg hst]
        rcases malloc_cases fails s with ⟨s', h1, h2, h3⟩ | ⟨a, s', h1, h2, h3⟩
        · rw [h1]
          exact .inr (.inr (.inr ⟨s', rfl, h2, h3⟩))
        · rw [h1]
          refine .inr (.inl ⟨_, _, s', rfl, rfl, ?_, ?_, h3⟩)
          · rcases hd with ⟨k, h, rfl⟩ | ⟨b, h, rfl, h0⟩
            · simp only [withName, hdr] at hst
              simp only [bare, bareAll, withName, shape, leafKids]
              simp only [Bool.not_eq_true] at hst
              rw [hst]
              rfl
            · simp [bare, bareAll, withName, shape, leafKids]
          · rcases hd with ⟨k, h, rfl⟩ | ⟨b, h, rfl, h0⟩
            · simpa [own, leafKids, withName, ownAll] using h2
            · simpa [own, leafKids, withName, ownAll] using h2

variable {sa : Statics} {fails : Nat → Bool} {rec : Bytes → Nat → Option (Option Dti)} {recH : Bytes → Nat → Bool → Mem → HRes}

theorem deserFieldsH_ok (hrec : ∀ m n e s, Mem.Inv s → Des sa fails (rec m n) e s (recH m n e s)) (m : Bytes) (n : Nat) (s0 : Mem)
    (hi : s0.Inv) : ∀ (k b : Nat) (done : List (Obj Unit)) (e : Bool) (s : Mem), Grown s0 s (ownAll done) → ¬ Failed fails s0 s →
    (deserFieldsH recH m n k b done e s = none ∧ deserFields rec m n k b = none) ∨
    (∃ fs os s', deserFieldsH recH m n k b done e s = some (some (fs, done ++ os), e, s') ∧
      deserFields rec m n k b = some (some fs) ∧ bareAll os = shapeAll sa fs ∧ Grown s0 s' (ownAll (done ++ os)) ∧ ¬ Failed fails s0 s') ∨
    (∃ s', deserFieldsH recH m n k b done e s = some (none, e, s') ∧ deserFields rec m n k b = some none ∧ Grown s0 s' [] ∧
      ¬ Failed fails s0 s') ∨
    (∃ s', deserFieldsH recH m n k b done e s = some (none, true, s') ∧ Grown s0 s' [] ∧ Failed fails s0 s') := by
  intro k
  induction k with
  | zero =>
    intro b done e s hg hf
    exact .inr (.inl ⟨[], [], s, by simp [deserFieldsH], by simp [deserFields], rfl, by simpa using hg, hf⟩)
  | succ k ih =>
    intro b done e s hg hf
    simp only [deserFieldsH, deserFields, Option.bind_eq_bind, Option.pure_def]
    cases hn : deserName (m.drop b) (wsub n b) with
    | none => exact .inl ⟨rfl, rfl⟩
    | some r =>
      cases r with
      | none =>
        obtain ⟨hr, hr'⟩ := hg.release hi ((staticsAll done).map .unlink)
        refine .inr (.inr (.inl ⟨s.gone (ownAll done) ((staticsAll done).map .unlink), ?_, rfl, hr', ?_⟩))
        · simp only [Option.bind_some, destroyAll_eq, hr]
        · exact hf
      | some x =>
        obtain ⟨nm, l⟩ := x
        simp only [Option.bind_some]
        rcases hrec (m.drop (w32 (b + l))) (wsub n (w32 (b + l))) e s (hg.inv hi) with
          ⟨h1, h2⟩ | ⟨t, o, s', h1, h2, h3, h4, h5⟩ | ⟨s', h1, h2, h4, h5⟩ | ⟨s', h1, h4, h5⟩
        · rw [h1, h2]; exact .inl ⟨rfl, rfl⟩
        · rw [h1, h2]
          simp only [Option.bind_some]
          cases hb : byteCount ((finalize t).getD (finLeft t)) with
          | none => exact .inl ⟨rfl, rfl⟩
          | some c =>
            simp only [Option.bind_some]
            have hg' : Grown s0 s' (ownAll (done ++ [o])) := by
              rw [ownAll_append]; simpa [ownAll] using hg.trans h4
            rcases ih (w32 (w32 (b + l) + c)) (done ++ [o]) e s' hg' (not_failed_trans hf h5) with
              ⟨g1, g2⟩ | ⟨fs, os, s'', g1, g2, g3, g4, g5⟩ | ⟨s'', g1, g2, g4, g5⟩ | ⟨s'', g1, g4, g5⟩
            · rw [g1, g2]; exact .inl ⟨rfl, rfl⟩
            · rw [g1, g2]
              refine .inr (.inl ⟨_, o :: os, s'', ?_, rfl, ?_, ?_, g5⟩)
              · simp only [Option.bind_some, List.append_assoc, List.singleton_append]
              · simp [bareAll, shapeAll, h3, g3, fin_shape]
              · simpa using g4
            · rw [g1, g2]
              exact .inr (.inr (.inl ⟨s'', rfl, rfl, g4, g5⟩))
            · rw [g1]
              exact .inr (.inr (.inr ⟨s'', rfl, g4, g5⟩))
        · rw [h1, h2]
          have hg' := hg.trans h4
          rw [List.append_nil] at hg'
          obtain ⟨hr, hr'⟩ := hg'.release hi ((staticsAll done).map .unlink)
          refine .inr (.inr (.inl ⟨s'.gone (ownAll done) ((staticsAll done).map .unlink), ?_, rfl, hr', ?_⟩))
          · simp only [Option.bind_some, destroyAll_eq, hr]
          · exact not_failed_trans hf h5
        · rw [h1]
          have hg' := hg.trans h4
          rw [List.append_nil] at hg'
          obtain ⟨hr, hr'⟩ := hg'.release hi ((staticsAll done).map .unlink)
          refine .inr (.inr (.inr ⟨s'.gone (ownAll done) ((staticsAll done).map .unlink), ?_, hr', ?_⟩))
          · simp only [Option.bind_some, destroyAll_eq, hr]
          · exact failed_mono hg.1 h5

theorem deserTupH_ok (hrec : ∀ m n e s, Mem.Inv s → Des sa fails (rec m n) e s (recH m n e s)) (h : Hdr) (m : Bytes) (n b : Nat)
    (e : Bool) (s : Mem) (hi : s.Inv) : Des sa fails (deserTup rec h m n b) e s (deserTupH fails recH h m n b e s) := by
  unfold deserTup deserTupH
  rcases malloc_cases fails s with ⟨s', h1, h2, h3⟩ | ⟨a, s', h1, h2, h3⟩
  · rw [h1]
    exact .inr (.inr (.inr ⟨s', rfl, h2, h3⟩))
  · rw [h1]
    simp only [Option.bind_eq_bind, Option.pure_def]
    cases hn : deserName (m.drop b) (wsub n b) with
    | none => exact .inl ⟨rfl, rfl⟩
    | some r =>
      cases r with
      | none =>
        obtain ⟨t, ht, ht', ht2⟩ := free_grown h2 hi
        refine .inr (.inr (.inl ⟨t, ?_, rfl, ht', ?_⟩))
        · simp only [Option.bind_some, ht]
        · unfold Failed at h3 ⊢; rw [ht2]; exact h3
      | some x =>
        obtain ⟨nm, l⟩ := x
        simp only [Option.bind_some]
        rcases deserFieldsH_ok hrec m n s' (h2.inv hi) h.count (w32 (b + l)) [] e s' (Grown.refl s') (not_failed_refl _ _) with
          ⟨g1, g2⟩ | ⟨fs, os, s'', g1, g2, g3, g4, g5⟩ | ⟨s'', g1, g2, g4, g5⟩ | ⟨s'', g1, g4, g5⟩
        · rw [g1, g2]; exact .inl ⟨rfl, rfl⟩
        · rw [g1, g2]
          refine .inr (.inl ⟨_, .node a false () os, s'', rfl, rfl, ?_, ?_, not_failed_trans h3 g5⟩)
          · simp [bare, shape, g3]
          · simpa [own] using h2.trans g4
        · rw [g1, g2]
          have hg' := h2.trans g4
          rw [List.append_nil] at hg'
          obtain ⟨t, ht, ht', ht2⟩ := free_grown hg' hi
          refine .inr (.inr (.inl ⟨t, ?_, rfl, ht', ?_⟩))
          · simp only [Option.bind_some, ht]
          · have := not_failed_trans h3 g5
            unfold Failed at this ⊢; rw [ht2]; exact this
        · rw [g1]
          have hg' := h2.trans g4
          rw [List.append_nil] at hg'
          obtain ⟨t, ht, ht', ht2⟩ := free_grown hg' hi
          refine .inr (.inr (.inr ⟨t, ?_, ht', ?_⟩))
          · simp only [Option.bind_some, ht]
          · have := failed_mono h2.1 g5
            unfold Failed at this ⊢; rw [ht2]; exact this

theorem deserArrH_ok (hrec : ∀ m n e s, Mem.Inv s → Des sa fails (rec m n) e s (recH m n e s)) (h : Hdr) (m : Bytes) (n b : Nat)
    (e : Bool) (s : Mem) (hi : s.Inv) : Des sa fails (deserArr rec h m n b) e s (deserArrH fails recH h m n b e s) := by
  unfold deserArr deserArrH
  simp only [Option.bind_eq_bind, Option.pure_def]
  cases hn : deserName (m.drop b) (wsub n b) with
  | none => exact .inl ⟨rfl, rfl⟩
  | some r =>
    cases r with
    | none => exact .inr (.inr (.inl ⟨s, rfl, rfl, Grown.refl s, not_failed_refl _ _⟩))
    | some x =>
      obtain ⟨nm, l⟩ := x
      simp only [Option.bind_some]
      rcases hrec (m.drop (w32 (b + l))) (wsub n (w32 (b + l))) e s hi with
        ⟨h1, h2⟩ | ⟨t, o, s', h1, h2, h3, h4, h5⟩ | ⟨s', h1, h2, h4, h5⟩ | ⟨s', h1, h4, h5⟩
      · rw [h1, h2]; exact .inl ⟨rfl, rfl⟩
      · rw [h1, h2]
        simp only [Option.bind_some]
        rcases malloc_cases fails s' with ⟨s'', g1, g2, g3⟩ | ⟨a, s'', g1, g2, g3⟩
        · rw [g1]
          have hg' := h4.trans g2
          rw [List.append_nil] at hg'
          obtain ⟨hr, hr'⟩ := hg'.release hi (o.statics.map .unlink)
          refine .inr (.inr (.inr ⟨_, ?_, hr', ?_⟩))
          · simp only [Option.bind_some, destroy_eq, hr]
          · exact failed_mono h4.1 g3
        · rw [g1]
          refine .inr (.inl ⟨_, .node a false () [o], s'', rfl, rfl, ?_, ?_, not_failed_trans h5 g3⟩)
          · simp [bare, bareAll, shape, h3]
          · have hg' := h4.trans g2
            obtain ⟨k1, k2, k3, k4⟩ := hg'
            have hp : ∀ x, x ∈ own (.node a false () [o]) ↔ x ∈ o.own ++ [a] := by
              intro x; simp [own, ownAll]; exact Or.comm
            refine ⟨k1, ?_, ?_, ?_⟩
            · rw [List.nodup_append] at k2
              simp only [own, ownAll, Bool.false_eq_true, if_false, List.append_nil, List.nodup_cons]
              exact ⟨fun hm => k2.2.2 a hm a (by simp) rfl, k2.1⟩
            · intro x hx
              exact k3 x ((hp x).mp hx)
            · intro x
              rw [k4]
              congr 1
              have := hp x
              simp only [List.contains_eq_mem]
              exact decide_eq_decide.mpr this.symm
      · rw [h1, h2]; exact .inr (.inr (.inl ⟨s', rfl, rfl, h4, h5⟩))
      · rw [h1]; exact .inr (.inr (.inr ⟨s', rfl, h4, h5⟩))

theorem deserH_ok (fails : Nat → Bool) (sa : Statics) (f : Nat) : ∀ m n e s, Mem.Inv s →
    Des sa fails (deserF f m n) e s (deserH fails sa f m n e s) := by
  induction f with
  | zero =>
    intro m n e s _
    exact .inr (.inr (.inl ⟨s, rfl, rfl, Grown.refl s, not_failed_refl _ _⟩))
  | succ f ih =>
    intro m n e s hi
    simp only [deserF, deserH]
    by_cases hn : n < 1
    · rw [if_pos hn, if_pos hn]
      exact .inr (.inr (.inl ⟨s, rfl, rfl, Grown.refl s, not_failed_refl _ _⟩))
    · rw [if_neg hn, if_neg hn]
      cases hm : m[0]? with
      | none => exact .inl ⟨rfl, rfl⟩
      | some c =>
        simp only [Option.bind_eq_bind, Option.bind_some]
        rcases head_of (deserF f) (c := c.toNat) (m := m) (n := n) with
          ⟨h1, h2⟩ | ⟨h1, h2⟩ | ⟨d, b, h1, h2, h3⟩ | ⟨h, b, h1, h2⟩ | ⟨h, b, h1, h2⟩
        · rw [h1, h2]; exact .inl ⟨rfl, rfl⟩
        · rw [h1, h2]; exact .inr (.inr (.inl ⟨s, rfl, rfl, Grown.refl s, not_failed_refl _ _⟩))
        · rw [h1, h2]; exact finishNameH_ok fails sa h3 m n b e s
        · rw [h1, h2]; exact deserTupH_ok ih h m n b e s hi
        · rw [h1, h2]; exact deserArrH_ok ih h m n b e s hi

end Dti
end TS
