import Verif.PropsPage
import Verif.ApiInit
/-
Property theorems C14-C25 and C50 about pages.
-/
namespace TS
namespace Props

variable {ps h : Nat} {d : SizeDef} {pg : Bytes} {s : Slots}

/-! ### C14 -/

/-- Offset of each tuple of a slotted page. -/
theorem getNth_word (r : Slotted.Rep ps h d pg s) (i : Nat) :
    Api.getNth pg ps d i = some (match s[i]? with
      | some (some _) => some (word ps h pg (4 + i))
      | _ => none) := by
  simp only [Api.getNth, slotted_var r, if_true, Slotted.getNth, r.tupleCount,
    Option.bind_eq_bind, Option.bind_some]
  by_cases hi : i < s.length
  · rw [if_neg (by omega), r.tupOff hi]
    have hs : s[i]? = some s[i] := List.getElem?_eq_getElem hi
    have h0 := r.word_eq_zero hi
    rw [hs] at h0 ⊢
    cases hx : s[i] with
    | none => rw [hx] at h0; simp [h0]
    | some t => rw [hx] at h0; simp at h0; simp [h0]
  · rw [if_pos (by omega), List.getElem?_eq_none (by omega)]; rfl

theorem var_rep (l : Legal ps h d) (hv : d.isVar = true) (hr : Reach ps h d pg s) :
    Slotted.Rep ps h d pg s := by
  rcases hr.rep l.fit with r | ⟨r, -⟩
  · exact r
  · rw [r.fixed] at hv; cases hv

theorem compact_facts (l : Legal ps h d) (hv : d.isVar = true) (hr : Reach ps h d pg s) :
    ∃ pg' b, Api.compact pg ps d true = some (pg', b) ∧ Slotted.Rep ps h d pg' s ∧
      Reach ps h d pg' s ∧ Slotted.eofs ps h pg' = ps - liveSum s ∧
      (b = true ↔ liveSum s < ps - Slotted.eofs ps h pg) ∧
      (b = true ↔ ∃ i, i < s.length ∧ word ps h pg' (4 + i) ≠ word ps h pg (4 + i)) := by
  have r := var_rep l hv hr
  obtain ⟨pg', b, h1, h2, -, h4, h5, h6⟩ := r.compact
  have h1 : Api.compact pg ps d true = some (pg', b) := by
    simpa [Api.compact, slotted_var r] using h1
  obtain ⟨p, n, s', g1, ⟨-, -, rfl⟩, g3⟩ := reach_step l hr (op := .compact true) trivial
  simp [step, h1] at g1
  obtain ⟨rfl, -⟩ := g1
  exact ⟨pg', b, h1, h2, g3, h4, h5, h6⟩

/-- C14: compaction of a slotted page (when its `malloc` succeeds) changes nothing a user can
read, leaves no fragmentation and makes all unoccupied space free. It returns 1 exactly when
some tuple moved. -/
theorem C14_compaction (l : Legal ps h d) (hv : d.isVar = true) (hr : Reach ps h d pg s) :
    ∃ pg' b, Api.compact pg ps d true = some (pg', b) ∧ Reach ps h d pg' s ∧
      Observe ps d pg' s ∧ Api.spaceOcc pg' ps d = Api.spaceOcc pg ps d ∧
      Api.fragmentation pg' ps d = some 0 ∧
      (∃ a o f, Api.spaceAllotted pg' ps d = some a ∧ Api.spaceOcc pg' ps d = some o ∧
        Api.freeSpace pg' ps d = some f ∧ a = o + f) ∧
      (b = true ↔ ∃ i, Api.getNth pg' ps d i ≠ Api.getNth pg ps d i) ∧
      (b = true ↔ Api.fragmentation pg ps d ≠ some 0) := by
  have r := var_rep l hv hr
  obtain ⟨pg', b, h1, h2, h3, h4, h5, h6⟩ := compact_facts l hv hr
  have R : PRep ps h d pg s := Or.inl r
  have R' : PRep ps h d pg' s := Or.inl h2
  have e1 := r.sum_le
  have e2 := r.eofs_le
  have e3 := r.space
  have e4 := wAddr_add ps h 4 s.length
  have e5 := R.conserve.1
  have e6 := h2.space
  have hf : freeBytes ps h d pg' s + usedSpace ps d s = ps - areaStart ps h d := by
    simp only [freeBytes, areaStart, usedSpace_var hv, hv, if_true, Slotted.free, h4]
    omega
  refine ⟨pg', b, h1, h3, R'.observe, ?_, ?_, ?_, ?_, ?_⟩
  · rw [R.spaceOcc, R'.spaceOcc]
  · rw [R'.fragmentation]; congr 1; omega
  · exact ⟨_, _, _, R'.spaceAllotted, R'.spaceOcc, R'.freeSpace, by omega⟩
  · rw [h6]
    constructor
    · rintro ⟨i, hi, hne⟩
      refine ⟨i, ?_⟩
      rw [getNth_word r, getNth_word h2]
      have hs : s[i]? = some s[i] := List.getElem?_eq_getElem hi
      cases hx : s[i] with
      | none =>
        rw [hx] at hs
        exact absurd (by rw [(h2.word_eq_zero hi).mpr hs, (r.word_eq_zero hi).mpr hs]) hne
      | some t => rw [hs, hx]; simpa using hne
    · rintro ⟨i, hne⟩
      rw [getNth_word r, getNth_word h2] at hne
      rcases hs : s[i]? with _ | _ | t
      · rw [hs] at hne; simp at hne
      · rw [hs] at hne; simp at hne
      · rw [hs] at hne
        exact ⟨i, (List.getElem?_eq_some_iff.mp hs).1, by simpa using hne⟩
  · rw [h5, R.fragmentation]
    simp only [freeBytes, areaStart, usedSpace_var hv, hv, if_true, Slotted.free, ne_eq,
      Option.some.injEq] at e5 ⊢
    omega

/-- C14: compacting a second time moves nothing. -/
theorem C14_second_compaction (l : Legal ps h d) (hv : d.isVar = true) (hr : Reach ps h d pg s)
    {pg' : Bytes} {b : Bool} (hc : Api.compact pg ps d true = some (pg', b)) :
    ∃ pg'', Api.compact pg' ps d true = some (pg'', false) ∧
      ∀ i, Api.getNth pg'' ps d i = Api.getNth pg' ps d i := by
  obtain ⟨p, b', h1, h2, -, -, h5, -, -⟩ := C14_compaction l hv hr
  rw [hc] at h1; cases h1
  obtain ⟨p', b', g1, -, -, -, -, -, g7, g8⟩ := C14_compaction l hv h2
  have hb : b' = false := by
    cases b' with
    | false => rfl
    | true => exact absurd h5 (g8.mp rfl)
  refine ⟨p', by rw [g1, hb], ?_⟩
  intro i
  apply Classical.byContradiction
  intro hne
  have := g7.mpr ⟨i, hne⟩
  rw [hb] at this; cases this

/-- C14: when its `malloc` fails the function leaves every byte alone and returns 0; on fixed
array pages it never does anything. -/
theorem C14_no_memory (l : Legal ps h d) (hr : Reach ps h d pg s) :
    Api.compact pg ps d false = some (pg, false) ∧
      (d.isVar = false → ∀ mem, Api.compact pg ps d mem = some (pg, false)) := by
  have r := hr.rep l.fit
  refine ⟨?_, ?_⟩
  · obtain ⟨p, b, h1, -, -, h2⟩ := r.compact false
    obtain ⟨rfl, rfl⟩ := h2 rfl
    exact h1
  · intro hv mem
    simp [Api.compact, Api.slotted, hv, Fixed.compact]

/-- A history that leaves a hole in the page. -/
def exHoleOps : List Op :=
  [.append (some [3, 1, 2]), .append (some [2, 9]), .append (some [4, 7, 7, 7]), .update 1 none]
def exHoleSlots : Slots := [some [3, 1, 2], none, some [4, 7, 7, 7]]

theorem exHole_reach : ∃ pg, Reach 128 8 exVar pg exHoleSlots := by
  have hr : (exPage exVar exHoleOps).map (fun (x : Bytes × List Nat) => x.2) =
      some [1, 1, 1, 1] := by decide +kernel
  cases hp : exPage exVar exHoleOps with
  | none => rw [hp] at hr; cases hr
  | some x =>
    obtain ⟨pg, rs⟩ := x
    rw [hp] at hr
    simp only [Option.map_some, Option.some.injEq] at hr
    obtain ⟨p, h1, h2⟩ := exPage_spec hp
    refine ⟨pg, List.replicate 128 7, p, exHoleOps, rs, by simp, h1, ?_, h2, ?_⟩
    · intro op hop
      simp only [exHoleOps, List.mem_cons, List.not_mem_nil, or_false] at hop
      rcases hop with rfl | rfl | rfl | rfl <;> simp only [OpOk, ExtOk] <;>
        first
          | (intro t ht; cases ht; constructor <;> decide)
          | (intro t ht; cases ht)
    · rw [hr]
      exact .cons (Or.inl ⟨rfl, rfl⟩) <| .cons (Or.inl ⟨rfl, rfl⟩) <|
        .cons (Or.inl ⟨rfl, rfl⟩) <| .cons (Or.inl ⟨rfl, by decide, rfl⟩) <| .nil _

/-- The page above really has fragmentation, so the compaction theorems are not about pages that
are compact already. -/
example : ((exPage exVar exHoleOps).bind (fun (x : Bytes × List Nat) =>
    Api.fragmentation x.1 128 exVar)) = some 2 := by decide +kernel
example : ∃ pg, Legal 128 8 exVar ∧ exVar.isVar = true ∧ Reach 128 8 exVar pg exHoleSlots := by
  obtain ⟨pg, hp⟩ := exHole_reach
  exact ⟨pg, exVar_legal, rfl, hp⟩

/-! ### C15 -/

/-- C15: right after a compaction an append is refused only if the contents with the new tuple
do not fit into the allotted space. -/
theorem C15_append_after_compaction (l : Legal ps h d) (hv : d.isVar = true)
    (hr : Reach ps h d pg s) {ext : Option Bytes} (he : ExtOk d ext) {pg' : Bytes} {b : Bool}
    (hc : Api.compact pg ps d true = some (pg', b)) :
    ∃ o n a c pg'', Api.spaceOcc pg ps d = some o ∧ Api.spaceFor ps d ext = some n ∧
      Api.spaceAllotted pg ps d = some a ∧ Api.append pg' ps d ext = some (pg'', c) ∧
      (c = true ↔ o + n ≤ a) := by
  have r := var_rep l hv hr
  obtain ⟨p, b', h1, h2, h3, h4, -, -⟩ := compact_facts l hv hr
  rw [hc] at h1; cases h1
  have R : PRep ps h d pg s := Or.inl r
  have R' : PRep ps h d pg' s := Or.inl h2
  have hp : Packed ps h d pg' s := fun _ => h4
  obtain ⟨c, hc1, hc2, hc3⟩ := R'.append_packed hp he
  obtain ⟨c', pg'', k1, k2⟩ := C08_can_append l h3 he
  rw [hc2] at k1; cases k1
  refine ⟨_, _, _, c, pg'', R.spaceOcc, R.spaceFor he, R.spaceAllotted, k2, ?_⟩
  rw [hc1]
  simp [FitsOn, hv, usedSpace_append, usedSpace]

/-- C15: update to NULL, compact, update: the last step is refused only if the new contents do
not fit into the allotted space. -/
theorem C15_update_after_compaction (l : Legal ps h d) (hv : d.isVar = true)
    (hr : Reach ps h d pg s) {i : Nat} (hi : i < s.length) {t : Bytes} (ht : WellFormed d t) :
    ∃ p1 p2 b2 p3 b3 a, Api.update pg ps d i none = some (p1, true) ∧
      Api.compact p1 ps d true = some (p2, b2) ∧
      Api.update p2 ps d i (some t) = some (p3, b3) ∧
      Api.spaceAllotted pg ps d = some a ∧
      (b3 = true ↔ usedSpace ps d (s.set i (some t)) ≤ a) := by
  have r := var_rep l hv hr
  have R : PRep ps h d pg s := Or.inl r
  have hs : s[i]? = some s[i] := List.getElem?_eq_getElem hi
  have hn : ExtOk d none := by intro t ht; cases ht
  have ho : ExtOk d (some t) := by intro u hu; cases hu; exact ht
  have hroom : Slotted.UpdRoom ps h pg s i none := by simp [Slotted.UpdRoom, hs]
  obtain ⟨p1, h1, -, -⟩ := (r.update hn).1 hroom
  have h1 : Api.update pg ps d i none = some (p1, true) := by
    simpa [Api.update, slotted_var r] using h1
  obtain ⟨q, n, s', g1, g2, g3⟩ := reach_step l hr (op := .update i none) hn
  simp [step, h1] at g1
  obtain ⟨rfl, rfl⟩ := g1
  simp only [SpecStep, Nat.one_ne_zero, false_and, or_false, true_and] at g2
  obtain ⟨-, rfl⟩ := g2
  obtain ⟨p2, b2, k1, k2, k3, k4, -, -⟩ := compact_facts l hv g3
  obtain ⟨c, m1, m2⟩ := k2.canUpdate i ho
  obtain ⟨c', p3, n1, n2⟩ := C08_can_update l k3 i ho
  have m1' : Api.canUpdate p2 ps d i (some t) = some c := by
    simpa [Api.canUpdate, Api.slotted, hv] using m1
  rw [m1'] at n1; cases n1
  refine ⟨p1, p2, b2, p3, c, _, h1, k1, n2, R.spaceAllotted, ?_⟩
  rw [m2]
  have e1 := k2.space
  have e2 := k2.sum_le
  have e3 := k2.eofs_le
  have e4 := wAddr_add ps h 4 s.length
  have e5 := Slotted.liveSum_set s i _ (some t) hs
  have e6 := Slotted.liveSum_set s i _ none hs
  simp only [Slotted.dataLen_some, Slotted.dataLen_none] at e5 e6
  simp only [Slotted.UpdRoom, List.getElem?_set_self hi, Slotted.free, k4, areaStart, hv, if_true,
    usedSpace_var hv, List.length_set]
  simp only [List.length_set] at e1
  rw [k4] at e1
  omega

example : ∃ pg, Reach 128 8 exVar pg exHoleSlots ∧ 2 < exHoleSlots.length ∧
    WellFormed exVar [5, 1, 1, 1, 1] := by
  obtain ⟨pg, hp⟩ := exHole_reach
  exact ⟨pg, hp, by decide, by constructor <;> decide⟩

/-! ### C16 -/

/-- C16: the free space of a slotted page reaches from the end of the offsets array to the lowest
tuple, or to the end of the page if there is no tuple. -/
theorem C16_free_space_is_whole_gap (l : Legal ps h d) (hv : d.isVar = true)
    (hr : Reach ps h d pg s) :
    ∃ e f a n, Api.freeSpace pg ps d = some f ∧ Api.spaceAllotted pg ps d = some a ∧
      Api.tupleCount pg ps d = some n ∧ (ps - a) + n * Api.overhead ps d + f = e ∧
      (∀ i o, Api.getNth pg ps d i = some (some o) → e ≤ o) ∧
      ((∃ i, Api.getNth pg ps d i = some (some e)) ∨
        (e = ps ∧ ∀ i, Api.getNth pg ps d i = some none)) := by
  have r := var_rep l hv hr
  have R : PRep ps h d pg s := Or.inl r
  have e1 := r.space
  have e2 := r.eofs_le
  have e4 := wAddr_add ps h 4 s.length
  have e5 := R.areaStart_le
  refine ⟨Slotted.eofs ps h pg, _, _, _, R.freeSpace, R.spaceAllotted, R.tupleCount, ?_, ?_, ?_⟩
  · simp only [freeBytes, areaStart, hv, if_true, Slotted.free, Api.overhead, Api.slotted,
      Slotted.overhead] at e5 ⊢
    omega
  · intro i o ho
    rw [getNth_word r] at ho
    rcases hs : s[i]? with _ | _ | t
    · simp [hs] at ho
    · simp [hs] at ho
    · simp [hs] at ho
      rw [← ho]; exact (r.live hs).1
  · rcases r.tight with h1 | ⟨i, t, h1, h2⟩
    · right
      refine ⟨h1, ?_⟩
      intro i
      rw [getNth_word r]
      rcases hs : s[i]? with _ | _ | t
      · rfl
      · rfl
      · have g1 := r.live hs
        have g2 := g1.2.2.2.1.pos hv
        omega
    · left
      exact ⟨i, by rw [getNth_word r, h1]; simp [h2]⟩

/-! ### C17 -/

/-- C17: replacing a tuple by one that is not larger always succeeds. -/
theorem C17_not_larger_update (l : Legal ps h d) (hr : Reach ps h d pg s) {i : Nat} {u t : Bytes}
    (hu : lookup s i = some u) (ht : WellFormed d t) (hle : t.length ≤ u.length) :
    Api.canUpdate pg ps d i (some t) = some true ∧
    ∃ pg', Api.update pg ps d i (some t) = some (pg', true) ∧
      Observe ps d pg' (s.set i (some t)) := by
  have ho : ExtOk d (some t) := by intro u hu; cases hu; exact ht
  have R := hr.rep l.fit
  have hs := lookup_eq_some.mp hu
  have hil : i < s.length := (List.getElem?_eq_some_iff.mp hs).1
  obtain ⟨b, h1, h2, -⟩ := R.update i ho
  have hb : b = true := by
    rcases R with r | ⟨r, -⟩
    · obtain ⟨c, k1, k2⟩ := r.canUpdate i ho
      simp [Api.canUpdate, slotted_var r, k1] at h1
      rw [← h1, k2]
      simp only [Slotted.UpdRoom, hs]
      split
      · omega
      · exact Or.inl hle
    · simp [Api.canUpdate, slotted_fix r, r.canUpdate] at h1
      rw [← h1]; simpa using hil
  subst hb
  obtain ⟨-, pg', h3, h4, -⟩ := h2 rfl
  exact ⟨h1, pg', h3, h4.observe⟩

example : ∃ pg, Reach 128 8 exVar pg exVarSlots ∧ lookup exVarSlots 1 = some [4, 7, 7, 7] ∧
    WellFormed exVar [2, 5] ∧ ([2, 5] : Bytes).length ≤ ([4, 7, 7, 7] : Bytes).length := by
  obtain ⟨pg, hp⟩ := exVar_reach
  exact ⟨pg, hp, by decide, by constructor <;> decide, by decide⟩

/-! ### C18 -/

theorem swapSlots_swap (s : Slots) (i j : Nat) : swapSlots (swapSlots s i j) i j = s := by
  unfold swapSlots
  rcases hi : s[i]? with _ | a
  · simp [hi]
  · rcases hj : s[j]? with _ | b
    · simp [hi, hj]
    · obtain ⟨h1, e1⟩ := List.getElem?_eq_some_iff.mp hi
      obtain ⟨h2, e2⟩ := List.getElem?_eq_some_iff.mp hj
      dsimp only
      have hb : ((s.set i b).set j a)[j]? = some a := by
        rw [List.getElem?_set_self (by simpa using h2)]
      have ha : ((s.set i b).set j a)[i]? = some b := by
        by_cases hij : i = j
        · subst hij
          rw [List.getElem?_set_self (by simpa using h2)]
          rw [hi] at hj; exact hj
        · rw [List.getElem?_set_ne (by omega), List.getElem?_set_self h1]
      rw [ha, hb]
      dsimp only
      apply List.ext_getElem?
      intro k
      by_cases hk : k = j
      · subst hk
        rw [List.getElem?_set_self (by simpa using h2), hj]
      · rw [List.getElem?_set_ne (by omega)]
        by_cases hk2 : k = i
        · subst hk2
          rw [List.getElem?_set_self (by simpa using h1), hi]
        · rw [List.getElem?_set_ne (by omega), List.getElem?_set_ne (by omega),
            List.getElem?_set_ne (by omega)]

/-- C18: swapping the same two indices twice restores the logical page. -/
theorem C18_swap_twice (l : Legal ps h d) (hr : Reach ps h d pg s) (i j : Nat)
    {p1 p2 : Bytes} {b1 b2 : Bool} (h1 : Api.swap pg ps d i j = some (p1, b1))
    (h2 : Api.swap p1 ps d i j = some (p2, b2)) : Observe ps d p2 s ∧ b1 = b2 := by
  have R := hr.rep l.fit
  by_cases hij : i < s.length ∧ j < s.length
  · obtain ⟨q, k1, k2, -⟩ := (R.swap i j).1 hij
    rw [h1] at k1; cases k1
    have hl : (swapSlots s i j).length = s.length := by
      unfold swapSlots; split <;> simp
    obtain ⟨q, k1, k3, -⟩ := (k2.swap i j).1 (by omega)
    rw [h2] at k1; cases k1
    rw [swapSlots_swap] at k3
    exact ⟨k3.observe, rfl⟩
  · have k1 := (R.swap i j).2 hij
    rw [h1] at k1; cases k1
    rw [h2] at h1; cases h1
    exact ⟨R.observe, rfl⟩

/-- C18: after a successful insert at an index, discarding that index succeeds and restores the
logical page. -/
theorem C18_insert_discard (l : Legal ps h d) (hr : Reach ps h d pg s) {i : Nat}
    {ext : Option Bytes} (he : ExtOk d ext) {p1 : Bytes}
    (h1 : Api.insert pg ps d i ext = some (p1, true)) :
    ∃ p2, Api.discard p1 ps d i = some (p2, true) ∧ Observe ps d p2 s := by
  have R := hr.rep l.fit
  obtain ⟨b, -, k2, k3⟩ := R.insert i he
  cases b with
  | false => rw [k3 rfl] at h1; cases h1
  | true =>
    obtain ⟨hi, q, m1, m2, -⟩ := k2 rfl
    rw [h1] at m1; cases m1
    obtain ⟨p2, n1, n2, -⟩ := (m2.discard i).1 (by simp; omega)
    have : (s.take i ++ ext :: s.drop i).eraseIdx i = s := by
      rw [List.eraseIdx_append_of_length_le (by simp; omega)]
      simp [Nat.min_eq_left hi]
    rw [this] at n2
    exact ⟨p2, n1, n2.observe⟩

/-- Inserting in the middle of the example page succeeds. -/
example : ((exPage exVar exVarOps).bind (fun (x : Bytes × List Nat) =>
    (Api.insert x.1 128 exVar 2 (some [2, 2])).map (fun (y : Bytes × Bool) => y.2))) =
      some true := by decide +kernel
example : ((exPage exVar exVarOps).bind (fun (x : Bytes × List Nat) =>
    (Api.swap x.1 128 exVar 0 1).map (fun (y : Bytes × Bool) => y.2))) = some true := by
  decide +kernel

/-! ### C19 -/

/-- C19. -/
theorem C19_trailing (l : Legal ps h d) (hr : Reach ps h d pg s) :
    ∃ k n pg', Api.trailingCount pg ps d = some k ∧ Api.tupleCount pg ps d = some n ∧
      Api.discardTrailing pg ps d = some (pg', k) ∧ k ≤ n ∧
      Api.tupleCount pg' ps d = some (n - k) ∧
      (∀ i, i < n - k → Api.readNth pg' ps d i = Api.readNth pg ps d i) ∧
      (∀ i, n - k ≤ i → i < n → Api.existsTuple pg ps d i = some false) ∧
      (0 < n - k → Api.existsTuple pg' ps d (n - k - 1) = some true) ∧
      Api.trailingCount pg' ps d = some 0 ∧
      ∃ pg'', Api.discardTrailing pg' ps d = some (pg'', 0) := by
  have R := hr.rep l.fit
  obtain ⟨pg', h1, h2, -⟩ := R.discardTrailing
  obtain ⟨pg'', h3, -, -⟩ := h2.discardTrailing
  have hlen := dropTrailing_length s
  have hn : s.length - trailing s = (dropTrailing s).length := by omega
  refine ⟨trailing s, s.length, pg', trailingCount_eq R, R.tupleCount, h1, by omega, ?_, ?_, ?_,
    ?_, ?_, ?_⟩
  · rw [h2.tupleCount]; congr 1; omega
  · intro i hi
    rw [h2.readNth, R.readNth]
    simp only [lookup]
    rw [getElem?_dropTrailing (by omega)]
  · intro i h4 h5
    rw [R.existsTuple]
    rcases hx : lookup s i with _ | t
    · rfl
    · have := live_lt_dropTrailing (lookup_eq_some.mp hx)
      omega
  · intro hp
    rw [h2.existsTuple, hn]
    rcases snoc_cases (dropTrailing s) with h0 | ⟨q, x, hx⟩
    · rw [h0] at hn; simp at hn; omega
    · cases x with
      | none =>
        have := trailing_dropTrailing s
        rw [hx] at this; simp at this
      | some t => simp [hx, lookup]
  · rw [trailingCount_eq h2, trailing_dropTrailing]
  · rw [trailing_dropTrailing] at h3
    exact ⟨pg'', h3⟩

example : trailing exVarSlots = 1 ∧ dropTrailing exVarSlots = [none, some [4, 7, 7, 7], some [3, 8, 8]] := by
  decide

/-! ### C20 -/

/-- C20: the clone has the bytes of the source, so it is the same reachable page: every query and
every further history gives the same answers. -/
theorem C20_clone (l : Legal ps h d) (hr : Reach ps h d pg s) {dst : Bytes}
    (hd : dst.length = ps) :
    ∃ c, Api.clonePage dst ps pg = some c ∧ Reach ps h d c s ∧ Observe ps d c s ∧
      ∀ ops, run ps d c ops = run ps d pg ops := by
  have R := hr.rep l.fit
  have hl := R.len
  have : Api.clonePage dst ps pg = some pg := by
    have h1 : load pg 0 ps = some pg := by
      rw [load_eq (by omega)]
      simp [rd, ← hl]
    simp only [Api.clonePage, h1, Option.bind_eq_bind, Option.bind_some]
    rw [store_eq (by omega)]
    simp [wr, hd, hl]
  exact ⟨pg, this, hr, R.observe, fun _ => rfl⟩

/-! ### C21 -/

/-- C21: zeroing the free space returns 0 exactly when there is none. It writes only the bytes
between the end of the slots and the end of the free space, and zeroes all of these. -/
theorem C21_zero_out (l : Legal ps h d) (hr : Reach ps h d pg s) :
    ∃ pg' b f start, Api.zeroOut pg ps d = some (pg', b) ∧ Api.freeSpace pg ps d = some f ∧
      (b = false ↔ f = 0) ∧ Observe ps d pg' s ∧ Reach ps h d pg' s ∧
      Api.freeSpace pg' ps d = some f ∧
      Api.spaceOcc pg' ps d = Api.spaceOcc pg ps d ∧
      Api.fragmentation pg' ps d = Api.fragmentation pg ps d ∧
      (∃ a, Api.spaceAllotted pg ps d = some a ∧
        start = (ps - a) + s.length * (Api.overhead ps d + if d.isVar then 0 else d.size)) ∧
      start + f ≤ ps ∧
      (∀ i, start ≤ i → i < start + f → pg'[i]? = some 0) ∧
      (∀ i, ¬ (start ≤ i ∧ i < start + f) → pg'[i]? = pg[i]?) := by
  have R := hr.rep l.fit
  obtain ⟨p, n, s', g1, ⟨-, hs'⟩, g3⟩ := reach_step l hr (op := .zeroOut) trivial
  rw [hs'] at g3
  have R' := g3.rep l.fit
  have hA := R.areaStart_le
  have main : ∃ b, Api.zeroOut pg ps d = some (p, b) ∧
      (b = false ↔ freeBytes ps h d pg s = 0) ∧
      freeBytes ps h d p s = freeBytes ps h d pg s ∧
      ∃ start, start = areaStart ps h d +
          s.length * (Api.overhead ps d + if d.isVar then 0 else d.size) ∧
        start + freeBytes ps h d pg s ≤ ps ∧
        (∀ i, start ≤ i → i < start + freeBytes ps h d pg s → p[i]? = some 0) ∧
        (∀ i, ¬ (start ≤ i ∧ i < start + freeBytes ps h d pg s) → p[i]? = pg[i]?) := by
    clear R'
    unfold freeBytes areaStart at *
    rcases R with r | ⟨r, -⟩
    · have e1 := r.space
      have e2 := r.eofs_le
      have e4 := wAddr_add ps h 4 s.length
      have hst : wAddr ps h 4 + s.length * vsz ps = wAddr ps h (4 + s.length) := by omega
      have hfe : wAddr ps h (4 + s.length) + Slotted.free ps h pg s = Slotted.eofs ps h pg := by
        unfold Slotted.free; omega
      simp only [r.var, if_true, Nat.add_zero, Api.overhead, slotted_var r, Slotted.overhead]
      rcases Nat.eq_zero_or_pos (Slotted.free ps h pg s) with h0 | h0
      · have hz : Api.zeroOut pg ps d = some (pg, false) := by
          simpa [Api.zeroOut, slotted_var r] using r.zeroOut.2 h0
        simp [step, hz] at g1
        obtain ⟨rfl, -⟩ := g1
        exact ⟨false, hz, by simp [h0], rfl, _, rfl, by omega, by intro i; omega, by simp⟩
      · obtain ⟨pg', h1, h2, h3, h4, h5, h6⟩ := r.zeroOut.1 h0
        have hz : Api.zeroOut pg ps d = some (pg', true) := by
          simpa [Api.zeroOut, slotted_var r] using h1
        simp [step, hz] at g1
        obtain ⟨rfl, -⟩ := g1
        refine ⟨true, hz, by simp; omega, ?_, _, rfl, by omega, ?_, ?_⟩
        · simp only [Slotted.free, h4]
        · intro i i1 i2
          have := congrArg (fun l => l[i - wAddr ps h (4 + s.length)]?) h5
          simp only [rd, List.getElem?_take, List.getElem?_drop, List.getElem?_replicate] at this
          rw [if_pos (by omega), if_pos (by omega)] at this
          rw [← this]; congr 1; omega
        · intro i hi
          apply h6; omega
    · have hle := r.tAddr_le
      have e4 := Fixed.tAddr_add (ps := ps) (h := h) (d := d) 0 s.length
      rw [Nat.zero_add] at e4
      simp only [r.fixed, Bool.false_eq_true, if_false, Api.overhead, slotted_fix r,
        Fixed.overhead, Nat.zero_add]
      obtain ⟨pg', b, h1, h2, h3, h4, h5, h6⟩ := r.zeroOut
      have hz : Api.zeroOut pg ps d = some (pg', b) := by
        simpa [Api.zeroOut, slotted_fix r] using h1
      simp [step, hz] at g1
      obtain ⟨rfl, -⟩ := g1
      refine ⟨b, hz, ?_, by first | rfl | trivial, _, rfl, by omega, ?_, ?_⟩
      · cases b <;> simp at h4 ⊢ <;> omega
      · intro i i1 i2; exact h5 i (by omega) (by omega)
      · intro i hi; apply h6; omega
  obtain ⟨b, m1, m2, m3, st, m4, m5, m6, m7⟩ := main
  refine ⟨p, b, _, st, m1, R.freeSpace, m2, R'.observe, g3, ?_, ?_, ?_, ⟨_, R.spaceAllotted, ?_⟩,
    m5, m6, m7⟩
  · rw [R'.freeSpace, m3]
  · rw [R'.spaceOcc, R.spaceOcc]
  · rw [R'.fragmentation, R.fragmentation, m3]
  · rw [m4]; omega

end Props
end TS
