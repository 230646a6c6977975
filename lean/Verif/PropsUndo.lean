import Verif.PropsMove
/-
Property theorems C93: undoing and redoing. What the calls can make of a page depends on its
contents, not on the way the contents lie in it: a call that succeeded on some page can be taken
back, and made again, on every page with the same contents.
-/
namespace TS
namespace Props

variable {ps h : Nat} {d : SizeDef} {pg qg : Bytes} {s q : Slots}

/-! ### Calls after a compaction -/

/-- The slots of a page are well formed and fit on a page without holes. -/
theorem reach_fits (l : Legal ps h d) (hr : Reach ps h d pg s) : AllWF d s ∧ FitsOn ps h d s := by
  have R := hr.rep l.fit
  refine ⟨R.wf, ?_⟩
  have e1 := R.conserve.1
  unfold FitsOn
  rcases R with r | ⟨r, -⟩
  · simp [r.var]; omega
  · have := r.le
    simp [r.fixed]; omega

/-- A compaction keeps the contents and makes room for everything that fits. -/
theorem compact_room (l : Legal ps h d) (hr : Reach ps h d pg s) :
    ∃ pg' c, step ps d pg (.compact true) = some (pg', c) ∧ Reach ps h d pg' s ∧
      ∀ es, FitsOn ps h d (s ++ es) → Room ps h d pg' s es := by
  obtain ⟨p, n, s', g1, ⟨-, -, rfl⟩, g3⟩ := reach_step l hr (op := .compact true) trivial
  refine ⟨p, n, g1, g3, ?_⟩
  intro es hf
  unfold FitsOn at hf
  unfold Room
  cases hv : d.isVar with
  | false => simpa [hv] using hf
  | true =>
    obtain ⟨p', b, h1, -, -, -, -, ⟨a, o, f, e1, e2, e3, e4⟩, -⟩ := C14_compaction l hv hr
    simp [step, h1] at g1
    obtain ⟨rfl, -⟩ := g1
    have R := g3.rep l.fit
    rw [R.spaceAllotted] at e1; cases e1
    rw [R.spaceOcc] at e2; cases e2
    rw [R.freeSpace] at e3; cases e3
    simp only [hv, if_true, usedSpace_append] at hf ⊢
    omega

theorem append_compacted (l : Legal ps h d) (hr : Reach ps h d pg s) {es : Slots} (hw : AllWF d es)
    (hf : FitsOn ps h d (s ++ es)) :
    ∃ pg' c, run ps d pg (.compact true :: es.map Op.append) = some (pg', c :: List.replicate es.length 1) ∧
      Reach ps h d pg' (s ++ es) := by
  obtain ⟨p, c, g1, g2, g3⟩ := compact_room l hr
  obtain ⟨p', rs, h1, -, h2, h3⟩ := append_all l g2 hw
  have hrs := h2.mpr (g3 es hf)
  refine ⟨p', c, ?_, h3 hrs⟩
  simp [run, g1, h1, hrs]

theorem insert_compacted (l : Legal ps h d) (hr : Reach ps h d pg s) {i : Nat} {e : Option Bytes}
    (hi : i ≤ s.length) (he : ExtOk d e) (hf : FitsOn ps h d (s.take i ++ e :: s.drop i)) :
    ∃ pg' c, run ps d pg [.compact true, .insert i e] = some (pg', [c, 1]) ∧
      Reach ps h d pg' (s.take i ++ e :: s.drop i) := by
  obtain ⟨p, c, g1, g2, g3⟩ := compact_room l hr
  have hp : (s.take i ++ e :: s.drop i).Perm (s ++ [e]) := by
    refine (List.perm_append_comm_assoc _ [e] _).trans ?_
    rw [List.take_append_drop]
    exact List.perm_append_comm
  have hf' : FitsOn ps h d (s ++ [e]) := by
    unfold FitsOn at hf ⊢
    rwa [usedSpace_perm hp, hp.length_eq] at hf
  have hroom := g3 [e] hf'
  obtain ⟨b, pg', k1, k2⟩ := C08_can_insert l g2 i he
  have hb : b = true := by
    unfold Room at hroom
    cases hv : d.isVar with
    | true =>
      obtain ⟨need, free, m1, m2, -, m3⟩ := C08_slotted_exact l hv g2 i he
      have R := g2.rep l.fit
      rw [R.spaceFor he] at m1; cases m1
      rw [R.freeSpace] at m2; cases m2
      rw [k1] at m3; cases m3
      simp only [hv, if_true, usedSpace_cons] at hroom
      simp only [decide_eq_true_eq]
      exact ⟨hi, by omega⟩
    | false =>
      obtain ⟨M, m1, -, m3, -⟩ := C08_fixed_exact l hv g2 i (ext := e)
      rw [maxTupleCount_fix l hv] at m1; cases m1
      rw [k1] at m3; cases m3
      simp [hv] at hroom
      simp only [decide_eq_true_eq]
      exact ⟨hi, by omega⟩
  subst hb
  have hs : step ps d p (.insert i e) = some (pg', 1) := by simp [step, k2]
  obtain ⟨p2, n, s', n1, n2, n3⟩ := reach_step l g2 (op := .insert i e) he
  rw [hs] at n1; cases n1
  rcases n2 with ⟨-, -, rfl⟩ | ⟨h0, -⟩
  · exact ⟨pg', c, by simp [run, g1, hs], n3⟩
  · cases h0

theorem update_compacted (l : Legal ps h d) (hr : Reach ps h d pg s) {i : Nat} {e : Option Bytes}
    (hi : i < s.length) (he : ExtOk d e) (hf : FitsOn ps h d (s.set i e)) :
    ∃ pg' c, run ps d pg [.update i none, .compact true, .update i e] = some (pg', [1, c, 1]) ∧
      Reach ps h d pg' (s.set i e) := by
  have hn : ExtOk d none := by intro t ht; cases ht
  have up : ∀ {pg : Bytes} {s : Slots} {e : Option Bytes}, Reach ps h d pg s → ExtOk d e → ∀ {pg' : Bytes},
      Api.update pg ps d i e = some (pg', true) →
      step ps d pg (.update i e) = some (pg', 1) ∧ Reach ps h d pg' (s.set i e) := by
    intro pg s e hr he pg' hu
    have hs : step ps d pg (.update i e) = some (pg', 1) := by simp [step, hu]
    obtain ⟨p2, n, s', n1, n2, n3⟩ := reach_step l hr (op := .update i e) he
    rw [hs] at n1; cases n1
    rcases n2 with ⟨-, -, rfl⟩ | ⟨h0, -⟩
    · exact ⟨hs, n3⟩
    · cases h0
  -- the first update never fails
  have u1 : ∃ p1, Api.update pg ps d i none = some (p1, true) := by
    cases hv : d.isVar with
    | true =>
      have r := var_rep l hv hr
      have hroom : Slotted.UpdRoom ps h pg s i none := by
        simp [Slotted.UpdRoom, List.getElem?_eq_getElem hi]
      obtain ⟨p1, h1, -, -⟩ := (r.update hn).1 hroom
      exact ⟨p1, by simpa [Api.update, slotted_var r] using h1⟩
    | false =>
      obtain ⟨M, -, -, -, m4⟩ := C08_fixed_exact l hv hr i (ext := none)
      obtain ⟨b, p, k1, k2⟩ := C08_can_update l hr i hn
      rw [k1] at m4; cases m4
      exact ⟨p, by simpa [hi] using k2⟩
  obtain ⟨p1, u1⟩ := u1
  obtain ⟨a1, a2⟩ := up hr hn u1
  obtain ⟨p2, c, g1, g2, -⟩ := compact_room l a2
  have u3 : ∃ p3, Api.update p2 ps d i e = some (p3, true) := by
    cases hv : d.isVar with
    | true =>
      cases e with
      | none =>
        have r := var_rep l hv g2
        have hroom : Slotted.UpdRoom ps h p2 (s.set i none) i none := by
          simp [Slotted.UpdRoom, hi]
        obtain ⟨p1, h1, -, -⟩ := (r.update hn).1 hroom
        exact ⟨p1, by simpa [Api.update, slotted_var r] using h1⟩
      | some t =>
        obtain ⟨q1, q2, b2, q3, b3, a, k1, k2, k3, k4, k5⟩ := C15_update_after_compaction l hv hr hi (he t rfl)
        rw [u1] at k1; cases k1
        simp [step, k2] at g1
        obtain ⟨rfl, -⟩ := g1
        rw [(hr.rep l.fit).spaceAllotted] at k4; cases k4
        have : b3 = true := k5.mpr (by simpa [FitsOn, hv] using hf)
        exact ⟨q3, by rw [k3, this]⟩
    | false =>
      obtain ⟨M, -, -, -, m4⟩ := C08_fixed_exact l hv g2 i (ext := e)
      obtain ⟨b, p, k1, k2⟩ := C08_can_update l g2 i he
      rw [k1] at m4; cases m4
      exact ⟨p, by simpa [hi] using k2⟩
  obtain ⟨p3, u3⟩ := u3
  obtain ⟨b1, b2⟩ := up g2 he u3
  rw [List.set_set] at b2
  exact ⟨p3, c, by simp [run, a1, g1, b1], b2⟩

/-! ### Undoing -/

/-- The calls that undo the call `op`, which was made when the slots were `s`, and returned `r`.
They are made with what a log of the call would hold: the call, its return value and the slots it
discards or replaces. -/
def undo (s : Slots) : Op → Nat → List Op
  | .append _, 1 => [.discard s.length]
  | .insert i _, 1 => [.discard i]
  | .update i _, 1 => [.update i none, .compact true, .update i (lookup s i)]
  | .discard i, 1 => [.compact true, .insert i (lookup s i)]
  | .discardAll, _ => .compact true :: s.map .append
  | .discardTrailing, n => .compact true :: List.replicate n (.append none)
  | .swap i j, 1 => [.swap i j]
  | .setElem i _, _ =>
    if (lookup s i).isSome then [.update i none, .compact true, .update i (lookup s i)] else []
  | _, _ => []

/-- All calls other than compactions returned 1. -/
def AllDone (ops : List Op) (rs : List Nat) : Prop :=
  ∀ (k : Nat) (op : Op), ops[k]? = some op → op ≠ .compact true → rs[k]? = some 1

theorem AllDone.append {ops ops' : List Op} {rs rs' : List Nat} (h1 : AllDone ops rs) (hl : ops.length = rs.length)
    (h2 : AllDone ops' rs') : AllDone (ops ++ ops') (rs ++ rs') := by
  intro k op hk hn
  by_cases hlt : k < ops.length
  · rw [List.getElem?_append_left hlt] at hk
    rw [List.getElem?_append_left (by omega)]
    exact h1 k op hk hn
  · rw [List.getElem?_append_right (by omega)] at hk
    rw [List.getElem?_append_right (by omega), ← hl]
    exact h2 _ op hk hn

theorem run_length {ps : Nat} {d : SizeDef} {ops : List Op} : ∀ {pg pg' : Bytes} {rs : List Nat},
    run ps d pg ops = some (pg', rs) → ops.length = rs.length := by
  induction ops with
  | nil => intro pg pg' rs h; cases h; rfl
  | cons op ops ih =>
    intro pg pg' rs h
    simp only [run, Option.bind_eq_bind, Option.bind_eq_some_iff, Option.pure_def, Option.some.injEq, Prod.mk.injEq,
      Prod.exists] at h
    obtain ⟨p, r, -, p', rs', h2, -, rfl⟩ := h
    simp [ih h2]

private theorem set_lookup {i : Nat} (hi : i < s.length) : lookup s i = s[i] := by
  simp [lookup, List.getElem?_eq_getElem hi]

private theorem erase_back {i : Nat} (hi : i < s.length) :
    (s.eraseIdx i).take i ++ lookup s i :: (s.eraseIdx i).drop i = s := by
  rw [set_lookup hi, List.eraseIdx_eq_take_drop_succ]
  have h1 : (s.take i).length = i := by simp; omega
  rw [List.take_left' h1, List.drop_left' h1, ← List.drop_eq_getElem_cons hi, List.take_append_drop]

/-- C93, undoing: take a page with the slots `s`, a call that may return `r` on it and turn `s` into
`s'`, and any page whatsoever that holds `s'`. The calls that undo it never fail there, and bring
back the slots `s`. -/
theorem C93_undo (l : Legal ps h d) (hP : Reach ps h d pg s) {op : Op} {r : Nat} {s' : Slots}
    (hs : SpecStep d s op r s') (hQ : Reach ps h d qg s') :
    ∃ qg' rs, run ps d qg (undo s op r) = some (qg', rs) ∧ AllDone (undo s op r) rs ∧
      Reach ps h d qg' s ∧ Observe ps d qg' s := by
  obtain ⟨hw, hf⟩ := reach_fits l hP
  suffices hmain : ∃ qg' rs, run ps d qg (undo s op r) = some (qg', rs) ∧ AllDone (undo s op r) rs ∧
      Reach ps h d qg' s by
    obtain ⟨a, b, h1, h2, h3⟩ := hmain
    exact ⟨a, b, h1, h2, h3, C03_C04_observe l h3⟩
  have keep : s' = s → undo s op r = [] → ∃ qg' rs, run ps d qg (undo s op r) = some (qg', rs) ∧
      AllDone (undo s op r) rs ∧ Reach ps h d qg' s := by
    intro he hu
    rw [hu]; subst he
    exact ⟨qg, [], rfl, by simp [AllDone], hQ⟩
  have disc : ∀ i, i < s'.length → s'.eraseIdx i = s → undo s op r = [.discard i] →
      ∃ qg' rs, run ps d qg (undo s op r) = some (qg', rs) ∧
      AllDone (undo s op r) rs ∧ Reach ps h d qg' s := by
    intro i hi he hu
    rw [hu]
    obtain ⟨p, n, s2, g1, g2, g3⟩ := reach_step l hQ (op := .discard i) trivial
    rcases g2 with ⟨rfl, -, rfl⟩ | ⟨-, h0, -⟩
    · refine ⟨p, [1], by simp [run, g1], ?_, he ▸ g3⟩
      intro k op hk _
      match k with
      | 0 => rfl
      | k + 1 => simp at hk
    · omega
  have upd : ∀ i e', i < s.length → s' = s.set i e' →
      undo s op r = [.update i none, .compact true, .update i (lookup s i)] →
      ∃ qg' rs, run ps d qg (undo s op r) = some (qg', rs) ∧
      AllDone (undo s op r) rs ∧ Reach ps h d qg' s := by
    intro i e' hi he hu
    rw [hu]; subst he
    have hb : (s.set i e').set i (lookup s i) = s := by
      rw [List.set_set, set_lookup hi, List.set_getElem_self]
    obtain ⟨p, c, g1, g2⟩ := update_compacted l hQ (i := i) (e := lookup s i) (by simpa using hi)
      (by rw [set_lookup hi]; exact hw _ (List.getElem_mem hi)) (by rw [hb]; exact hf)
    rw [hb] at g2
    refine ⟨p, _, g1, ?_, g2⟩
    intro k op hk hne
    match k with
    | 0 => rfl
    | 1 => simp at hk; exact absurd hk.symm hne
    | 2 => rfl
    | k + 3 => simp at hk
  have app : ∀ es, s' ++ es = s → undo s op r = .compact true :: es.map .append →
      ∃ qg' rs, run ps d qg (undo s op r) = some (qg', rs) ∧
      AllDone (undo s op r) rs ∧ Reach ps h d qg' s := by
    intro es he hu
    rw [hu]
    obtain ⟨p, c, g1, g2⟩ := append_compacted l hQ (es := es) (hw.sub (by rw [← he]; simp +contextual))
      (he ▸ hf)
    refine ⟨p, _, g1, ?_, he ▸ g2⟩
    intro k op hk hne
    match k with
    | 0 => simp at hk; exact absurd hk.symm hne
    | k + 1 =>
      simp only [List.getElem?_cons_succ, List.getElem?_map, Option.map_eq_some_iff] at hk
      obtain ⟨x, hx, -⟩ := hk
      have := (List.getElem?_eq_some_iff.mp hx).1
      simp [this]
  cases op with
  | append e =>
    rcases hs with ⟨rfl, rfl⟩ | ⟨rfl, rfl⟩
    · exact disc s.length (by simp) (by simp [List.eraseIdx_append_of_length_le]) rfl
    · exact keep rfl rfl
  | insert i e =>
    rcases hs with ⟨rfl, hi, rfl⟩ | ⟨rfl, rfl⟩
    · refine disc i (by simp; omega) ?_ rfl
      rw [List.eraseIdx_append_of_length_le (by simp; omega)]
      simp [Nat.min_eq_left hi]
    · exact keep rfl rfl
  | update i e =>
    rcases hs with ⟨rfl, hi, rfl⟩ | ⟨rfl, rfl⟩
    · exact upd i e hi rfl rfl
    · exact keep rfl rfl
  | discard i =>
    rcases hs with ⟨rfl, hi, rfl⟩ | ⟨rfl, -, rfl⟩
    · have hb := erase_back hi
      obtain ⟨p, c, g1, g2⟩ := insert_compacted l hQ (i := i) (e := lookup s i)
        (by rw [List.length_eraseIdx]; split <;> omega)
        (by rw [set_lookup hi]; exact hw _ (List.getElem_mem hi)) (by rw [hb]; exact hf)
      rw [hb] at g2
      refine ⟨p, _, g1, ?_, g2⟩
      intro k op hk hne
      match k with
      | 0 => simp [undo] at hk; exact absurd hk.symm hne
      | 1 => rfl
      | k + 2 => simp [undo] at hk
    · exact keep rfl rfl
  | discardAll =>
    obtain ⟨-, rfl⟩ := hs
    exact app s rfl rfl
  | discardTrailing =>
    obtain ⟨rfl, rfl⟩ := hs
    exact app (List.replicate (trailing s) none) (dropTrailing_append s).symm (by simp [undo])
  | swap i j =>
    rcases hs with ⟨rfl, hi, hj, rfl⟩ | ⟨rfl, -, rfl⟩
    · have hl : (swapSlots s i j).length = s.length := by unfold swapSlots; split <;> simp
      obtain ⟨p, n, s2, g1, g2, g3⟩ := reach_step l hQ (op := .swap i j) trivial
      rcases g2 with ⟨rfl, -, -, rfl⟩ | ⟨-, h0, -⟩
      · rw [swapSlots_swap] at g3
        refine ⟨p, [1], by simp [undo, run, g1], ?_, g3⟩
        intro k op hk _
        match k with
        | 0 => rfl
        | k + 1 => simp [undo] at hk
      · omega
    · exact keep rfl rfl
  | compact m => exact keep hs.2.2 rfl
  | zeroOut => exact keep hs.2 rfl
  | setElem i e =>
    rcases hs with ⟨h0, -, rfl⟩ | ⟨t, t', h0, -, rfl⟩
    · exact keep rfl (by simp [undo, h0])
    · have hi := (List.getElem?_eq_some_iff.mp (lookup_eq_some.mp h0)).1
      exact upd i (some t') hi rfl (by simp [undo, h0])
  | writeHeader o b => exact keep hs.2 rfl

/-! ### Undoing a history -/

/-- A history of calls from the page `pg` with the slots `s` to the page `pg'` with the slots `s'`,
and its log: for each call the slots before it, the call and what it returned. -/
inductive Hist (ps h : Nat) (d : SizeDef) : Bytes → Slots → List (Slots × Op × Nat) → Bytes → Slots → Prop
  | nil (pg : Bytes) (s : Slots) : Hist ps h d pg s [] pg s
  | cons {pg : Bytes} {s : Slots} {op : Op} {p1 : Bytes} {r : Nat} {s1 : Slots} {log : List (Slots × Op × Nat)}
      {pg' : Bytes} {s' : Slots} : OpOk h d op → step ps d pg op = some (p1, r) → SpecStep d s op r s1 →
      Hist ps h d p1 s1 log pg' s' → Hist ps h d pg s ((s, op, r) :: log) pg' s'

/-- The calls that undo the calls of a log, the last one first. -/
def undoLog (log : List (Slots × Op × Nat)) : List Op :=
  log.reverse.flatMap (fun x => undo x.1 x.2.1 x.2.2)

/-- C93: every sequence of legal calls on a page has a log. -/
theorem C93_log (l : Legal ps h d) {ops : List Op} : ∀ {pg : Bytes} {s : Slots}, Reach ps h d pg s →
    (∀ op ∈ ops, OpOk h d op) → ∃ pg' rs log s', run ps d pg ops = some (pg', rs) ∧
      Hist ps h d pg s log pg' s' ∧ log.map (·.2.1) = ops ∧ log.map (·.2.2) = rs ∧ Reach ps h d pg' s' := by
  induction ops with
  | nil => intro pg s hr _; exact ⟨pg, [], [], s, rfl, .nil _ _, rfl, rfl, hr⟩
  | cons op ops ih =>
    intro pg s hr ho
    obtain ⟨p1, n, s1, g1, g2, g3⟩ := reach_step l hr (op := op) (ho op (by simp))
    obtain ⟨pg', rs, log, s', k1, k2, k3, k4, k5⟩ := ih g3 (fun o hm => ho o (by simp [hm]))
    exact ⟨pg', n :: rs, (s, op, n) :: log, s', by simp [run, g1, k1], .cons (ho op (by simp)) g1 g2 k2,
      by simp [k3], by simp [k4], k5⟩

theorem Hist.reach {log : List (Slots × Op × Nat)} {pg' : Bytes} {s' : Slots}
    (hh : Hist ps h d pg s log pg' s') : Reach ps h d pg s → Reach ps h d pg' s' := by
  induction hh with
  | nil => exact id
  | cons ho hst hsp _ ih =>
    intro hr
    obtain ⟨pg0, pg1, ops, rs, a1, a2, a3, a4, a5⟩ := hr
    refine ih ⟨pg0, pg1, ops ++ [_], rs ++ [_], a1, a2, ?_, run_append a4 (by simp [run, hst]), SpecRun_append a5 (.cons hsp (.nil _))⟩
    intro o hm
    simp only [List.mem_append, List.mem_singleton] at hm
    rcases hm with hm | rfl
    · exact a3 o hm
    · exact ho

/-- C93, undoing a history: from any page that holds what the history left, undoing its calls one
by one, the last one first, never fails and brings back the slots from before the history. -/
theorem C93_rollback (l : Legal ps h d) {log : List (Slots × Op × Nat)} {pg' : Bytes} {s' : Slots}
    (hh : Hist ps h d pg s log pg' s') : ∀ {qg : Bytes}, Reach ps h d pg s → Reach ps h d qg s' →
    ∃ qg' rs, run ps d qg (undoLog log) = some (qg', rs) ∧ AllDone (undoLog log) rs ∧
      Reach ps h d qg' s ∧ Observe ps d qg' s := by
  induction hh with
  | nil => intro qg _ hq; exact ⟨qg, [], rfl, by simp [AllDone, undoLog], hq, C03_C04_observe l hq⟩
  | @cons pg s op p1 r s1 log pg' s' ho hst hsp hrest ih =>
    intro qg hr hq
    have h1 : Reach ps h d p1 s1 := (Hist.cons ho hst hsp (.nil _ _)).reach hr
    obtain ⟨q1, rs1, k1, k2, k3, -⟩ := ih h1 hq
    obtain ⟨q2, rs2, m1, m2, m3, m4⟩ := C93_undo l hr hsp k3
    have hu : undoLog ((s, op, r) :: log) = undoLog log ++ undo s op r := by simp [undoLog]
    rw [hu]
    exact ⟨q2, rs1 ++ rs2, run_append k1 m1, k2.append (run_length k1) m2, m3, m4⟩

/-! ### Redoing -/

/-- The calls that make a call again on a page where its tuples may lie elsewhere. -/
def redo : Op → List Op
  | .append e => [.compact true, .append e]
  | .insert i e => [.compact true, .insert i e]
  | .update i e => [.update i none, .compact true, .update i e]
  | op => [op]

/-- C93, redoing: if some page of this size and header holds the slots that a successful append,
insert or update makes of the slots `s`, then that call can be made on every page that holds `s`,
after a compaction (and, for an update, after the old tuple is given up). -/
theorem C93_redo (l : Legal ps h d) (hP : Reach ps h d pg s) {op : Op} {s' : Slots} (ho : OpOk h d op)
    (hk : (∃ e, op = .append e) ∨ (∃ i e, op = .insert i e) ∨ ∃ i e, op = .update i e)
    (hs : SpecStep d s op 1 s') (hQ : Reach ps h d qg s') :
    ∃ pg' rs, run ps d pg (redo op) = some (pg', rs) ∧ AllDone (redo op) rs ∧ Reach ps h d pg' s' ∧
      Observe ps d pg' s' := by
  obtain ⟨hw, hf⟩ := reach_fits l hQ
  rcases hk with ⟨e, rfl⟩ | ⟨i, e, rfl⟩ | ⟨i, e, rfl⟩
  · rcases hs with ⟨-, rfl⟩ | ⟨h0, -⟩
    · obtain ⟨p, c, g1, g2⟩ := append_compacted l hP (es := [e]) (hw.sub (by simp +contextual)) hf
      refine ⟨p, [c, 1], g1, ?_, g2, C03_C04_observe l g2⟩
      intro k op hk hne
      match k with
      | 0 => simp [redo] at hk; exact absurd hk.symm hne
      | 1 => rfl
      | k + 2 => simp [redo] at hk
    · cases h0
  · rcases hs with ⟨-, hi, rfl⟩ | ⟨h0, -⟩
    · obtain ⟨p, c, g1, g2⟩ := insert_compacted l hP hi ho hf
      refine ⟨p, [c, 1], g1, ?_, g2, C03_C04_observe l g2⟩
      intro k op hk hne
      match k with
      | 0 => simp [redo] at hk; exact absurd hk.symm hne
      | 1 => rfl
      | k + 2 => simp [redo] at hk
    · cases h0
  · rcases hs with ⟨-, hi, rfl⟩ | ⟨h0, -⟩
    · obtain ⟨p, c, g1, g2⟩ := update_compacted l hP hi ho hf
      refine ⟨p, [1, c, 1], g1, ?_, g2, C03_C04_observe l g2⟩
      intro k op hk hne
      match k with
      | 0 => rfl
      | 1 => simp [redo] at hk; exact absurd hk.symm hne
      | 2 => rfl
      | k + 3 => simp [redo] at hk
    · cases h0

/-! ### Examples -/

/-- A page with a hole, a call on it, and a log of calls of every kind. -/
example : ∃ pg, Legal 128 8 exVar ∧ Reach 128 8 exVar pg exHoleSlots ∧
    SpecStep exVar exHoleSlots (.discard 0) 1 (exHoleSlots.drop 1) ∧
    SpecStep exVar exHoleSlots (.update 1 (some [2, 9])) 1 [some [3, 1, 2], some [2, 9], some [4, 7, 7, 7]] ∧
    OpOk 8 exVar (.update 1 (some [2, 9])) := by
  obtain ⟨pg, hp⟩ := exHole_reach
  refine ⟨pg, exVar_legal, hp, Or.inl ⟨rfl, by decide, rfl⟩, Or.inl ⟨rfl, by decide, rfl⟩, ?_⟩
  intro t ht; cases ht; constructor <;> decide

example : ∃ pg pg' log s', Reach 128 8 exVar pg exHoleSlots ∧ Hist 128 8 exVar pg exHoleSlots log pg' s' ∧
    Reach 128 8 exVar pg' s' ∧ log.length = 5 := by
  obtain ⟨pg, hp⟩ := exHole_reach
  obtain ⟨pg', rs, log, s', -, h2, h3, -, h5⟩ := C93_log exVar_legal hp
    (ops := [.discard 0, .swap 0 1, .discardTrailing, .discardAll, .append none])
    (by intro op ho; simp at ho; rcases ho with rfl | rfl | rfl | rfl | rfl <;> simp [OpOk, ExtOk])
  refine ⟨pg, pg', log, s', hp, h2, h5, ?_⟩
  have := congrArg List.length h3
  simpa using this

/-- The compaction is needed: on this full page the tuple just discarded cannot be inserted again
at once, but after a compaction it can. -/
def exFullOps : List Op :=
  [.append (some (40 :: List.replicate 39 1)), .append (some (40 :: List.replicate 39 2)), .discard 0]

example : ((exPage exVar (exFullOps ++ [.insert 0 (some (40 :: List.replicate 39 1))])).map
      (fun (x : Bytes × List Nat) => x.2) = some [1, 1, 1, 0]) ∧
    ((exPage exVar (exFullOps ++ [.compact true, .insert 0 (some (40 :: List.replicate 39 1))])).map
      (fun (x : Bytes × List Nat) => x.2) = some [1, 1, 1, 1, 1]) := by decide +kernel

end Props
end TS
