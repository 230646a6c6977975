import Verif.ApiSpace
/-
Property theorems C01-C13 about pages. Hypotheses: `Legal` are the limits of README.md:14-18,
`Reach ps h d pg s` says that `pg` is the result of some history of legal calls (PageSpec.lean)
whose logical effect is `s`. Everything else is the public API of page_layout.c (Api.lean) and
the list specification (Spec.lean).
-/
namespace TS
namespace Props

variable {ps h : Nat} {d : SizeDef} {pg : Bytes} {s : Slots}

/-! ### Concrete pages used to show that the hypotheses can be met -/

/-- A variable sized definition: size in the prefix, 2 to 100 bytes. -/
def exVar : SizeDef := ⟨true, 2, 100, true, false, false, false, 0⟩
/-- A fixed sized definition: 4 bytes. -/
def exFix : SizeDef := ⟨false, 4, 4, false, false, false, false, 0⟩

theorem exVar_wf (t : Bytes) (h1 : tupleSize exVar t = some t.length) (h2 : 2 ≤ t.length)
    (h3 : t.length < 2147483648) : WellFormed exVar t := ⟨h1, h2, h3⟩

/-- A history with successes, failures, tomb stones and header writes. -/
def exVarOps : List Op :=
  [.append (some [3, 1, 2]), .append none, .insert 0 (some [2, 9]), .update 1 (some [4, 7, 7, 7]),
   .writeHeader 2 [5, 6], .swap 0 2, .discard 9, .insert 7 none, .append (some [3, 8, 8]),
   .discard 2, .append none]
def exVarSlots : Slots := [none, some [4, 7, 7, 7], some [3, 8, 8], none]

def exFixOps : List Op :=
  [.append (some [3, 1, 2, 0]), .append none, .insert 0 (some [2, 9, 9, 9]), .update 2 none,
   .writeHeader 2 [5, 6], .swap 0 2, .discard 9, .append (some [3, 8, 8, 8]), .discard 1,
   .append none]
def exFixSlots : Slots := [none, some [2, 9, 9, 9], some [3, 8, 8, 8], none]

/-- The page after `init_page` (on a buffer full of 7s) and a history. -/
def exPage (d : SizeDef) (ops : List Op) : Option (Bytes × List Nat) := do
  let (p, ok) ← Api.initPage (List.replicate 128 7) 128 8 d
  if ok then run 128 d p ops else none

theorem exPage_spec {ops : List Op} {rs : List Nat} (hp : exPage d ops = some (pg, rs)) :
    ∃ p, Api.initPage (List.replicate 128 7) 128 8 d = some (p, true) ∧
      run 128 d p ops = some (pg, rs) := by
  unfold exPage at hp
  cases hi : Api.initPage (List.replicate 128 7) 128 8 d with
  | none => rw [hi] at hp; cases hp
  | some x =>
    obtain ⟨p, ok⟩ := x
    rw [hi] at hp
    cases ok with
    | false => cases hp
    | true => exact ⟨p, rfl, hp⟩

theorem exVar_legal : Legal 128 8 exVar := by constructor <;> decide
theorem exFix_legal : Legal 128 8 exFix := by constructor <;> decide

theorem exVar_ops : ∀ op ∈ exVarOps, OpOk 8 exVar op := by
  intro op hop
  simp only [exVarOps, List.mem_cons, List.not_mem_nil, or_false] at hop
  rcases hop with rfl | rfl | rfl | rfl | rfl | rfl | rfl | rfl | rfl | rfl | rfl <;>
    simp only [OpOk, ExtOk] <;>
    first
      | trivial
      | (intro t ht; cases ht; constructor <;> decide)
      | decide
      | (intro t ht; cases ht)

theorem exFix_ops : ∀ op ∈ exFixOps, OpOk 8 exFix op := by
  intro op hop
  simp only [exFixOps, List.mem_cons, List.not_mem_nil, or_false] at hop
  rcases hop with rfl | rfl | rfl | rfl | rfl | rfl | rfl | rfl | rfl | rfl <;>
    simp only [OpOk, ExtOk] <;>
    first
      | trivial
      | (intro t ht; cases ht; constructor <;> decide)
      | decide
      | (intro t ht; cases ht)

theorem exVar_reach : ∃ pg, Reach 128 8 exVar pg exVarSlots := by
  have hr : (exPage exVar exVarOps).map (fun (x : Bytes × List Nat) => x.2) =
      some [1, 1, 1, 1, 0, 1, 0, 0, 1, 1, 1] := by decide +kernel
  cases hp : exPage exVar exVarOps with
  | none => rw [hp] at hr; cases hr
  | some x =>
    obtain ⟨pg, rs⟩ := x
    rw [hp] at hr
    simp only [Option.map_some, Option.some.injEq] at hr
    obtain ⟨p, h1, h2⟩ := exPage_spec hp
    refine ⟨pg, List.replicate 128 7, p, exVarOps, rs, by simp, h1, exVar_ops, h2, ?_⟩
    rw [hr]
    exact .cons (Or.inl ⟨rfl, rfl⟩) <| .cons (Or.inl ⟨rfl, rfl⟩) <|
      .cons (Or.inl ⟨rfl, by decide, rfl⟩) <| .cons (Or.inl ⟨rfl, by decide, rfl⟩) <|
      .cons ⟨rfl, rfl⟩ <| .cons (Or.inl ⟨rfl, by decide, by decide, rfl⟩) <|
      .cons (Or.inr ⟨rfl, by decide, rfl⟩) <| .cons (Or.inr ⟨rfl, rfl⟩) <|
      .cons (Or.inl ⟨rfl, rfl⟩) <| .cons (Or.inl ⟨rfl, by decide, rfl⟩) <|
      .cons (Or.inl ⟨rfl, rfl⟩) <| .nil _

theorem exFix_reach : ∃ pg, Reach 128 8 exFix pg exFixSlots := by
  have hr : (exPage exFix exFixOps).map (fun (x : Bytes × List Nat) => x.2) =
      some [1, 1, 1, 1, 0, 1, 0, 1, 1, 1] := by decide +kernel
  cases hp : exPage exFix exFixOps with
  | none => rw [hp] at hr; cases hr
  | some x =>
    obtain ⟨pg, rs⟩ := x
    rw [hp] at hr
    simp only [Option.map_some, Option.some.injEq] at hr
    obtain ⟨p, h1, h2⟩ := exPage_spec hp
    refine ⟨pg, List.replicate 128 7, p, exFixOps, rs, by simp, h1, exFix_ops, h2, ?_⟩
    rw [hr]
    exact .cons (Or.inl ⟨rfl, rfl⟩) <| .cons (Or.inl ⟨rfl, rfl⟩) <|
      .cons (Or.inl ⟨rfl, by decide, rfl⟩) <| .cons (Or.inl ⟨rfl, by decide, rfl⟩) <|
      .cons ⟨rfl, rfl⟩ <| .cons (Or.inl ⟨rfl, by decide, by decide, rfl⟩) <|
      .cons (Or.inr ⟨rfl, by decide, rfl⟩) <| .cons (Or.inl ⟨rfl, rfl⟩) <|
      .cons (Or.inl ⟨rfl, by decide, rfl⟩) <|
      .cons (Or.inl ⟨rfl, rfl⟩) <| .nil _

/-! ### C01 -/

/-- C01: a value smaller than the page size, stored as an on-page value, is read back; nothing
else in the buffer changes. -/
theorem C01_roundtrip {P v off : Nat} {m : Bytes} (hP : P < 4294967296) (hv : v < P)
    (hb : off + vsz P ≤ m.length) :
    ∃ m', storeVal m P off v = some m' ∧ loadVal m' P off = some v ∧ m'.length = m.length ∧
      ∀ i, (i < off ∨ off + vsz P ≤ i) → m'[i]? = m[i]? := by
  have hpow := le_pow_vsz hP
  have hs : off + (leEnc (vsz P) v).length ≤ m.length := by simpa using hb
  refine ⟨_, store_eq hs, ?_, by simp, ?_⟩
  · unfold loadVal
    rw [load_eq (by simpa using hb)]
    have := rd_wr_same m off (leEnc (vsz P) v) hs
    rw [leEnc_length] at this
    simp only [Option.map_some, this, leDec_leEnc, Option.some.injEq]
    exact Nat.mod_eq_of_lt (by omega)
  · intro i hi
    rw [wr_getElem?, if_neg (by simp; omega)]

/-- C01: the width depends on the page size only, is between 1 and 4, grows with the page size
and is the least number of bytes (at least one) with as many values as there are offsets. -/
theorem C01_width {P : Nat} (hP : P < 4294967296) :
    1 ≤ vsz P ∧ vsz P ≤ 4 ∧ P ≤ 256 ^ vsz P ∧ (∀ w, 1 ≤ w → P ≤ 256 ^ w → vsz P ≤ w) ∧
      ∀ Q, P ≤ Q → vsz P ≤ vsz Q := by
  refine ⟨vsz_pos P, vsz_le P, le_pow_vsz hP, ?_, fun Q hQ => vsz_mono hQ⟩
  intro w hw hle
  rcases w with _ | _ | _ | _ | w
  · omega
  · have : vsz P = 1 := by unfold vsz; simp at hle; simp [show P ≤ 2^24 by omega, show P ≤ 2^16 by omega, hle]
    omega
  · have : vsz P ≤ 2 := by
      unfold vsz; simp at hle; simp [show P ≤ 2^24 by omega, hle]
    omega
  · have : vsz P ≤ 3 := by
      unfold vsz; simp at hle; simp [hle]; omega
    omega
  · have := vsz_le P; omega

example : (255 : Nat) < 256 ∧ (256 : Nat) < 4294967296 ∧ 0 + vsz 256 ≤ ([0, 0] : Bytes).length := by
  decide
example : vsz 256 = 1 ∧ vsz 257 = 2 ∧ vsz 65536 = 2 ∧ vsz 65537 = 3 ∧ vsz 16777217 = 4 := by decide

/-! ### C02 -/

/-- C02: a page without slots is all free, whatever its size (also when the page size itself is
not representable in the on-page value width). -/
theorem C02_empty_page_all_free (l : Legal ps h d) (hr : Reach ps h d pg []) :
    ∃ a, Api.spaceAllotted pg ps d = some a ∧ Api.freeSpace pg ps d = some a := by
  have r := hr.rep l.fit
  refine ⟨_, r.spaceAllotted, ?_⟩
  rw [r.freeSpace]
  unfold freeBytes areaStart
  rcases r with r | ⟨r, -⟩
  · simp only [r.var, if_true, Slotted.free, List.length_nil, Nat.add_zero]
    have : Slotted.eofs ps h pg = ps := by
      rcases r.tight with h1 | ⟨i, t, hi, -⟩
      · exact h1
      · simp at hi
    rw [this]
  · simp [r.fixed]

/-- C02, for the fresh page. -/
theorem C02_init (l : Legal ps h d) {pg0 : Bytes} (hl : pg0.length = ps)
    (hi : Api.initPage pg0 ps h d = some (pg, true)) :
    ∃ a, Api.spaceAllotted pg ps d = some a ∧ Api.freeSpace pg ps d = some a :=
  C02_empty_page_all_free l ⟨pg0, pg, [], [], hl, hi, by simp, rfl, .nil _⟩

theorem run_append {ps : Nat} {d : SizeDef} {pg p1 p2 : Bytes} {ops1 ops2 : List Op}
    {rs1 rs2 : List Nat}
    (h1 : run ps d pg ops1 = some (p1, rs1)) (h2 : run ps d p1 ops2 = some (p2, rs2)) :
    run ps d pg (ops1 ++ ops2) = some (p2, rs1 ++ rs2) := by
  induction ops1 generalizing pg rs1 with
  | nil => cases h1; exact h2
  | cons op ops ih =>
    simp only [run, List.cons_append, Option.bind_eq_bind] at h1 ⊢
    cases hs : step ps d pg op with
    | none => rw [hs] at h1; cases h1
    | some x =>
      obtain ⟨p, n⟩ := x
      rw [hs] at h1
      simp only [Option.bind_some] at h1 ⊢
      cases hr : run ps d p ops with
      | none => rw [hr] at h1; cases h1
      | some y =>
        obtain ⟨p', rs'⟩ := y
        rw [hr] at h1
        cases h1
        rw [ih hr]; rfl

theorem SpecRun_append {d : SizeDef} {s s1 s2 : Slots} {ops1 ops2 : List Op} {rs1 rs2 : List Nat}
    (h1 : SpecRun d s ops1 rs1 s1) (h2 : SpecRun d s1 ops2 rs2 s2) :
    SpecRun d s (ops1 ++ ops2) (rs1 ++ rs2) s2 := by
  induction h1 with
  | nil => exact h2
  | cons a _ ih => exact .cons a (ih h2)

/-- One more legal call on a reachable page: never a fault, and the result is reachable with the
logical page the specification of the call allows. -/
theorem reach_step (l : Legal ps h d) (hr : Reach ps h d pg s) {op : Op} (ho : OpOk h d op) :
    ∃ pg' n s', step ps d pg op = some (pg', n) ∧ SpecStep d s op n s' ∧ Reach ps h d pg' s' := by
  obtain ⟨pg', n, s', h1, h2, -, -⟩ := (hr.rep l.fit).step ho
  refine ⟨pg', n, s', h1, h2, ?_⟩
  obtain ⟨pg0, pg1, ops, rs, a1, a2, a3, a4, a5⟩ := hr
  refine ⟨pg0, pg1, ops ++ [op], rs ++ [n], a1, a2, ?_, run_append a4 ?_,
    SpecRun_append a5 (.cons h2 (.nil _))⟩
  · intro o hm
    simp only [List.mem_append, List.mem_singleton] at hm
    rcases hm with hm | rfl
    · exact a3 o hm
    · exact ho
  · simp [run, h1]

/-- C02, after `discard_all_tuples_on_page` on any reachable page. -/
theorem C02_discard_all (l : Legal ps h d) (hr : Reach ps h d pg s) :
    ∃ pg' a, Api.discardAll pg ps d = some pg' ∧ Api.spaceAllotted pg' ps d = some a ∧
      Api.freeSpace pg' ps d = some a := by
  obtain ⟨pg', n, s', h1, ⟨-, rfl⟩, h3⟩ := reach_step l hr (op := .discardAll) trivial
  obtain ⟨a, h4, h5⟩ := C02_empty_page_all_free l h3
  refine ⟨pg', a, ?_, h4, h5⟩
  simp only [step, Option.bind_eq_bind] at h1
  cases hd : Api.discardAll pg ps d with
  | none => rw [hd] at h1; cases h1
  | some p => rw [hd] at h1; cases h1; rfl

example : Legal 256 10 exVar ∧ Legal 65536 0 exFix ∧ Legal 16777216 100 exVar := by
  refine ⟨?_, ?_, ?_⟩ <;> constructor <;> decide
example : ∃ pg s, s ≠ [] ∧ Legal 128 8 exVar ∧ Reach 128 8 exVar pg s := by
  obtain ⟨pg, hp⟩ := exVar_reach
  exact ⟨pg, exVarSlots, by decide, exVar_legal, hp⟩

/-! ### C03, C04 -/

/-- C03/C04: whatever the history of legal calls after a successful `init_page`, no call faults,
and count, tomb stones, existence and contents seen by the user are those of the list to which
the specification applied the same calls with the same return values. -/
theorem refinement (l : Legal ps h d) {pg0 pg1 : Bytes} (hl : pg0.length = ps)
    (hi : Api.initPage pg0 ps h d = some (pg1, true)) {ops : List Op}
    (ho : ∀ op ∈ ops, OpOk h d op) :
    ∃ pg rs s, run ps d pg1 ops = some (pg, rs) ∧ SpecRun d [] ops rs s ∧ Observe ps d pg s ∧
      Reach ps h d pg s := by
  obtain ⟨pg', ok, m, h1, -, -, -, h2⟩ := l.fit.init hl
  rw [hi] at h1; cases h1
  obtain ⟨pg2, rs2, s2, h3, h4, h5, -⟩ := (h2 rfl).1.run ho
  exact ⟨pg2, rs2, s2, h3, h4, h5.observe, pg0, pg1, ops, rs2, hl, hi, ho, h3, h4⟩

/-- C03: slotted pages. -/
theorem C03_slotted_refinement (l : Legal ps h d) (_hv : d.isVar = true) {pg0 pg1 : Bytes}
    (hl : pg0.length = ps) (hi : Api.initPage pg0 ps h d = some (pg1, true)) {ops : List Op}
    (ho : ∀ op ∈ ops, OpOk h d op) :
    ∃ pg rs s, run ps d pg1 ops = some (pg, rs) ∧ SpecRun d [] ops rs s ∧ Observe ps d pg s := by
  obtain ⟨pg, rs, s, h1, h2, h3, -⟩ := refinement l hl hi ho
  exact ⟨pg, rs, s, h1, h2, h3⟩

/-- C04: fixed array pages. -/
theorem C04_fixed_refinement (l : Legal ps h d) (_hv : d.isVar = false) {pg0 pg1 : Bytes}
    (hl : pg0.length = ps) (hi : Api.initPage pg0 ps h d = some (pg1, true)) {ops : List Op}
    (ho : ∀ op ∈ ops, OpOk h d op) :
    ∃ pg rs s, run ps d pg1 ops = some (pg, rs) ∧ SpecRun d [] ops rs s ∧ Observe ps d pg s := by
  obtain ⟨pg, rs, s, h1, h2, h3, -⟩ := refinement l hl hi ho
  exact ⟨pg, rs, s, h1, h2, h3⟩

/-- C03/C04 in terms of `Reach`: the specification state determined by the return values is what
every reader sees. -/
theorem C03_C04_observe (l : Legal ps h d) (hr : Reach ps h d pg s) : Observe ps d pg s :=
  (hr.rep l.fit).observe

example : ∃ pg, Legal 128 8 exVar ∧ exVar.isVar = true ∧ Reach 128 8 exVar pg exVarSlots := by
  obtain ⟨pg, hp⟩ := exVar_reach
  exact ⟨pg, exVar_legal, rfl, hp⟩
example : ∃ pg, Legal 128 8 exFix ∧ exFix.isVar = false ∧ Reach 128 8 exFix pg exFixSlots := by
  obtain ⟨pg, hp⟩ := exFix_reach
  exact ⟨pg, exFix_legal, rfl, hp⟩

/-! ### C05, C06 -/

/-- Every page function that does not write gives a value (no access outside the page, no 32 bit
wrap around), for all indices and all well formed tuples. -/
structure QueriesDefined (ps h : Nat) (d : SizeDef) (pg : Bytes) : Prop where
  tupleCount : (Api.tupleCount pg ps d).isSome
  tombCount : (Api.tombCount pg ps d).isSome
  canAppend : ∀ ext, ExtOk d ext → (Api.canAppend pg ps d ext).isSome
  canInsert : ∀ i ext, ExtOk d ext → (Api.canInsert pg ps d i ext).isSome
  canUpdate : ∀ i ext, ExtOk d ext → (Api.canUpdate pg ps d i ext).isSome
  trailingCount : (Api.trailingCount pg ps d).isSome
  existsTuple : ∀ i, (Api.existsTuple pg ps d i).isSome
  getNth : ∀ i, (Api.getNth pg ps d i).isSome
  readNth : ∀ i, (Api.readNth pg ps d i).isSome
  freeSpace : (Api.freeSpace pg ps d).isSome
  spaceOccBy : ∀ a b, (Api.spaceOccBy pg ps d a b).isSome
  spaceOcc : (Api.spaceOcc pg ps d).isSome
  spaceTomb : (Api.spaceTomb pg ps d).isSome
  spaceFor : ∀ ext, ExtOk d ext → (Api.spaceFor ps d ext).isSome
  spaceAllotted : (Api.spaceAllotted pg ps d).isSome
  spaceToBeAllotted : (Api.spaceToBeAllotted h ps d).isSome
  fragmentation : (Api.fragmentation pg ps d).isSome
  headerSize : (Api.headerSize pg ps).isSome
  readHeader : (Api.readHeader pg ps).isSome

theorem trailingLoop_eq (r : PRep ps h d pg s) : ∀ n k, n ≤ s.length →
    Api.trailingLoop pg ps d n k = some (k + trailing (s.take n)) := by
  intro n
  induction n with
  | zero => intro k _; simp [Api.trailingLoop, trailing]
  | succ n ih =>
    intro k hn
    have hx : s[n]? = some s[n] := List.getElem?_eq_getElem (by omega)
    have ht : s.take (n + 1) = s.take n ++ [s[n]] := by
      rw [List.take_add_one, hx]; rfl
    simp only [Api.trailingLoop, r.existsTuple, Option.bind_eq_bind, Option.bind_some]
    rw [ht]
    cases hs : s[n] with
    | none =>
      have hlk : lookup s n = none := by simp [lookup, hx, hs]
      rw [hlk]
      simp only [Option.isSome_none, Bool.false_eq_true, if_false]
      rw [ih _ (by omega), trailing_snoc_none]
      congr 1; omega
    | some t =>
      have hlk : lookup s n = some t := by simp [lookup, hx, hs]
      rw [hlk]
      simp [trailing]

theorem trailingCount_eq (r : PRep ps h d pg s) :
    Api.trailingCount pg ps d = some (trailing s) := by
  simp only [Api.trailingCount, r.tupleCount, Option.bind_eq_bind, Option.bind_some]
  rw [trailingLoop_eq r _ _ (Nat.le_refl _)]
  simp

theorem rep_queries (r : PRep ps h d pg s) : QueriesDefined ps h d pg := by
  constructor
  case canAppend => intro e he; obtain ⟨b, hb, -⟩ := r.append he; simp [hb]
  case canInsert => intro i e he; obtain ⟨b, hb, -⟩ := r.insert i he; simp [hb]
  case canUpdate => intro i e he; obtain ⟨b, hb, -⟩ := r.update i he; simp [hb]
  case trailingCount => simp [trailingCount_eq r]
  case getNth =>
    intro i
    rcases r.getNth i with ⟨o, t, hg, -⟩ | ⟨hg, -⟩ <;> simp [hg]
  case spaceFor => intro e he; simp [r.spaceFor he]
  all_goals first
    | simp [r.tupleCount, r.tombCount, r.freeSpace, r.spaceOcc, r.spaceTomb, r.spaceAllotted,
        r.spaceToBeAllotted, r.fragmentation, r.headerSize, r.readHeader]
    | (intro i; simp [r.existsTuple, r.readNth])
    | (intro a b; simp [r.spaceOccBy])

theorem queries_defined (l : Legal ps h d) (hr : Reach ps h d pg s) :
    QueriesDefined ps h d pg := rep_queries (hr.rep l.fit)

/-- The pointer returned by `get_nth_tuple_on_page` and the whole tuple behind it are inside the
page. -/
theorem tuple_inside (l : Legal ps h d) (hr : Reach ps h d pg s) {i o : Nat}
    (hg : Api.getNth pg ps d i = some (some o)) :
    ∃ t, lookup s i = some t ∧ o + t.length ≤ ps ∧ (pg.drop o).take t.length = t := by
  have r := hr.rep l.fit
  rcases r.getNth i with ⟨o', t, h1, h2, h3, h4, -⟩ | ⟨h1, -⟩
  · rw [hg] at h1; cases h1
    exact ⟨t, lookup_some h2, by rw [← r.len]; exact h3, h4⟩
  · rw [hg] at h1; cases h1

/-- C05: on a slotted page reached by any history, no operation and no query with any arguments
touches a byte outside of the page or wraps around, and the page keeps its size. -/
theorem C05_slotted_no_fault (l : Legal ps h d) (_hv : d.isVar = true) (hr : Reach ps h d pg s) :
    (∀ op, OpOk h d op → ∃ pg' n, step ps d pg op = some (pg', n) ∧ pg'.length = ps) ∧
      QueriesDefined ps h d pg := by
  refine ⟨?_, queries_defined l hr⟩
  intro op ho
  obtain ⟨pg', n, s', h1, -, h3⟩ := reach_step l hr ho
  exact ⟨pg', n, h1, (h3.rep l.fit).len⟩

/-- C06: the same for fixed array pages. -/
theorem C06_fixed_no_fault (l : Legal ps h d) (_hv : d.isVar = false) (hr : Reach ps h d pg s) :
    (∀ op, OpOk h d op → ∃ pg' n, step ps d pg op = some (pg', n) ∧ pg'.length = ps) ∧
      QueriesDefined ps h d pg := by
  refine ⟨?_, queries_defined l hr⟩
  intro op ho
  obtain ⟨pg', n, s', h1, -, h3⟩ := reach_step l hr ho
  exact ⟨pg', n, h1, (h3.rep l.fit).len⟩

/-- C05/C06: `init_page` does not fault either, whatever the buffer holds; if it refuses it
leaves the buffer alone. -/
theorem C05_C06_init_no_fault (l : Legal ps h d) {pg0 : Bytes} (hl : pg0.length = ps) :
    ∃ pg ok, Api.initPage pg0 ps h d = some (pg, ok) ∧ pg.length = ps ∧
      (ok = false → pg = pg0) := by
  obtain ⟨pg, ok, m, h1, -, -, h3, h4⟩ := l.fit.init hl
  refine ⟨pg, ok, h1, ?_, h3⟩
  cases ok with
  | true => exact (h4 rfl).1.len
  | false => rw [h3 rfl, hl]

example : ∃ pg, Legal 128 8 exVar ∧ Reach 128 8 exVar pg exVarSlots ∧
    OpOk 8 exVar (.insert 1000 (some [3, 4, 5])) := by
  obtain ⟨pg, hp⟩ := exVar_reach
  refine ⟨pg, exVar_legal, hp, ?_⟩
  intro t ht; cases ht; constructor <;> decide

/-! ### C07 -/

/-- The five calls that report failure. -/
def CanFail : Op → Prop
  | .append _ | .insert _ _ | .update _ _ | .discard _ | .swap _ _ => True
  | _ => False

/-- C07: if append, insert, update, discard or swap returns 0, every byte of the page is as
before. -/
theorem C07_failure_changes_nothing (l : Legal ps h d) (hr : Reach ps h d pg s) {op : Op}
    (hc : CanFail op) (ho : OpOk h d op) {pg' : Bytes} (hs : step ps d pg op = some (pg', 0)) :
    pg' = pg := by
  have r := hr.rep l.fit
  cases op with
  | append ext =>
    obtain ⟨b, -, h1, h2⟩ := r.append ho
    cases b with
    | true => obtain ⟨p, h3, -⟩ := h1 rfl; simp [step, h3] at hs
    | false => simp [step, h2 rfl] at hs; exact hs.symm
  | insert i ext =>
    obtain ⟨b, -, h1, h2⟩ := r.insert i ho
    cases b with
    | true => obtain ⟨-, p, h3, -⟩ := h1 rfl; simp [step, h3] at hs
    | false => simp [step, h2 rfl] at hs; exact hs.symm
  | update i ext =>
    obtain ⟨b, -, h1, h2⟩ := r.update i ho
    cases b with
    | true => obtain ⟨-, p, h3, -⟩ := h1 rfl; simp [step, h3] at hs
    | false => simp [step, h2 rfl] at hs; exact hs.symm
  | discard i =>
    by_cases hi : i < s.length
    · obtain ⟨p, h3, -⟩ := (r.discard i).1 hi; simp [step, h3] at hs
    · simp [step, (r.discard i).2 hi] at hs; exact hs.symm
  | swap i j =>
    by_cases hi : i < s.length ∧ j < s.length
    · obtain ⟨p, h3, -⟩ := (r.swap i j).1 hi; simp [step, h3] at hs
    · simp [step, (r.swap i j).2 hi] at hs; exact hs.symm
  | _ => cases hc

/-- A failing call exists on a reachable page. -/
example : ∃ pg pg', Reach 128 8 exVar pg exVarSlots ∧ CanFail (.discard 9) ∧
    step 128 exVar pg (.discard 9) = some (pg', 0) := by
  obtain ⟨pg, hp⟩ := exVar_reach
  have := ((hp.rep exVar_legal.fit).discard 9).2 (by decide)
  exact ⟨pg, pg, hp, trivial, by simp [step, this]⟩

/-! ### C08 -/

/-- C08: `can_append_tuple_on_page` answers, and its answer is what append would return. -/
theorem C08_can_append (l : Legal ps h d) (hr : Reach ps h d pg s) {ext : Option Bytes}
    (he : ExtOk d ext) : ∃ b pg', Api.canAppend pg ps d ext = some b ∧
      Api.append pg ps d ext = some (pg', b) := by
  obtain ⟨b, h0, h1, h2⟩ := (hr.rep l.fit).append he
  cases b with
  | true => obtain ⟨p, h3, -⟩ := h1 rfl; exact ⟨true, p, h0, h3⟩
  | false => exact ⟨false, pg, h0, h2 rfl⟩

/-- C08: `can_insert_tuple_on_page`. -/
theorem C08_can_insert (l : Legal ps h d) (hr : Reach ps h d pg s) (i : Nat) {ext : Option Bytes}
    (he : ExtOk d ext) : ∃ b pg', Api.canInsert pg ps d i ext = some b ∧
      Api.insert pg ps d i ext = some (pg', b) := by
  obtain ⟨b, h0, h1, h2⟩ := (hr.rep l.fit).insert i he
  cases b with
  | true => obtain ⟨-, p, h3, -⟩ := h1 rfl; exact ⟨true, p, h0, h3⟩
  | false => exact ⟨false, pg, h0, h2 rfl⟩

/-- C08: `can_update_tuple_on_page`. -/
theorem C08_can_update (l : Legal ps h d) (hr : Reach ps h d pg s) (i : Nat) {ext : Option Bytes}
    (he : ExtOk d ext) : ∃ b pg', Api.canUpdate pg ps d i ext = some b ∧
      Api.update pg ps d i ext = some (pg', b) := by
  obtain ⟨b, h0, h1, h2⟩ := (hr.rep l.fit).update i he
  cases b with
  | true => obtain ⟨-, p, h3, -⟩ := h1 rfl; exact ⟨true, p, h0, h3⟩
  | false => exact ⟨false, pg, h0, h2 rfl⟩

/-- C08 (what the answer is, slotted pages): append succeeds exactly when the space the tuple
will occupy is at most the free space; insert additionally needs an index in range. -/
theorem C08_slotted_exact (l : Legal ps h d) (hv : d.isVar = true) (hr : Reach ps h d pg s)
    (i : Nat) {ext : Option Bytes} (he : ExtOk d ext) :
    ∃ need free, Api.spaceFor ps d ext = some need ∧ Api.freeSpace pg ps d = some free ∧
      Api.canAppend pg ps d ext = some (decide (need ≤ free)) ∧
      Api.canInsert pg ps d i ext = some (decide (i ≤ s.length ∧ need ≤ free)) := by
  have r := hr.rep l.fit
  refine ⟨_, _, r.spaceFor he, r.freeSpace, ?_⟩
  have hc := r.tupleCount
  rcases r with r | ⟨r, -⟩
  · have h1 : Api.canAppend pg ps d ext =
        some (decide (slotSpace ps d ext ≤ freeBytes ps h d pg s)) := by
      simp [Api.canAppend, slotted_var r, r.canAppend he, slotSpace, freeBytes, r.var,
        Api.overhead, Slotted.overhead]
    refine ⟨h1, ?_⟩
    simp only [Api.canInsert, hc, Option.bind_eq_bind, Option.bind_some, h1]
    by_cases hi : i ≤ s.length <;> simp [hi]
  · simp [r.fixed] at hv

/-- C08 (what the answer is, fixed array pages): append succeeds exactly while the count is
below the maximum tuple count, update succeeds exactly for an index in range. -/
theorem C08_fixed_exact (l : Legal ps h d) (hv : d.isVar = false) (hr : Reach ps h d pg s)
    (i : Nat) {ext : Option Bytes} :
    ∃ M, Api.maxTupleCount h ps d = some M ∧
      Api.canAppend pg ps d ext = some (decide (s.length < M)) ∧
      Api.canInsert pg ps d i ext = some (decide (i ≤ s.length ∧ s.length < M)) ∧
      Api.canUpdate pg ps d i ext = some (decide (i < s.length)) := by
  have r := hr.rep l.fit
  have hc := r.tupleCount
  rcases r with r | ⟨r, -⟩
  · simp [r.var] at hv
  · have hf := r.base.fits
    have hlt := r.base.lt
    have hcap := Fixed.cap_lt r.base.lt hf r.pos
    have he : vsz ps + h + vsz ps * 2 = wAddr ps h 2 := by simp [wAddr]; omega
    have h1 : Api.canAppend pg ps d ext = some (decide (s.length < Fixed.cap ps h d)) := by
      simp [Api.canAppend, slotted_fix r, r.canAppend]
    refine ⟨Fixed.cap ps h d, ?_, h1, ?_, ?_⟩
    · simp only [Api.maxTupleCount, slotted_fix r, Fixed.maxTupleCount, Fixed.spacePlusBits,
        Option.bind_eq_bind, Bool.false_eq_true, if_false]
      rw [he, u32_eq (by omega)]
      simp only [Option.bind_some, sub32_eq hf]
      exact u32_eq (show Fixed.cap ps h d < _ by omega)
    · simp only [Api.canInsert, hc, Option.bind_eq_bind, Option.bind_some, h1]
      by_cases hi : i ≤ s.length <;> simp [hi]
    · simp [Api.canUpdate, slotted_fix r, r.canUpdate]

example : ∃ pg, Reach 128 8 exFix pg exFixSlots ∧ ExtOk exFix (some [1, 2, 3, 4]) := by
  obtain ⟨pg, hp⟩ := exFix_reach
  refine ⟨pg, hp, ?_⟩
  intro t ht; cases ht; constructor <;> decide

/-! ### C09, C10 -/

/-- C09: after any history the header size is the one given to `init_page`, and the header holds
zeroes overwritten by the user's own header writes, in order, and nothing else. -/
theorem C09_header_history (l : Legal ps h d) {pg0 pg1 : Bytes} (hl : pg0.length = ps)
    (hi : Api.initPage pg0 ps h d = some (pg1, true)) {ops : List Op}
    (ho : ∀ op ∈ ops, OpOk h d op) {rs : List Nat} (hrun : run ps d pg1 ops = some (pg, rs)) :
    Api.headerSize pg ps = some h ∧
      Api.readHeader pg ps = some (hdrSpec (List.replicate h 0) ops) := by
  obtain ⟨pg', ok, m, h1, -, -, -, h2⟩ := l.fit.init hl
  rw [hi] at h1; cases h1
  obtain ⟨pg2, rs2, s2, h3, -, h5, h6⟩ := (h2 rfl).1.run ho
  rw [hrun] at h3; cases h3
  exact ⟨h5.headerSize, by rw [h5.readHeader, h6, (h2 rfl).2]⟩

/-- C09: a call that is not a header write leaves size and contents of the header alone. -/
theorem C09_call_keeps_header (l : Legal ps h d) (hr : Reach ps h d pg s) {op : Op}
    (ho : OpOk h d op) (hw : ∀ off bs, op ≠ .writeHeader off bs) {pg' : Bytes} {n : Nat}
    (hs : step ps d pg op = some (pg', n)) :
    Api.headerSize pg' ps = Api.headerSize pg ps ∧
      Api.readHeader pg' ps = Api.readHeader pg ps := by
  have r := hr.rep l.fit
  obtain ⟨p, n', s', h1, -, h3, h4⟩ := r.step ho
  rw [hs] at h1; cases h1
  have : hdrStep (hdrBytes ps h pg) op = hdrBytes ps h pg := by
    cases op <;> first | rfl | exact absurd rfl (hw _ _)
  rw [h3.headerSize, r.headerSize, h3.readHeader, r.readHeader, h4, this]
  exact ⟨rfl, rfl⟩

/-- C09, non-vacuous: the concrete history above leaves the user's two bytes in the header. -/
example : hdrSpec (List.replicate 8 0) exVarOps = [0, 0, 5, 6, 0, 0, 0, 0] := by decide

/-- C10: writing inside the page header faults never, and changes neither the logical page, nor
where the tuples are, nor any space figure; reading the header back gives what was written. -/
theorem C10_header_write (l : Legal ps h d) (hr : Reach ps h d pg s) {off : Nat} {bs : Bytes}
    (ho : off + bs.length ≤ h) :
    ∃ pg', Api.writeHeader pg ps off bs = some pg' ∧ Observe ps d pg' s ∧
      (∀ i, Api.getNth pg' ps d i = Api.getNth pg ps d i) ∧
      Api.freeSpace pg' ps d = Api.freeSpace pg ps d ∧
      Api.spaceOcc pg' ps d = Api.spaceOcc pg ps d ∧
      Api.spaceTomb pg' ps d = Api.spaceTomb pg ps d ∧
      Api.spaceAllotted pg' ps d = Api.spaceAllotted pg ps d ∧
      Api.fragmentation pg' ps d = Api.fragmentation pg ps d ∧
      (∀ a b, Api.spaceOccBy pg' ps d a b = Api.spaceOccBy pg ps d a b) ∧
      (∃ b, Api.readHeader pg ps = some b ∧ Api.readHeader pg' ps = some (wr b off bs)) := by
  have r := hr.rep l.fit
  obtain ⟨pg', h1, h2, h3, rfl⟩ := r.writeHeader ho
  have hf := r.writeHeader_free ho
  refine ⟨_, h1, h2.observe, r.getNth_writeHeader ho, ?_, ?_, ?_, ?_, ?_, ?_, ?_⟩
  · rw [h2.freeSpace, r.freeSpace, hf]
  · rw [h2.spaceOcc, r.spaceOcc]
  · rw [h2.spaceTomb, r.spaceTomb]
  · rw [h2.spaceAllotted, r.spaceAllotted]
  · rw [h2.fragmentation, r.fragmentation, hf]
  · intro a b; rw [h2.spaceOccBy, r.spaceOccBy]
  · exact ⟨_, r.readHeader, by rw [h2.readHeader, h3]⟩

example : ∃ pg, Reach 128 8 exFix pg exFixSlots ∧ 3 + ([1, 2, 3, 4, 5] : Bytes).length ≤ 8 := by
  obtain ⟨pg, hp⟩ := exFix_reach
  exact ⟨pg, hp, by decide⟩

/-! ### C11 -/

theorem tombs_eq_filter (s : Slots) :
    tombs s = ((List.range s.length).filter (fun i => (lookup s i).isNone)).length := by
  induction s with
  | nil => rfl
  | cons x s ih =>
    rw [List.length_cons, List.range_succ_eq_map, List.filter_cons, List.filter_map,]
    have : ((fun i => (lookup (x :: s) i).isNone) ∘ Nat.succ) = fun i => (lookup s i).isNone := by
      funext i; simp [lookup]
    rw [this]
    cases x with
    | none => simp [lookup, ih, tombs] at *; omega
    | some t => simp [lookup, ih, tombs] at *; omega

/-- C11: the tomb stone count is the number of indices below the tuple count for which
`exists_tuple_on_page` says no. -/
theorem C11_tomb_count_exact (l : Legal ps h d) (hr : Reach ps h d pg s) :
    ∃ n, Api.tupleCount pg ps d = some n ∧
      Api.tombCount pg ps d =
        some ((List.range n).filter (fun i => Api.existsTuple pg ps d i == some false)).length := by
  have r := hr.rep l.fit
  refine ⟨s.length, r.tupleCount, ?_⟩
  rw [r.tombCount, tombs_eq_filter]
  congr 2
  apply List.filter_congr
  intro i _
  rw [r.existsTuple]
  cases lookup s i <;> rfl

example : ∃ pg, Reach 128 8 exVar pg exVarSlots ∧ tombs exVarSlots = 2 := by
  obtain ⟨pg, hp⟩ := exVar_reach
  exact ⟨pg, hp, by decide⟩

/-! ### C12, C13 -/

/-- C12: the occupied space is the sum over all slots of what each accounts for (`slotSpace`),
also for every sub-range of indices, and the whole range gives the total. -/
theorem C12_occupied_exact (l : Legal ps h d) (hr : Reach ps h d pg s) :
    Api.spaceOcc pg ps d = some (usedSpace ps d s) ∧
      (∀ a b, a ≤ b → b < s.length →
        Api.spaceOccBy pg ps d a b = some (usedSpace ps d ((s.drop a).take (b - a + 1)))) ∧
      (s ≠ [] → Api.spaceOccBy pg ps d 0 (s.length - 1) = Api.spaceOcc pg ps d) ∧
      (∀ ext, ExtOk d ext → Api.spaceFor ps d ext = some (slotSpace ps d ext)) ∧
      Api.spaceTomb pg ps d = some (usedSpace ps d (s.filter (·.isNone))) := by
  have r := hr.rep l.fit
  refine ⟨r.spaceOcc, ?_, ?_, fun e he => r.spaceFor he, ?_⟩
  · intro a b hab hb
    rw [r.spaceOccBy, if_pos ⟨hab, hb⟩]
  · intro hne
    have hp : 0 < s.length := List.length_pos_iff.mpr hne
    rw [r.spaceOccBy, if_pos ⟨by omega, by omega⟩, r.spaceOcc]
    have : List.take (s.length - 1 - 0 + 1) (s.drop 0) = s := by
      rw [List.drop_zero]; exact List.take_of_length_le (by omega)
    rw [this]
  · rw [r.spaceTomb]
    congr 1
    unfold tombs
    clear hr r
    induction s with
    | nil => simp [usedSpace]
    | cons x s ih =>
      cases x with
      | none => simp [usedSpace_cons, ← ih, Nat.add_mul]; omega
      | some t => simp [← ih]

/-- C13: allotted space = occupied + free + fragmentation, with no wrap around anywhere, and the
allotted space predicted without a page is the one reported by the page. -/
theorem C13_conservation (l : Legal ps h d) (hr : Reach ps h d pg s) :
    ∃ a o f g, Api.spaceAllotted pg ps d = some a ∧ Api.spaceOcc pg ps d = some o ∧
      Api.freeSpace pg ps d = some f ∧ Api.fragmentation pg ps d = some g ∧ a = o + f + g ∧
      Api.spaceToBeAllotted h ps d = some a ∧ a ≤ ps := by
  have r := hr.rep l.fit
  have h1 := r.conserve.1
  exact ⟨_, _, _, _, r.spaceAllotted, r.spaceOcc, r.freeSpace, r.fragmentation, by omega,
    r.spaceToBeAllotted, by omega⟩

/-- C13: a fixed array page never has fragmentation. -/
theorem C13_fixed_no_fragmentation (l : Legal ps h d) (hv : d.isVar = false)
    (hr : Reach ps h d pg s) : Api.fragmentation pg ps d = some 0 := by
  have r := hr.rep l.fit
  have h1 := r.conserve.2 hv
  rw [r.fragmentation]; congr 1; omega

example : usedSpace 128 exVar exVarSlots = 11 ∧ usedSpace 128 exFix exFixSlots = 16 := by decide

end Props
end TS
