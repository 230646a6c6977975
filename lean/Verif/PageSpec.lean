import Verif.Api
import Verif.Spec
/-
Histories of page operations, and the independent specification of their effect on the logical
page (a list of optional byte strings).
-/
namespace TS

/-- One call of a page function by the user. -/
inductive Op where
  | append (ext : Option Bytes)
  | insert (i : Nat) (ext : Option Bytes)
  | update (i : Nat) (ext : Option Bytes)
  | discard (i : Nat)
  | discardAll
  | discardTrailing
  | swap (i j : Nat)
  | compact (mem : Bool)
  | zeroOut
  | setElem (i : Nat) (e : Api.Edit)
  | writeHeader (off : Nat) (bs : Bytes)

/-- Runs one call on the bytes of the page; the result is the C return value (0 for the two
calls that return nothing). -/
def step (ps : Nat) (d : SizeDef) (pg : Bytes) : Op → Option (Bytes × Nat)
  | .append ext => do let (p, b) ← Api.append pg ps d ext; pure (p, b.toNat)
  | .insert i ext => do let (p, b) ← Api.insert pg ps d i ext; pure (p, b.toNat)
  | .update i ext => do let (p, b) ← Api.update pg ps d i ext; pure (p, b.toNat)
  | .discard i => do let (p, b) ← Api.discard pg ps d i; pure (p, b.toNat)
  | .discardAll => do let p ← Api.discardAll pg ps d; pure (p, 0)
  | .discardTrailing => Api.discardTrailing pg ps d
  | .swap i j => do let (p, b) ← Api.swap pg ps d i j; pure (p, b.toNat)
  | .compact m => do let (p, b) ← Api.compact pg ps d m; pure (p, b.toNat)
  | .zeroOut => do let (p, b) ← Api.zeroOut pg ps d; pure (p, b.toNat)
  | .setElem i e => do let (p, b) ← Api.setInPlace pg ps d i e; pure (p, b.toNat)
  | .writeHeader off bs => do let p ← Api.writeHeader pg ps off bs; pure (p, 0)

/-- Runs a history; collects the return values. -/
def run (ps : Nat) (d : SizeDef) (pg : Bytes) : List Op → Option (Bytes × List Nat)
  | [] => some (pg, [])
  | op :: ops => do
    let (pg, r) ← step ps d pg op
    let (pg, rs) ← run ps d pg ops
    pure (pg, r :: rs)

/-- NULL, or exactly one tuple of the definition. -/
def ExtOk (d : SizeDef) (ext : Option Bytes) : Prop := ∀ t, ext = some t → WellFormed d t

/-- An element setter that keeps tuples well formed and does not make them larger. -/
def EditOk (d : SizeDef) (e : Api.Edit) : Prop :=
  ∀ t, WellFormed d t → (∃ b, e.can t = some b) ∧ ∃ m ok n, e.set t = some (m, ok) ∧
    m.length = t.length ∧ n ≤ t.length ∧ WellFormed d (m.take n) ∧ (ok = false → n = t.length)

/-- Legal arguments of a call. -/
def OpOk (h : Nat) (d : SizeDef) : Op → Prop
  | .append ext => ExtOk d ext
  | .insert _ ext => ExtOk d ext
  | .update _ ext => ExtOk d ext
  | .setElem _ e => EditOk d e
  | .writeHeader off bs => off + bs.length ≤ h
  | _ => True

/-- Effect of an element update on the bytes of the tuple it addresses. Only the slotted layout
asks the element setter for permission first. -/
def EditEffect (d : SizeDef) (e : Api.Edit) (t : Bytes) (r : Nat) (t' : Bytes) : Prop :=
  if d.isVar = true ∧ e.can t = some false then r = 0 ∧ t' = t
  else ∃ m ok n, e.set t = some (m, ok) ∧ tupleSize d m = some n ∧ t' = m.take n ∧ r = ok.toNat

/-- `SpecStep d s op r s'`: on the logical page `s`, the call `op` may return `r` and leave the
logical page `s'`. -/
def SpecStep (d : SizeDef) (s : Slots) : Op → Nat → Slots → Prop
  | .append ext, r, s' => (r = 1 ∧ s' = s ++ [ext]) ∨ (r = 0 ∧ s' = s)
  | .insert i ext, r, s' =>
    (r = 1 ∧ i ≤ s.length ∧ s' = s.take i ++ ext :: s.drop i) ∨ (r = 0 ∧ s' = s)
  | .update i ext, r, s' => (r = 1 ∧ i < s.length ∧ s' = s.set i ext) ∨ (r = 0 ∧ s' = s)
  | .discard i, r, s' =>
    (r = 1 ∧ i < s.length ∧ s' = s.eraseIdx i) ∨ (r = 0 ∧ s.length ≤ i ∧ s' = s)
  | .discardAll, r, s' => r = 0 ∧ s' = []
  | .discardTrailing, r, s' => r = trailing s ∧ s' = dropTrailing s
  | .swap i j, r, s' =>
    (r = 1 ∧ i < s.length ∧ j < s.length ∧ s' = swapSlots s i j) ∨
    (r = 0 ∧ (s.length ≤ i ∨ s.length ≤ j) ∧ s' = s)
  | .compact mem, r, s' => r ≤ 1 ∧ (mem = false → r = 0) ∧ s' = s
  | .zeroOut, r, s' => r ≤ 1 ∧ s' = s
  | .setElem i e, r, s' =>
    (lookup s i = none ∧ r = 0 ∧ s' = s) ∨
    ∃ t t', lookup s i = some t ∧ EditEffect d e t r t' ∧ s' = s.set i (some t')
  | .writeHeader _ _, r, s' => r = 0 ∧ s' = s

/-- The specification of a history with its return values. -/
inductive SpecRun (d : SizeDef) : Slots → List Op → List Nat → Slots → Prop
  | nil (s) : SpecRun d s [] [] s
  | cons {s s' s'' op ops r rs} : SpecStep d s op r s' → SpecRun d s' ops rs s'' →
      SpecRun d s (op :: ops) (r :: rs) s''

/-- Everything a user can observe about the logical contents of a page agrees with `s`. -/
structure Observe (ps : Nat) (d : SizeDef) (pg : Bytes) (s : Slots) : Prop where
  count : Api.tupleCount pg ps d = some s.length
  tombs : Api.tombCount pg ps d = some (tombs s)
  exist : ∀ i, Api.existsTuple pg ps d i = some (lookup s i).isSome
  read : ∀ i, Api.readNth pg ps d i = some (lookup s i)

/-- The documented limits (/repo/README.md:14-18). -/
structure Legal (ps h : Nat) (d : SizeDef) : Prop where
  ps_ge : 128 ≤ ps
  ps_le : ps ≤ 2147483520
  h_le : h + 32 ≤ ps
  size_ge : 1 ≤ d.size
  size_le : d.size ≤ 2147483520

/-- The page `pg` was obtained by a history of legal calls from a successful `init_page` on some
buffer of `ps` bytes, and the specification of that history (with the values actually returned)
gives the logical page `s`. -/
def Reach (ps h : Nat) (d : SizeDef) (pg : Bytes) (s : Slots) : Prop :=
  ∃ pg0 pg1 ops rs, pg0.length = ps ∧ Api.initPage pg0 ps h d = some (pg1, true) ∧
    (∀ op ∈ ops, OpOk h d op) ∧ run ps d pg1 ops = some (pg, rs) ∧ SpecRun d [] ops rs s

end TS
