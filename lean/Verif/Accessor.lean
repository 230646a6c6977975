import Verif.Container
/-
Positional accessors and the traversal that /repo/inc/tuplestore/positional_accessor.h documents.
-/
namespace TS

/-- `struct positional_accessor`, /repo/inc/tuplestore/positional_accessor.h:13-18. `cells` is the
whole array that `positions` points to, `len` is `positions_length`; accesses outside of `cells`
are faults. -/
structure Pa where
  cells : List Nat
  len : Nat

namespace Pa

/-- The path that the accessor stands for. -/
def path (a : Pa) : List Nat := a.cells.take a.len

/-- `IS_SELF`, /repo/inc/tuplestore/positional_accessor.h:24. -/
def isSelf (a : Pa) : Bool := a.len == 0

/-- `append_positions`, /repo/inc/tuplestore/positional_accessor.h:30-34: the first `t.len` cells of
`t` are copied behind the last position of `a`. -/
def append (a t : Pa) : Option Pa :=
  if t.len ≤ t.cells.length ∧ a.len + t.len ≤ a.cells.length then
    some ⟨a.cells.take a.len ++ t.cells.take t.len ++ a.cells.drop (a.len + t.len), a.len + t.len⟩
  else none

/-- `point_to_parent_position`, /repo/inc/tuplestore/positional_accessor.h:36-42. -/
def toParent (a : Pa) : Pa × Bool :=
  if a.isSelf then (a, false) else ({ a with len := a.len - 1 }, true)

/-- `a.positions[i]++` on an array of `uint32_t`. -/
def bump (a : Pa) (i : Nat) : Option Pa := do
  let x ← a.cells[i]?
  pure { a with cells := a.cells.set i ((x + 1) % 2 ^ 32) }

/-- `point_to_next_sibling_position`, /repo/inc/tuplestore/positional_accessor.h:44-50. -/
def toNextSibling (a : Pa) : Option (Pa × Bool) :=
  if a.isSelf then some (a, false) else do pure (← a.bump (a.len - 1), true)

/-- `point_to_i_th_child_position`, /repo/inc/tuplestore/positional_accessor.h:52-55. -/
def toChild (a : Pa) (i : Nat) : Option Pa := a.append ⟨[i], 1⟩

/-- `point_to_first_child_position`, /repo/inc/tuplestore/positional_accessor.h:57-60. -/
def toFirstChild (a : Pa) : Option Pa := a.toChild 0

/-- `point_to_next_uncle_position`, /repo/inc/tuplestore/positional_accessor.h:62-69. -/
def toNextUncle (a : Pa) : Option (Pa × Bool) :=
  if a.len ≤ 1 then some (a, false)
  else do
    let a := { a with len := a.len - 1 }
    pure (← a.bump (a.len - 1), true)

/-- What the analysis of an element in the traversal decides:
/repo/inc/tuplestore/positional_accessor.h:96-102. -/
inductive Choice where
  | next
  | found
  | skipSiblings
  | skipChildren
  deriving DecidableEq

/-- Lines 89-92 and 106-109: continue at the next uncle, or end. -/
def uncleOr (base : Nat) (a : Pa) : Option (Option Pa) :=
  if a.len ≥ base + 2 then do
    match ← a.toNextUncle with
    | (a, true) => pure (some a)
    | (_, false) => pure none
  else some none

/-- Lines 113-119 and 130-136: continue at the next sibling, or end. -/
def siblingOr (base : Nat) (a : Pa) : Option (Option Pa) :=
  if a.len > base then do
    let x ← a.toNextSibling
    pure (some x.1)
  else some none

section
variable {β : Type}

/-- One round of the loop of the traversal, /repo/inc/tuplestore/positional_accessor.h:81-138. `look`
is the test of line 84-87 (`none` inside: not valid) and `down` the last two conditions of
line 123; both can fault. The result is the path visited, if any, and the next position, if the
loop goes on. -/
def step (look : List Nat → Option (Option β)) (down : List Nat → β → Option Bool) (choose : List Nat → β → Choice)
    (base cap : Nat) (a : Pa) : Option (Option (List Nat) × Option Pa) := do
  match ← look a.path with
  | none => pure (none, ← uncleOr base a)
  | some b =>
    match choose a.path b with
    | .found => pure (some a.path, none)
    | .skipSiblings => pure (some a.path, ← uncleOr base a)
    | .skipChildren => pure (some a.path, ← siblingOr base a)
    | .next =>
      if a.len < cap then do
        if ← down a.path b then pure (some a.path, some (← a.toFirstChild))
        else pure (some a.path, ← siblingOr base a)
      else pure (some a.path, ← siblingOr base a)

/-- The loop, run for at most `fuel` rounds (more rounds than that: `none`). The paths visited. -/
def loop (look : List Nat → Option (Option β)) (down : List Nat → β → Option Bool) (choose : List Nat → β → Choice)
    (base cap : Nat) : Nat → Pa → Option (List (List Nat))
  | 0, _ => none
  | fuel + 1, a => do
    let (v, n) ← step look down choose base cap a
    let r ← match n with
      | some a => loop look down choose base cap fuel a
      | none => some []
    pure (v.toList ++ r)

/-- The traversal, /repo/inc/tuplestore/positional_accessor.h:74-141: `junk` is what the allocated
positions hold at first; `malloc` is taken to succeed. -/
def walk (look : List Nat → Option (Option β)) (down : List Nat → β → Option Bool) (choose : List Nat → β → Choice)
    (base : Pa) (rel : Nat) (junk : Nat → Nat) (fuel : Nat) : Option (List (List Nat)) := do
  let cap := (base.len + rel) % 2 ^ 32
  let a ← append ⟨(List.range cap).map junk, 0⟩ base
  loop look down choose base.len cap fuel a

end

end Pa

namespace Dti

/-- The traversal of the elements of a tuple. -/
def walkElems (d : Dti) (m : Bytes) (choose : List Nat → Datum → Pa.Choice) (base : Pa) (rel : Nat) (junk : Nat → Nat)
    (fuel : Nat) : Option (List (List Nat)) :=
  Pa.walk (fun p => d.getElem m p) (fun p v => do pure ((← d.typeAt p).isCont && !v.isNull)) choose base rel junk fuel

/-- The test of line 87 for types: there is a type at the path, and it is not the one of the second
element of an array, string or binary. -/
def lookType (d : Dti) (p : List Nat) : Option Dti :=
  match d.typeAt p, d.typeAt p.dropLast, p.getLast? with
  | some _, some (.arr ..), some 1 => none
  | some _, some (.str ..), some 1 => none
  | t, _, _ => t

/-- The traversal of the types inside of a tuple type. -/
def walkTypes (d : Dti) (choose : List Nat → Dti → Pa.Choice) (base : Pa) (rel : Nat) (junk : Nat → Nat)
    (fuel : Nat) : Option (List (List Nat)) :=
  Pa.walk (fun p => some (d.lookType p)) (fun _ t => some t.isCont) choose base rel junk fuel

end Dti
end TS
