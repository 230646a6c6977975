import Verif.Dti
/-
Allocation: model of `destroy_type_info_recursively` and `clone_type_info_recursively`.
-/
namespace TS

/-- A call of one of the callbacks of /repo/inc/tuplestore/data_type_info.h:213-218 with the static type
at the address: the one that `clone_type_info_recursively` makes (`link`), the one that
`destroy_type_info_recursively` makes (`unlink`). With a NULL callback pointer nothing is called; the event is
recorded here all the same. -/
inductive Event where
  | link (a : Nat)
  | unlink (a : Nat)
  deriving DecidableEq

/-- The C allocator: which addresses were given out and not yet freed, and the address that the next
call of `malloc` uses. Addresses are never used twice, so that an access to freed memory cannot go
unnoticed. -/
structure Mem where
  live : Nat → Bool
  next : Nat
  log : List Event

namespace Mem

/-- `malloc`; `fails` tells which calls return NULL. -/
def malloc (fails : Nat → Bool) (s : Mem) : Option Nat × Mem :=
  if fails s.next then (none, { s with next := s.next + 1 })
  else (some s.next, { s with live := fun a => a == s.next || s.live a, next := s.next + 1 })

/-- `free`; freeing what is not allocated is a fault. -/
def free (s : Mem) (a : Nat) : Option Mem :=
  if s.live a then some { s with live := fun b => b != a && s.live b } else none

/-- A callback. -/
def call (s : Mem) (e : Event) : Mem := { s with log := s.log ++ [e] }

end Mem

/-- A `data_type_info` in memory: its address, `is_static`, its other members (`x`, they are copied but
otherwise not looked at), and the types it points to: none for numerals, one for STRING, BINARY and ARRAY,
`element_count` many for TUPLE. The same object can occur more than once. -/
inductive Obj (α : Type) where
  | node (a : Nat) (static : Bool) (x : α) (kids : List (Obj α))

namespace Obj
variable {α : Type}

mutual
/-- `destroy_type_info_recursively`, /repo/src/data_type_info.c:1143-1180. -/
def destroy : Obj α → Mem → Option Mem
  | .node a static _ ks, s =>
    if static then some (s.call (.unlink a))
    else do
      let s ← destroyAll ks s
      s.free a
/-- The containees in order, /repo/src/data_type_info.c:1168, 1174-1175. -/
def destroyAll : List (Obj α) → Mem → Option Mem
  | [], s => some s
  | k :: ks, s => do
    let s ← destroy k s
    destroyAll ks s
end

mutual
/-- `clone_type_info_recursively`, /repo/src/data_type_info.c:1182-1257: the result, `*allocation_error` (`e` is its value
before the call) and the state of the allocator. -/
def clone (fails : Nat → Bool) : Obj α → Bool → Mem → Option (Option (Obj α) × Bool × Mem)
  | .node a static x ks, e, s =>
    if static then some (some (.node a static x ks), e, s.call (.link a))
    else
      match s.malloc fails with
      | (none, s) => some (none, true, s)
      | (some r, s) => do
        match ← cloneAll fails ks [] e s with
        | (some ks', e, s) => pure (some (.node r static x ks'), e, s)
        | (none, e, s) => pure (none, e, ← s.free r)
/-- The containees, /repo/src/data_type_info.c:1221-1226, 1239-1249; `done` are the clones that exist already. After a failure
these are destroyed (the caller frees its own object). A NULL result without an allocation error does
not occur and is a fault here. -/
def cloneAll (fails : Nat → Bool) : List (Obj α) → List (Obj α) → Bool → Mem → Option (Option (List (Obj α)) × Bool × Mem)
  | [], done, e, s => some (some done, e, s)
  | k :: ks, done, e, s => do
    let (c, e, s) ← clone fails k e s
    if e then do pure (none, e, ← destroyAll done s)
    else
      match c with
      | some c => cloneAll fails ks (done ++ [c]) e s
      | none => none
end

/-! ### Specification -/

mutual
/-- Addresses of the objects that belong to a type: itself and what it points to, but for static types. -/
def own : Obj α → List Nat
  | .node a static _ ks => if static then [] else a :: ownAll ks
def ownAll : List (Obj α) → List Nat
  | [] => []
  | k :: ks => own k ++ ownAll ks
end

mutual
/-- Addresses of the static types that a type points to, from left to right, with repetition. -/
def statics : Obj α → List Nat
  | .node a static _ ks => if static then [a] else staticsAll ks
def staticsAll : List (Obj α) → List Nat
  | [] => []
  | k :: ks => statics k ++ staticsAll ks
end

mutual
/-- The type without the addresses of the objects that belong to it: two types look the same if they have the same
contents and point to the same static types. -/
def looks : Obj α → Obj α
  | .node a static x ks => if static then .node a static x ks else .node 0 static x (looksAll ks)
def looksAll : List (Obj α) → List (Obj α)
  | [] => []
  | k :: ks => looks k :: looksAll ks
end

/-- The members of a `data_type_info` that are no pointers; for a tuple with those of its `containees`. -/
inductive Part where
  | prim (k : PKind) (h : Hdr)
  | str (bin : Bool) (h : Hdr)
  | tup (h : Hdr) (fs : List Fld)
  | arr (h : Hdr)

mutual
/-- The type that an object in memory is, if it has as many containees as a type of its kind. -/
def ty : Obj Part → Option Dti
  | .node _ _ (.prim k h) _ => some (.prim k h)
  | .node _ _ (.str bin h) _ => some (.str bin h)
  | .node _ _ (.tup h fs) ks => do
    let ts ← tyAll ks
    if ts.length = fs.length then pure (.tup h (fs.zip ts)) else none
  | .node _ _ (.arr h) ks => do
    match ← tyAll ks with
    | [c] => pure (.arr h c)
    | _ => none
def tyAll : List (Obj Part) → Option (List Dti)
  | [] => some []
  | k :: ks => do
    let t ← ty k
    let ts ← tyAll ks
    pure (t :: ts)
end

/-- Induction over types in memory. -/
theorem ind {P : Obj α → Prop} (h : ∀ a st x ks, (∀ k, k ∈ ks → P k) → P (.node a st x ks)) : ∀ o, P o := by
  intro o
  refine Obj.rec (motive_1 := P) (motive_2 := fun ks => ∀ k, k ∈ ks → P k) h ?_ ?_ o
  · intro k hk; cases hk
  · intro a l h1 h2 k hk
    rcases List.mem_cons.mp hk with rfl | hk
    · exact h1
    · exact h2 k hk

end Obj
end TS
