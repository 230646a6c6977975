import Verif.TypeSer
import Verif.Heap
/-
Model of what `deserialize_type_info` allocates and frees.
-/
namespace TS
namespace Dti

/-- What the first bytes of a serialised type say: a type without containees that
are still to be read, a TUPLE or an ARRAY; with the number of bytes read. -/
inductive Head where
  | leaf (d : Dti) (b : Nat)
  | tup (h : Hdr) (b : Nat)
  | arr (h : Hdr) (b : Nat)

/-- The part of `deserialize_type_info` before the name and the containees are read, once the type code `c` is read,
/repo/src/data_type_info.c:570-1140: the conditions of its `if`s and the numbers behind the type code. (The part of
`deserBody` that allocates nothing.) `some none` is the return of NULL. -/
def deserHead (c : Nat) (m : Bytes) (n : Nat) : Option (Option Head) :=
  if (primOf c).isSome && 2 ≤ n then do
    let (k, nl, mx) ← primOf c
    let s := (← m[1]?).toNat
    if s < 1 || mx < s then pure none
    else pure (some (.leaf (.prim k { nullable := nl, size := s }) 2))
  else if (floatOf c).isSome then do
    pure (some (.leaf (← floatOf c) 1))
  else if 120 ≤ c && c ≤ 125 then do
    let bin := decide (123 ≤ c)
    match ← num4 m n 1 with
    | none => pure none
    | some x =>
      if c = 122 || c = 125 then
        pure (some (.leaf (.str bin { maxSize := x, varCount := true }) 5))
      else
        pure (some (.leaf (.str bin { nullable := decide (c = 120 ∨ c = 123), size := x, count := x }) 5))
  else if 126 ≤ c && c ≤ 127 then do
    match ← num4 m n 1 with
    | none => pure none
    | some x => pure (some (.tup { nullable := decide (c = 126), count := x } 5))
  else if c = 128 then do
    match ← num4 m n 1 with
    | none => pure none
    | some x =>
      match ← num4 m n 5 with
      | none => pure none
      | some y => pure (some (.tup { nullable := true, maxSize := y, count := x } 9))
  else if 129 ≤ c && c ≤ 130 then do
    match ← num4 m n 1 with
    | none => pure none
    | some x => pure (some (.arr { nullable := decide (c = 129), count := x } 5))
  else if c = 131 then do
    match ← num4 m n 1 with
    | none => pure none
    | some x =>
      match ← num4 m n 5 with
      | none => pure none
      | some y => pure (some (.arr { nullable := true, maxSize := y, count := x } 9))
  else if c = 132 then do
    match ← num4 m n 1 with
    | none => pure none
    | some x => pure (some (.arr { maxSize := x, varCount := true } 5))
  else pure none

/-- Result of `deserialize_type_info`: the type with the objects it consists of, or NULL; `*allocation_error`; the state of the
allocator. -/
abbrev HRes := Option (Option (Dti × Obj Unit) × Bool × Mem)

/-- The addresses of the static default types, /repo/src/data_type_info_defaults.c, by kind, whether they are nullable, and size. -/
abbrev Statics := PKind → Bool → Nat → Nat

/-- The static type for a primitive type without a name, e.g. /repo/src/data_type_info.c:582-588. -/
def staticAt (sa : Statics) : Dti → Nat
  | .prim k h => sa k h.nullable h.size
  | _ => 0

/-- The containee of STRING and BINARY is `UINT_NON_NULLABLE[1]`, /repo/inc/tuplestore/data_type_info_defaults.h. -/
def leafKids (sa : Statics) : Dti → List (Obj Unit)
  | .str .. => [.node (sa .uint false 1) true () []]
  | _ => []

/-- The name of a type without further containees; a primitive type without a name is a static one, everything
else is allocated, e.g. /repo/src/data_type_info.c:578-595, 940-955. -/
def finishNameH (fails : Nat → Bool) (sa : Statics) (d : Dti) (m : Bytes) (n b : Nat) (e : Bool) (s : Mem) : HRes := do
  match ← deserName (m.drop b) (wsub n b) with
  | none => pure (none, e, s)
  | some (nm, _) =>
    let t := withName d nm
    if t.hdr.isStatic then pure (some (t, .node (staticAt sa t) true () []), e, s)
    else
      match s.malloc fails with
      | (none, s) => pure (none, true, s)
      | (some a, s) => pure (some (t, .node a false () (leafKids sa t)), e, s)

/-- The loop over the containees of a tuple, /repo/src/data_type_info.c:1049-1077; `done` are the containees that exist already; they are
destroyed after a failure (lines 1071-1073; the caller frees the tuple type, line 1074). -/
def deserFieldsH (rec : Bytes → Nat → Bool → Mem → HRes) (m : Bytes) (n : Nat) :
    Nat → Nat → List (Obj Unit) → Bool → Mem → Option (Option (List (Fld × Dti) × List (Obj Unit)) × Bool × Mem)
  | 0, _, done, e, s => some (some ([], done), e, s)
  | k + 1, b, done, e, s => do
    match ← deserName (m.drop b) (wsub n b) with
    | none => pure (none, e, ← Obj.destroyAll done s)
    | some (nm, l) =>
      let b := w32 (b + l)
      match ← rec (m.drop b) (wsub n b) e s with
      | (none, e, s) => pure (none, e, ← Obj.destroyAll done s)
      | (some (t, o), e, s) =>
        let t := (finalize t).getD (finLeft t)
        let c ← byteCount t
        match ← deserFieldsH rec m n k (w32 (b + c)) (done ++ [o]) e s with
        | (none, e, s) => pure (none, e, s)
        | (some (r, os), e, s) => pure (some (({ name := nm }, t) :: r, os), e, s)

/-- The TUPLE case, /repo/src/data_type_info.c:998-1081. -/
def deserTupH (fails : Nat → Bool) (rec : Bytes → Nat → Bool → Mem → HRes) (h : Hdr) (m : Bytes) (n b : Nat) (e : Bool)
    (s : Mem) : HRes :=
  match s.malloc fails with
  | (none, s) => some (none, true, s)
  | (some a, s) => do
    match ← deserName (m.drop b) (wsub n b) with
    | none => pure (none, e, ← s.free a)
    | some (nm, l) =>
      match ← deserFieldsH rec m n h.count (w32 (b + l)) [] e s with
      | (none, e, s) => pure (none, e, ← s.free a)
      | (some (fs, os), e, s) => pure (some (.tup { h with name := nm } fs, .node a false () os), e, s)

/-- The ARRAY case, /repo/src/data_type_info.c:1082-1137. -/
def deserArrH (fails : Nat → Bool) (rec : Bytes → Nat → Bool → Mem → HRes) (h : Hdr) (m : Bytes) (n b : Nat) (e : Bool)
    (s : Mem) : HRes := do
  match ← deserName (m.drop b) (wsub n b) with
  | none => pure (none, e, s)
  | some (nm, l) =>
    let b := w32 (b + l)
    match ← rec (m.drop b) (wsub n b) e s with
    | (none, e, s) => pure (none, e, s)
    | (some (c, o), e, s) =>
      match s.malloc fails with
      | (none, s) => pure (none, true, ← o.destroy s)
      | (some a, s) => pure (some (.arr { h with name := nm } c, .node a false () [o]), e, s)

/-- `deserialize_type_info`, /repo/src/data_type_info.c:562-1141, with its allocations; `e` is `*allocation_error` before
the call. The first argument bounds the recursion as in `deserF`. -/
def deserH (fails : Nat → Bool) (sa : Statics) : Nat → Bytes → Nat → Bool → Mem → HRes
  | 0, _, _, e, s => some (none, e, s)
  | f + 1, m, n, e, s =>
    if n < 1 then some (none, e, s)
    else do
      match ← deserHead (← m[0]?).toNat m n with
      | none => pure (none, e, s)
      | some (.leaf d b) => finishNameH fails sa d m n b e s
      | some (.tup h b) => deserTupH fails (deserH fails sa f) h m n b e s
      | some (.arr h b) => deserArrH fails (deserH fails sa f) h m n b e s

/-- `deserialize_type_info(data, data_size, …)` on exactly the bytes `m`, see `deser`. -/
def deserialize (fails : Nat → Bool) (sa : Statics) (m : Bytes) (e : Bool) (s : Mem) : HRes :=
  deserH fails sa (m.length + 1) m m.length e s

end Dti
end TS
