import Verif.Container
/-
Model of the serialisation, deserialisation and comparison of types, /repo/src/data_type_info.c.
-/
namespace TS

/-- The characters of a `char[64]` holding a name: everything before the first NUL, at most 64
(`strnlen(name, 64)`). A list shorter than 64 stands for the array padded with NULs. -/
def cname (n : Bytes) : Bytes := strn (n.take 64)

/-- `strcmp(a, b) == 0` on two `char[64]`, /repo/src/data_type_info.c:1268. Two equal names of 64
characters have no NUL: `strcmp` then runs off the arrays, which is a fault. -/
def sameName (a b : Bytes) : Option Bool :=
  if cname a ≠ cname b then some false
  else if (cname a).length < 64 then some true else none

/-- `get_byte_count_for_serialized_type_name`, /repo/src/data_type_info.c:248-254. -/
def nameBytes (n : Bytes) : Nat := min ((cname n).length + 1) 64

/-- The bytes written by `serialize_type_name`, /repo/src/data_type_info.c:323-330. -/
def serName (n : Bytes) : Bytes := (cname n ++ [0]).take 64

/-- libc `strnlen(m, n)`: a fault if it runs off the memory. -/
def strnlen (m : Bytes) (n : Nat) : Option Nat :=
  let l := (strn (m.take n)).length
  if l < n ∧ m.length ≤ l then none else some l

/-- `deserialize_type_name`, /repo/src/data_type_info.c:538-558: the name and the number of bytes
consumed, `some none` is `UINT32_MAX`. (Its result is copied into a zeroed name, or into
`field_name` of a fresh allocation whose bytes behind the NUL are indeterminate; here they are
NULs.) -/
def deserName (m : Bytes) (n : Nat) : Option (Option (Bytes × Nat)) := do
  let l ← strnlen m (min 64 n)
  if l ≠ 64 then
    if l ≠ n then
      let c ← m[l]?
      if c ≠ 0 then pure none else pure (some (m.take l, l + 1))
    else pure none
  else pure (some (m.take l, l))

/-- `a - b` on `uint32_t`. -/
@[irreducible] def wsub (a b : Nat) : Nat := w32 (a + (4294967296 - w32 b))

namespace Dti

/-! ### serialize_type_info -/

/-- Type code of a primitive type, /repo/src/data_type_info.c:339-423. A float type of another size
than 4 and 8 gets no type code at all. -/
def primCode (k : PKind) (nullable : Bool) (size : Nat) : Bytes :=
  match k with
  | .bitField => [if nullable then 0 else 1]
  | .uint => [if nullable then 2 else 3]
  | .int => [if nullable then 4 else 5]
  | .float =>
    if nullable then (if size = 4 then [6] else if size = 8 then [7] else [])
    else (if size = 4 then [9] else if size = 8 then [10] else [])
  | .largeUint => [if nullable then 12 else 13]
  | .largeInt => [if nullable then 14 else 15]

/-- The bytes before the name in a serialised primitive type, /repo/src/data_type_info.c:339-423. -/
def serPrim (k : PKind) (h : Hdr) : Bytes :=
  primCode k (isNullable (.prim k h)) h.size ++
    (match k with
     | .float => []
     | _ => [UInt8.ofNat h.size])

/-- The bytes before the name in a serialised STRING (`false`) or BINARY (`true`) type,
/repo/src/data_type_info.c:424-467. -/
def serStr (b : Bool) (h : Hdr) : Bytes :=
  if !h.isVar then
    (if h.nullable then (if b then 123 else 120) else (if b then 124 else 121)) :: leEnc 4 h.count
  else (if b then 125 else 122) :: leEnc 4 h.maxSize

/-- The bytes before the name in a serialised TUPLE type, /repo/src/data_type_info.c:468-487. -/
def serTup (h : Hdr) : Bytes :=
  if !h.isVar then (if h.nullable then 126 else 127) :: leEnc 4 h.count
  else 128 :: (leEnc 4 h.count ++ leEnc 4 h.maxSize)

/-- The bytes before the name in a serialised ARRAY type, /repo/src/data_type_info.c:499-524. -/
def serArr (h : Hdr) : Bytes :=
  if !h.isVar then (if h.nullable then 129 else 130) :: leEnc 4 h.count
  else if !h.varCount then 131 :: (leEnc 4 h.count ++ leEnc 4 h.maxSize)
  else 132 :: leEnc 4 h.maxSize

mutual
/-- The bytes `serialize_type_info` writes, in order, /repo/src/data_type_info.c:332-535. The
buffer is not checked by the C code: the caller has to provide enough room. -/
def ser : Dti → Bytes
  | .prim k h => serPrim k h ++ serName h.name
  | .str b h => serStr b h ++ serName h.name
  | .tup h fs => serTup h ++ (serName h.name ++ serAll fs)
  | .arr h c => serArr h ++ (serName h.name ++ ser c)
/-- The loop over the fields of a tuple, /repo/src/data_type_info.c:490-495. -/
def serAll : List (Fld × Dti) → Bytes
  | [] => []
  | (f, t) :: r => serName f.name ++ (ser t ++ serAll r)
end

mutual
/-- The sum computed by `get_byte_count_for_serialized_type_info`,
/repo/src/data_type_info.c:256-321, before it is reduced modulo 2^32 (see `byteCount`). For a tuple
type that `deserialize_type_info` allocated and `finalize_type_info` refused because it has no
elements, `is_variable_sized` is indeterminate: reading it is a fault. -/
def bytesOf : Dti → Option Nat
  | .prim k h => some (1 + ((match k with | .float => 0 | _ => 1) + nameBytes h.name))
  | .str _ h => some (1 + 4 + nameBytes h.name)
  | .tup h fs =>
    if !h.isFinal && h.count = 0 then none
    else do
      let r ← bytesOfAll fs
      pure (1 + (if !h.isVar then 4 else 8) + nameBytes h.name + r)
  | .arr h c => do
    let r ← bytesOf c
    pure (1 + (if !h.isVar then 4 else (if !h.varCount then 4 else 0) + 4) + nameBytes h.name + r)
def bytesOfAll : List (Fld × Dti) → Option Nat
  | [] => some 0
  | (f, t) :: r => do
    let a ← bytesOf t
    let b ← bytesOfAll r
    pure (nameBytes f.name + a + b)
end

/-- `get_byte_count_for_serialized_type_info`, /repo/src/data_type_info.c:256-321. The C code adds
in `uint32_t`; reducing the exact sum gives the same number. -/
def byteCount (d : Dti) : Option Nat := (bytesOf d).map w32

/-! ### deserialize_type_info -/

mutual
/-- What a failed call of `finalize_type_info` leaves in the members that
`get_byte_count_for_serialized_type_info` reads, /repo/src/data_type_info.c:43-246. -/
def finLeft : Dti → Dti
  | .prim k h => .prim k h
  | .str b h => .str b { h with isVar := h.varCount }
  | .tup h fs =>
    if h.count = 0 then .tup h fs
    else .tup { h with isVar := (finPre fs).2 } (finPre fs).1
  | .arr h c =>
    match finalize c with
    | none => .arr h (finLeft c)
    | some c' => .arr { h with isVar := h.varCount || c'.isVar } c'
/-- The containees of a tuple after the first loop over them, and whether a variable sized one was
met before a failure, /repo/src/data_type_info.c:129-156. -/
def finPre : List (Fld × Dti) → List (Fld × Dti) × Bool
  | [] => ([], false)
  | (f, t) :: r =>
    match finalize t with
    | none => ((f, finLeft t) :: r, false)
    | some t' => ((f, t') :: (finPre r).1, t'.isVar || (finPre r).2)
end

/-- The primitive types with a size byte: kind, nullability and largest size,
/repo/src/data_type_info.c:570-737, 808-919. -/
def primOf (c : Nat) : Option (PKind × Bool × Nat) :=
  match c with
  | 0 => some (.bitField, true, 64) | 1 => some (.bitField, false, 64)
  | 2 => some (.uint, true, 8) | 3 => some (.uint, false, 8)
  | 4 => some (.int, true, 8) | 5 => some (.int, false, 8)
  | 12 => some (.largeUint, true, 32) | 13 => some (.largeUint, false, 32)
  | 14 => some (.largeInt, true, 32) | 15 => some (.largeInt, false, 32)
  | _ => none

/-- The float types, /repo/src/data_type_info.c:738-807. For the codes 8 and 11 the local `dti`
stays `{}`, which is a BIT_FIELD type of 0 bits. -/
def floatOf (c : Nat) : Option Dti :=
  match c with
  | 6 => some (.prim .float { nullable := true, size := 4 })
  | 7 => some (.prim .float { nullable := true, size := 8 })
  | 8 => some (.prim .bitField {})
  | 9 => some (.prim .float { size := 4 })
  | 10 => some (.prim .float { size := 8 })
  | 11 => some (.prim .bitField {})
  | _ => none

/-- A primitive type with the given name: without a name it is the static default type of
/repo/src/data_type_info_defaults.c, otherwise a fresh allocation. (Whether the static type is
already finalised depends on the history of the process; here it is not.) -/
def withName (d : Dti) (nm : Bytes) : Dti :=
  match d with
  | .prim k h => .prim k { h with name := nm, isStatic := decide (cname nm = [] ∧ h.size ≠ 0) }
  | .str b h => .str b { h with name := nm }
  | .tup h fs => .tup { h with name := nm } fs
  | .arr h c => .arr { h with name := nm } c

/-- Reads the name that ends the serialisation of a type without containees. -/
def finishName (d : Dti) (m : Bytes) (n b : Nat) : Option (Option Dti) := do
  match ← deserName (m.drop b) (wsub n b) with
  | none => pure none
  | some (nm, _) => pure (some (withName d nm))

/-- `bytes_consumed + 4 > data_size`, else a 4 byte number, /repo/src/data_type_info.c:927-929.
`some none` is the return of NULL. -/
def num4 (m : Bytes) (n b : Nat) : Option (Option Nat) :=
  if b + 4 > n then some none
  else do pure (some (leDec (← load m b 4)))

/-- The loop over the containees of a tuple, /repo/src/data_type_info.c:1049-1077, from
`bytes_consumed = b` on, for `k` more containees. `rec` is `deserialize_type_info`. The
result of `finalize_type_info` is not checked by the C code. -/
def deserFields (rec : Bytes → Nat → Option (Option Dti)) (m : Bytes) (n : Nat) :
    Nat → Nat → Option (Option (List (Fld × Dti)))
  | 0, _ => some (some [])
  | k + 1, b => do
    match ← deserName (m.drop b) (wsub n b) with
    | none => pure none
    | some (nm, l) =>
      let b := w32 (b + l)
      match ← rec (m.drop b) (wsub n b) with
      | none => pure none
      | some t =>
        let t := (finalize t).getD (finLeft t)
        let c ← byteCount t
        match ← deserFields rec m n k (w32 (b + c)) with
        | none => pure none
        | some r => pure (some (({ name := nm }, t) :: r))

/-- The TUPLE case, /repo/src/data_type_info.c:998-1081, once its numbers are read. -/
def deserTup (rec : Bytes → Nat → Option (Option Dti)) (h : Hdr) (m : Bytes)
    (n b : Nat) : Option (Option Dti) := do
  match ← deserName (m.drop b) (wsub n b) with
  | none => pure none
  | some (nm, l) =>
    match ← deserFields rec m n h.count (w32 (b + l)) with
    | none => pure none
    | some fs => pure (some (.tup { h with name := nm } fs))

/-- The ARRAY case, /repo/src/data_type_info.c:1082-1137, once its numbers are read. -/
def deserArr (rec : Bytes → Nat → Option (Option Dti)) (h : Hdr) (m : Bytes)
    (n b : Nat) : Option (Option Dti) := do
  match ← deserName (m.drop b) (wsub n b) with
  | none => pure none
  | some (nm, l) =>
    let b := w32 (b + l)
    match ← rec (m.drop b) (wsub n b) with
    | none => pure none
    | some c => pure (some (.arr { h with name := nm } c))

/-- `deserialize_type_info` once the type code `c` is read, /repo/src/data_type_info.c:570-1140.
`rec` is the recursive call. -/
def deserBody (rec : Bytes → Nat → Option (Option Dti)) (c : Nat) (m : Bytes) (n : Nat) :
    Option (Option Dti) :=
  if (primOf c).isSome && 2 ≤ n then do
    let (k, nl, mx) ← primOf c
    let s := (← m[1]?).toNat
    if s < 1 || mx < s then pure none
    else finishName (.prim k { nullable := nl, size := s }) m n 2
  else if (floatOf c).isSome then do
    finishName (← floatOf c) m n 1
  else if 120 ≤ c && c ≤ 125 then do
    let bin := decide (123 ≤ c)
    match ← num4 m n 1 with
    | none => pure none
    | some x =>
      if c = 122 || c = 125 then
        finishName (.str bin { maxSize := x, varCount := true }) m n 5
      else
        finishName (.str bin { nullable := decide (c = 120 ∨ c = 123), size := x, count := x }) m n 5
  else if 126 ≤ c && c ≤ 127 then do
    match ← num4 m n 1 with
    | none => pure none
    | some x => deserTup rec { nullable := decide (c = 126), count := x } m n 5
  else if c = 128 then do
    match ← num4 m n 1 with
    | none => pure none
    | some x =>
      match ← num4 m n 5 with
      | none => pure none
      | some y => deserTup rec { nullable := true, maxSize := y, count := x } m n 9
  else if 129 ≤ c && c ≤ 130 then do
    match ← num4 m n 1 with
    | none => pure none
    | some x => deserArr rec { nullable := decide (c = 129), count := x } m n 5
  else if c = 131 then do
    match ← num4 m n 1 with
    | none => pure none
    | some x =>
      match ← num4 m n 5 with
      | none => pure none
      | some y => deserArr rec { nullable := true, maxSize := y, count := x } m n 9
  else if c = 132 then do
    match ← num4 m n 1 with
    | none => pure none
    | some x => deserArr rec { maxSize := x, varCount := true } m n 5
  else pure none

/-- `deserialize_type_info` on the memory `m` from `data` on, with `data_size = n`,
/repo/src/data_type_info.c:562-1141. `none` is a read outside of `m` (or of an indeterminate
value), `some none` is the result NULL. Allocations are assumed to succeed. The first argument
bounds the depth of the recursion; a recursion that is cut off returns NULL. -/
def deserF : Nat → Bytes → Nat → Option (Option Dti)
  | 0, _, _ => some none
  | f + 1, m, n =>
    if n < 1 then some none
    else do deserBody (deserF f) (← m[0]?).toNat m n

/-- `deserialize_type_info(data, data_size, …)` on exactly the bytes `m`. No recursion of
`deserialize_type_info` can be deeper than there are bytes. -/
def deser (m : Bytes) : Option (Option Dti) := deserF (m.length + 1) m m.length

/-! ### are_identical_type_info -/

mutual
/-- `are_identical_type_info`, /repo/src/data_type_info.c:1259-1341. The comparison of the two
pointers that comes first is left out (it answers 1 only where the rest does, see
`C33_reflexive`). -/
def ident : Dti → Dti → Option Bool
  | .prim k1 h1, .prim k2 h2 =>
    if k1 ≠ k2 then some false
    else do
      if !(← sameName h1.name h2.name) then pure false
      else if h1.isVar ≠ h2.isVar then pure false
      else if !h1.isVar then pure (h1.nullable = h2.nullable && h1.size = h2.size)
      else pure (h1.maxSize = h2.maxSize)
  | .str b1 h1, .str b2 h2 =>
    if b1 ≠ b2 then some false
    else do
      if !(← sameName h1.name h2.name) then pure false
      else if h1.isVar ≠ h2.isVar then pure false
      else if !h1.isVar then pure (h1.nullable = h2.nullable && h1.size = h2.size)
      else pure (h1.maxSize = h2.maxSize)
  | .tup h1 fs1, .tup h2 fs2 => do
      if !(← sameName h1.name h2.name) then pure false
      else if h1.isVar ≠ h2.isVar then pure false
      else if !h1.isVar && !(h1.nullable = h2.nullable && h1.size = h2.size) then pure false
      else if h1.isVar && h1.maxSize ≠ h2.maxSize then pure false
      else if h1.count ≠ h2.count then pure false
      else identAll fs1 fs2
  | .arr h1 c1, .arr h2 c2 => do
      if !(← sameName h1.name h2.name) then pure false
      else if h1.isVar ≠ h2.isVar then pure false
      else if !h1.isVar && !(h1.nullable = h2.nullable && h1.size = h2.size) then pure false
      else if h1.isVar && h1.maxSize ≠ h2.maxSize then pure false
      else if h1.varCount ≠ h2.varCount then pure false
      else if !h1.varCount && h1.count ≠ h2.count then pure false
      else ident c1 c2
  | _, _ => some false
/-- The loop over the fields of two tuple types with the same number of fields,
/repo/src/data_type_info.c:1318-1320. -/
def identAll : List (Fld × Dti) → List (Fld × Dti) → Option Bool
  | (_, t1) :: r1, (_, t2) :: r2 => do
    if ← ident t1 t2 then identAll r1 r2 else pure false
  | _, _ => some true
end

end Dti
end TS
