import Verif.SizeDef
/-
Model of `struct data_type_info` and of `finalize_type_info`
(/repo/inc/tuplestore/data_type_info.h, /repo/src/data_type_info.c).
-/
namespace TS

/-- 32-bit unsigned wrap around of C. Used where the code relies on the value of a `uint32_t`
expression that may overflow (finalising a type, expanding a container). -/
def w32 (x : Nat) : Nat := x % 4294967296

theorem w32_eq {x : Nat} (h : x < 4294967296) : w32 x = x := Nat.mod_eq_of_lt h

/-- `enum data_type`, /repo/inc/tuplestore/data_type_info.h:8-30. -/
inductive Kind where
  | bitField | uint | int | float | largeUint | largeInt | string | binary | tuple | array
deriving DecidableEq, Repr

/-- The non container kinds, /repo/inc/tuplestore/data_type_info.h:10-21. -/
inductive PKind where
  | bitField | uint | int | float | largeUint | largeInt
deriving DecidableEq, Repr

def PKind.kind : PKind → Kind
  | .bitField => .bitField | .uint => .uint | .int => .int
  | .float => .float | .largeUint => .largeUint | .largeInt => .largeInt

/-- The scalar members of `struct data_type_info`, /repo/inc/tuplestore/data_type_info.h:68-118.
`size` is the union `bit_field_size`/`size`/`min_size`. The C `int` flags are booleans. -/
structure Hdr where
  isStatic : Bool := false
  isFinal : Bool := false
  name : Bytes := []
  nullable : Bool := false
  isVar : Bool := false
  size : Nat := 0
  maxSize : Nat := 0
  varCount : Bool := false
  count : Nat := 0
  /-- `prefix_bitmap_size_in_bits` -/
  bits : Nat := 0
deriving DecidableEq, Repr

/-- `struct data_position_info` without its type, /repo/inc/tuplestore/data_type_info.h:38-66.
`off` is the union `byte_offset`/`byte_offset_to_byte_offset`/`bit_offset_in_prefix_bitmap`. -/
structure Fld where
  name : Bytes := []
  off : Nat := 0
  vbit : Nat := 0
deriving DecidableEq, Repr

/-- `struct data_type_info` with everything it points to,
/repo/inc/tuplestore/data_type_info.h:68-118. The C object is a graph of pointers; here it is the
tree one gets by following them (types that contain themselves are not representable, the C
functions do not terminate on them). `containee` exists for ARRAY only; for STRING and BINARY it
is the constant `u8`, and `containees` exists for TUPLE only, exactly `element_count` of them. -/
inductive Dti where
  | prim (k : PKind) (h : Hdr)
  | str (bin : Bool) (h : Hdr)
  | tup (h : Hdr) (fs : List (Fld × Dti))
  | arr (h : Hdr) (c : Dti)

namespace Dti

/-- Induction over types: through the containee of an array and every field of a tuple. -/
theorem ind {P : Dti → Prop} (hp : ∀ k h, P (.prim k h)) (hs : ∀ b h, P (.str b h))
    (ht : ∀ h fs, (∀ f t, (f, t) ∈ fs → P t) → P (.tup h fs))
    (ha : ∀ h c, P c → P (.arr h c)) : ∀ d, P d := by
  intro d
  refine Dti.rec (motive_1 := P) (motive_2 := fun fs => ∀ f t, (f, t) ∈ fs → P t)
    (motive_3 := fun p => P p.2) hp hs ht ha ?_ ?_ ?_ d
  · intro f t h; cases h
  · intro p l h1 h2 f t h
    rcases List.mem_cons.mp h with h | h
    · rw [← h] at h1; exact h1
    · exact h2 f t h
  · intro f t h; exact h

/-- `dti->type` -/
def kind : Dti → Kind
  | .prim k _ => k.kind
  | .str b _ => if b then .binary else .string
  | .tup .. => .tuple
  | .arr .. => .array

def hdr : Dti → Hdr
  | .prim _ h => h
  | .str _ h => h
  | .tup h _ => h
  | .arr h _ => h

/-- `UINT_NON_NULLABLE[1]`, /repo/src/data_type_info_defaults.c:152-162 (finalised when the first string or
binary type is finalised, /repo/src/data_type_info.c:95-97). -/
def u8 : Dti := .prim .uint { isStatic := true, isFinal := true, size := 1 }

/-- `is_variable_sized_type_info`, /repo/inc/tuplestore/data_type_info.h:397-400. -/
def isVar (d : Dti) : Bool := d.hdr.isVar

/-- `is_nullable_type_info`, /repo/inc/tuplestore/data_type_info.h:387-390. -/
def isNullable (d : Dti) : Bool := d.isVar || d.hdr.nullable

/-- `needs_is_valid_bit_in_prefix_bitmap`, /repo/inc/tuplestore/data_type_info.h:392-395. -/
def needsValid (d : Dti) : Bool := !d.isVar && d.hdr.nullable

/-- `dti->type == BIT_FIELD` -/
def isBit : Dti → Bool
  | .prim .bitField _ => true
  | _ => false

/-- `is_container_type_info`, /repo/inc/tuplestore/data_type_info.h:445-448. -/
def isCont : Dti → Bool
  | .prim .. => false
  | _ => true

/-- `dti->containee` (null for anything but STRING, BINARY, ARRAY). -/
def cont : Dti → Option Dti
  | .str .. => some u8
  | .arr _ c => some c
  | _ => none

/-- `is_variable_element_count_container_type_info`,
/repo/inc/tuplestore/data_type_info.h:451-471. -/
def isVarCount : Dti → Bool
  | .prim .. => false
  | .tup .. => false
  | .str _ h => h.isVar
  | .arr h _ => h.isVar && h.varCount

/-- `has_size_in_its_prefix_for_container_type_info`,
/repo/inc/tuplestore/data_type_info.h:487-508. -/
def hasSizeP : Dti → Bool
  | .prim .. => false
  | .tup h _ => h.isVar
  | .str .. => false
  | .arr h c => h.isVar && c.isVar

/-- `has_element_count_in_its_prefix_for_container_type_info`,
/repo/inc/tuplestore/data_type_info.h:510-513. -/
def hasCountP (d : Dti) : Bool := d.isVarCount

/-- `get_value_size_on_page(dti->max_size)` -/
def w (d : Dti) : Nat := vsz d.hdr.maxSize

/-- `get_offset_to_prefix_element_count_for_container_type_info`,
/repo/inc/tuplestore/data_type_info.h:165-168. -/
def offCountP (d : Dti) : Nat := d.w * d.hasSizeP.toNat

/-- `get_offset_to_prefix_bitmap_for_container_type_info`,
/repo/inc/tuplestore/data_type_info.h:169-172. -/
def offBitmap (d : Dti) : Nat := d.offCountP + d.w * d.hasCountP.toNat

/-! ### finalize_type_info -/

/-- First loop over the fields of a tuple: is-valid bits and bit fields get their places in the
prefix bitmap, /repo/src/data_type_info.c:129-156. `b` is `prefix_bitmap_size_in_bits` so far
(64 bit in C; it stays below 2^32 * 65). -/
def assignBits : Nat → List (Fld × Dti) → List (Fld × Dti) × Nat
  | b, [] => ([], b)
  | b, (f, t) :: r =>
    let f1 := if t.needsValid then { f with vbit := b } else f
    let b1 := if t.needsValid then b + 1 else b
    let f2 := if t.isBit then { f1 with off := b1 } else f1
    let b2 := if t.isBit then b1 + t.hdr.size else b1
    let (r', e) := assignBits b2 r
    ((f2, t) :: r', e)

/-- Second loop: byte offsets of the fixed sized fields and of the offsets of the variable sized
ones, /repo/src/data_type_info.c:168-187. `s` is `dti->size`, `w` the width of an offset. -/
def assignOffs (w : Nat) : Nat → List (Fld × Dti) → List (Fld × Dti) × Nat
  | s, [] => ([], s)
  | s, (f, t) :: r =>
    if t.isBit then
      let (r', e) := assignOffs w s r
      ((f, t) :: r', e)
    else
      let (r', e) := assignOffs w (w32 (s + if t.isVar then w else t.hdr.size)) r
      (({ f with off := s }, t) :: r', e)

/-- `prefix_bitmap_size_in_bits` of an array type, /repo/src/data_type_info.c:202-210. -/
def arrBits (h : Hdr) (c : Dti) : Nat :=
  if h.varCount then h.bits
  else if c.isBit then h.count * (c.needsValid.toNat + c.hdr.size)
  else if !c.isVar then h.count * c.needsValid.toNat
  else 0

/-- `size` of a fixed sized array type, /repo/src/data_type_info.c:215-218. -/
def arrSize (h : Hdr) (c : Dti) : Nat :=
  if c.isBit then w32 (bitmapBytes h.bits)
  else w32 (bitmapBytes h.bits + w32 (h.count * c.hdr.size))

/-- `min_size` of a variable sized array type, /repo/src/data_type_info.c:220-234. -/
def arrMin (h : Hdr) (c : Dti) : Nat :=
  let pre := offBitmap (.arr h c)
  if h.varCount then pre
  else if c.isBit then w32 (pre + bitmapBytes ((c.needsValid.toNat + c.hdr.size) * h.count))
  else if !c.isVar then
    w32 (pre + bitmapBytes (c.needsValid.toNat * h.count) + w32 (c.hdr.size * h.count))
  else w32 (pre + w32 (vsz h.maxSize * h.count))

/-- The end of the ARRAY case of `finalize_type_info`, /repo/src/data_type_info.c:211-240. -/
def finArrSize (h : Hdr) (c : Dti) : Option Dti :=
  if !h.isVar then some (.arr { h with size := arrSize h c, isFinal := true } c)
  else if arrMin h c > h.maxSize then none
  else some (.arr { h with size := arrMin h c, isFinal := true } c)

/-- The ARRAY case of `finalize_type_info` once its containee is finalised,
/repo/src/data_type_info.c:195-240. -/
def finArr (h : Hdr) (c : Dti) : Option Dti :=
  if !h.varCount && h.count = 0 then none
  else finArrSize { h with isVar := h.varCount || c.isVar, bits := arrBits h c } c

/-- The TUPLE case of `finalize_type_info` once its containees are finalised,
/repo/src/data_type_info.c:113-193. -/
def finTup (h : Hdr) (fs : List (Fld × Dti)) : Option Dti :=
  let v := fs.any (fun p => p.2.isVar)
  let (fs1, b) := assignBits 0 fs
  let s0 := if v then vsz h.maxSize else 0
  let (fs2, e) := assignOffs (vsz h.maxSize) (w32 (s0 + bitmapBytes b)) fs1
  if v && e > h.maxSize then none
  else some (.tup { h with isVar := v, bits := b, varCount := false, size := e, isFinal := true } fs2)

/-- The STRING and BINARY cases of `finalize_type_info`, /repo/src/data_type_info.c:92-111. -/
def finStr (b : Bool) (h : Hdr) : Option Dti :=
  if !h.varCount && h.count = 0 then none
  else if h.varCount then
    if vsz h.maxSize > h.maxSize then none
    else some (.str b { h with isVar := true, bits := 0, size := vsz h.maxSize, isFinal := true })
  else some (.str b { h with isVar := false, bits := 0, size := h.count, isFinal := true })

/-- The cases of the primitive types in `finalize_type_info`, /repo/src/data_type_info.c:51-90
(`get_max_bytes_uint256() = get_max_bytes_int256() = 32`, serint). -/
def finPrim (k : PKind) (h : Hdr) : Option Dti :=
  let ok := match k with
    | .bitField => decide (1 ≤ h.size ∧ h.size ≤ 64)
    | .uint | .int => decide (1 ≤ h.size ∧ h.size ≤ 8)
    | .float => decide (h.size = 4 ∨ h.size = 8)
    | .largeUint | .largeInt => decide (1 ≤ h.size ∧ h.size ≤ 32)
  if ok then some (.prim k { h with isVar := false, isFinal := true }) else none

mutual
/-- `finalize_type_info`, /repo/src/data_type_info.c:43-246. `none` is its failure (a type that
fails to finalise is left half written by the C code; the model only has the successful
result). -/
def finalize : Dti → Option Dti
  | .prim k h => if h.isFinal then some (.prim k h) else finPrim k h
  | .str b h => if h.isFinal then some (.str b h) else finStr b h
  | .tup h fs =>
    if h.isFinal then some (.tup h fs)
    else if h.count = 0 then none
    else do
      let fs ← finalizeAll fs
      finTup h fs
  | .arr h c =>
    if h.isFinal then some (.arr h c)
    else do
      let c ← finalize c
      finArr h c
/-- The calls of `finalize_type_info` on the fields of a tuple, /repo/src/data_type_info.c:134. -/
def finalizeAll : List (Fld × Dti) → Option (List (Fld × Dti))
  | [] => some []
  | (f, t) :: r => do
    let t ← finalize t
    let r ← finalizeAll r
    pure ((f, t) :: r)
end

/-- `initialize_tuple_size_def`, /repo/src/tuple_def.c:7-58, on a type for which the call of
`finalize_type_info` gave `d`. `d0` is the caller's structure whose members may stay as they
were. -/
def sizeDefOf (d0 : SizeDef) (d : Dti) : Option SizeDef :=
  if d.isBit then none
  else if !d.isVar then
    if d.hdr.size = 0 then none else some { d0 with isVar := false, size := d.hdr.size }
  else
    let r := { d0 with
      isVar := true, size := d.hdr.size, maxSize := d.hdr.maxSize,
      hasSize := d.hasSizeP, hasCount := d.hasCountP }
    if !d.hasSizeP && !d.hasCountP then none
    else if d.hasSizeP then some r
    else do
      let c ← d.cont
      pure { r with
        contValid := c.needsValid, contIsBit := c.isBit, contSize := c.hdr.size }

end Dti
end TS
