import Verif.Dti
import Verif.FixedModel
/-
Model of the element level functions of /repo/inc/tuplestore/data_type_info.h and /repo/src/tuple.c.

A data pointer is modelled by the memory from that pointer onward (`m`). A pointer to a containee
is its offset from the data pointer of the container.
-/
namespace TS

/-- cutlery `memory_left_rotate(m + off, len, rot)`: rotates `len` bytes left by `rot`
(external library). -/
def rotLeft (m : Bytes) (off len rot : Nat) : Option Bytes := do
  let b ← load m off len
  if rot ≤ len then store m off (b.drop rot ++ b.take rot) else none

def getBitsN (m : Bytes) (off : Nat) : Nat → Nat → Option Nat
  | _, 0 => some 0
  | a, n + 1 => do
    let b ← getBit m off a
    let r ← getBitsN m off (a + 1) n
    pure (b.toNat + 2 * r)

def setBitsN (off : Nat) : Bytes → Nat → Nat → Nat → Option Bytes
  | m, _, 0, _ => some m
  | m, a, n + 1, v => do
    let m ← putBit m off a (v % 2 = 1)
    setBitsN off m (a + 1) n (v / 2)

/-- cutlery `get_bits(m + off, a, a + n - 1)`: the `n` bits from bit `a` on, the first one being
the least significant (external library). The result is a `uint64_t`: more than 64 bits are a
fault. -/
def getBits (m : Bytes) (off a n : Nat) : Option Nat := if n ≤ 64 then getBitsN m off a n else none

/-- cutlery `set_bits(m + off, a, a + n - 1, v)` (external library). -/
def setBits (m : Bytes) (off a n v : Nat) : Option Bytes :=
  if n ≤ 64 then setBitsN off m a n v else none

/-- `struct datum`, /repo/inc/tuplestore/datum.h:11-44, as a value. `empty` is the pointer
`EMPTY_DATUM`/`ZERO_DATUM`; `uint` is `bit_field_value`, `uint_value` and `large_uint_value`, `int`
is `int_value` and `large_int_value`, `flt` are the four or eight bytes that `serialize_float` and `serialize_double` write for
`float_value` or `double_value` and `deserialize_float` and `deserialize_double` read
(/repo/inc/tuplestore/float_accesses.h:40-74; little endian, although lines 8 and 16 there say the
order of the processor), `bytes` are the bytes a string or binary datum points to, and `ptr` is the memory
from `tuple_value`/`array_value` onward. Reading another member of the union than the one that was
set is a fault. A datum is assumed not to point into the tuple being modified
(/repo/inc/tuplestore/tuple.h:37). -/
inductive Datum where
  | null
  | empty
  | uint (n : Nat)
  | int (z : Int)
  | flt (b : Bytes)
  | bytes (b : Bytes)
  | ptr (m : Bytes)
deriving DecidableEq, Repr

namespace Datum

/-- `is_datum_NULL`, /repo/inc/tuplestore/datum.h:56-59. -/
def isNull : Datum → Bool
  | .null => true
  | _ => false

def asUint : Datum → Option Nat
  | .uint n => some n
  | .empty => some 0
  | _ => none

def asInt : Datum → Option Int
  | .int z => some z
  | .empty => some 0
  | _ => none

def asFlt (n : Nat) : Datum → Option Bytes
  | .flt b => if b.length = n then some b else none
  | .empty => some (List.replicate n 0)
  | _ => none

def asBytes : Datum → Option Bytes
  | .bytes b => some b
  | .empty => some []
  | _ => none

end Datum

/-- serint `serialize_int64`/`serialize_int256`: two's complement, little endian, the low `w` bytes
(external library). -/
def intEnc (w : Nat) (z : Int) : Bytes := leEnc w ((z % (256 ^ w : Nat)).toNat)

/-- serint `deserialize_int64`/`deserialize_int256`: sign extended (external library). -/
def intDec (b : Bytes) : Int :=
  if 2 * leDec b < 256 ^ b.length then (leDec b : Int) else (leDec b : Int) - (256 ^ b.length : Nat)

/-- libc `strnlen(b, b.length)` applied to the bytes: everything before the first NUL. -/
def strn (b : Bytes) : Bytes := b.takeWhile (· != 0)

namespace Dti

/-- `get_size_for_type_info`, /repo/inc/tuplestore/data_type_info.h:402-430. -/
def getSize (d : Dti) (m : Bytes) : Option Nat :=
  if d.isBit then some 0
  else if !d.isVar then some d.hdr.size
  else if d.hasSizeP then do
    let s ← loadVal m d.hdr.maxSize 0
    pure (if s = 0 then d.hdr.maxSize else s)
  else do
    let n ← loadVal m d.hdr.maxSize d.offCountP
    let c ← d.cont
    if c.isBit then u32 (d.w + bitmapBytes (n * (c.needsValid.toNat + c.hdr.size)))
    else u32 (d.w + bitmapBytes (n * c.needsValid.toNat) + n * c.hdr.size)

/-- `get_element_count_for_container_type_info`,
/repo/inc/tuplestore/data_type_info.h:473-485. -/
def getCount (d : Dti) (m : Bytes) : Option Nat :=
  if !d.isCont then some 0
  else if !d.isVarCount then some d.hdr.count
  else loadVal m d.hdr.maxSize d.offCountP

/-- `get_prefix_bitmap_size_in_bits_for_container_type_info`,
/repo/inc/tuplestore/data_type_info.h:515-535. -/
def bitmapBits (d : Dti) (m : Bytes) : Option Nat :=
  match d with
  | .prim .. => some 0
  | .tup h _ => some h.bits
  | .str .. => some 0
  | .arr h c => do
    let n ← getCount (.arr h c) m
    if c.isBit then pure (n * (c.needsValid.toNat + c.hdr.size))
    else pure (n * c.needsValid.toNat)

/-- `get_data_type_info_for_containee_of_container_CONTAINITY_UNSAFE`,
/repo/inc/tuplestore/data_type_info.h:559-569 (indexing past `containees` is a fault). -/
def tyAt (d : Dti) (i : Nat) : Option Dti :=
  match d with
  | .tup _ fs => fs[i]?.map Prod.snd
  | .str .. => some u8
  | .arr _ c => some c
  | .prim .. => none

/-- `get_data_type_info_for_containee_of_container_without_data`,
/repo/inc/tuplestore/data_type_info.h:537-557. `none` is the NULL result. -/
def tyAtNoData (d : Dti) (i : Nat) : Option Dti :=
  if !d.isCont then none
  else if !d.isVarCount && i ≥ d.hdr.count then none
  else d.tyAt i

/-- `struct data_positional_info`, /repo/inc/tuplestore/data_type_info.h:38-52. -/
structure PosInfo where
  off : Nat
  vbit : Nat
  ty : Dti

/-- `get_data_positional_info_for_containee_of_container_CONTAINITY_UNSAFE`,
/repo/inc/tuplestore/data_type_info.h:586-644, always called with an invalid cache. -/
def posInfo (d : Dti) (m : Bytes) (i : Nat) : Option PosInfo :=
  match d with
  | .prim .. => none
  | .tup _ fs => fs[i]?.map (fun p => ⟨p.1.off, p.1.vbit, p.2⟩)
  | d => do
    let fe ← u32 (d.offBitmap + bitmapBytes (← d.bitmapBits m))
    let t ← d.tyAt i
    if t.isBit then
      if t.needsValid then pure ⟨(1 + t.hdr.size) * i + 1, (1 + t.hdr.size) * i, t⟩
      else pure ⟨t.hdr.size * i, 0, t⟩
    else if !t.isVar then do
      let o ← u32 (fe + t.hdr.size * i)
      pure ⟨o, i * t.needsValid.toNat, t⟩
    else do
      let o ← u32 (fe + d.w * i)
      pure ⟨o, 0, t⟩

/-- `is_containee_null_in_container_CONTAINITY_UNSAFE`,
/repo/inc/tuplestore/data_type_info.h:659-677. -/
def isNullAt (d : Dti) (m : Bytes) (p : PosInfo) : Option Bool :=
  if !p.ty.isNullable then some false
  else if !p.ty.isVar then do
    let b ← getBit m d.offBitmap p.vbit
    pure (!b)
  else do
    let o ← loadVal m d.hdr.maxSize p.off
    pure (o = 0)

/-- `get_pointer_to_containee_from_container_CONTAINITY_UNSAFE`,
/repo/inc/tuplestore/data_type_info.h:692-714. The result is the offset of the containee, or
`some none` for NULL. -/
def ptrAt (d : Dti) (m : Bytes) (p : PosInfo) : Option (Option Nat) := do
  let valid ← if p.ty.needsValid then getBit m d.offBitmap p.vbit else some true
  if !valid then pure none
  else if p.ty.isBit then pure (some d.offBitmap)
  else if !p.ty.isVar then pure (some p.off)
  else do
    let o ← loadVal m d.hdr.maxSize p.off
    pure (if o = 0 then none else some o)

/-- `get_size_of_containee_from_container_CONTAINITY_UNSAFE`,
/repo/inc/tuplestore/data_type_info.h:729-746. -/
def sizeAt (d : Dti) (m : Bytes) (p : PosInfo) : Option Nat :=
  if p.ty.isBit then some 0
  else if !p.ty.isVar then some p.ty.hdr.size
  else do
    match ← d.ptrAt m p with
    | none => pure 0
    | some o => p.ty.getSize (m.drop o)

/-- `get_datum_for_type_info`, /repo/inc/tuplestore/data_type_info.h:761-837. `some none` is the
return value 0. -/
def getDatum (d : Dti) (m : Bytes) : Option (Option Datum) :=
  match d with
  | .prim .bitField _ => some none
  | .prim .uint h | .prim .largeUint h => do
    pure (some (.uint (leDec (← load m 0 h.size))))
  | .prim .int h | .prim .largeInt h => do
    pure (some (.int (intDec (← load m 0 h.size))))
  | .prim .float h => do
    pure (some (.flt (← load m 0 h.size)))
  | .str false h => do
    let n ← getCount (.str false h) m
    pure (some (.bytes (strn (← load m (offBitmap (.str false h)) n))))
  | .str true h => do
    let n ← getCount (.str true h) m
    pure (some (.bytes (← load m (offBitmap (.str true h)) n)))
  | .tup .. | .arr .. => some (some (.ptr m))

/-- `get_datum_to_containee_from_container_CONTAINITY_UNSAFE` once the position is known,
/repo/inc/tuplestore/data_type_info.h:839-864. -/
def getAt (d : Dti) (m : Bytes) (p : PosInfo) : Option (Option Datum) := do
  match ← d.ptrAt m p with
  | none => pure (some .null)
  | some o =>
    if p.ty.isBit then
      pure (some (.uint (← getBits m o p.off p.ty.hdr.size)))
    else p.ty.getDatum (m.drop o)

/-- `get_datum_to_containee_from_container_CONTAINITY_UNSAFE` with an invalid cache,
/repo/inc/tuplestore/data_type_info.h:839-864. -/
def getContUnsafe (d : Dti) (m : Bytes) (i : Nat) : Option (Option Datum) := do
  d.getAt m (← d.posInfo m i)

/-- `get_datum_to_containee_from_container`, /repo/inc/tuplestore/data_type_info.h:866-877. -/
def getCont (d : Dti) (m : Bytes) (i : Nat) : Option (Option Datum) :=
  if !d.isCont then some none
  else do
    if i ≥ (← d.getCount m) then pure none else d.getContUnsafe m i

/-- One iteration of the offset fixing loop,
/repo/inc/tuplestore/data_type_info.h:903-917. -/
def moveStep (d : Dti) (idx o cs : Nat) (m : Bytes) (i : Nat) : Option Bytes := do
  let p ← d.posInfo m i
  if i = idx || !p.ty.isVar then pure m
  else do
    let oi ← loadVal m d.hdr.maxSize p.off
    if oi > o then storeVal m d.hdr.maxSize p.off (← sub32 oi cs) else pure m

/-- `move_variable_sized_containee_to_end_of_container_CONTAINITY_UNSAFE`,
/repo/inc/tuplestore/data_type_info.h:879-922. (The loop bound, re-read by the C code in every
iteration, is read once: the loop only writes offsets.) -/
def moveEnd (d : Dti) (m : Bytes) (idx : Nat) (p : PosInfo) : Option (Bytes × Bool) :=
  if !p.ty.isVar then some (m, false)
  else do
    match ← d.ptrAt m p with
    | none => pure (m, false)
    | some o => do
      let cs ← p.ty.getSize (m.drop o)
      let s ← d.getSize m
      if (← u32 (o + cs)) = s then pure (m, false)
      else do
        let m ← rotLeft m o (← sub32 s o) cs
        let n ← d.getCount m
        let m ← (List.range n).foldlM (d.moveStep idx o cs) m
        let m ← storeVal m d.hdr.maxSize p.off (← sub32 s cs)
        pure (m, true)

/-- `initialize_minimal_data_for_type_info`, /repo/inc/tuplestore/data_type_info.h:937-955. -/
def initMin (d : Dti) (m : Bytes) : Option (Bytes × Nat) :=
  if d.isBit then some (m, 0)
  else if !d.isVar then do
    let m ← zeroIn m 0 d.hdr.size
    pure (m, d.hdr.size)
  else do
    let m ← zeroIn m 0 d.hdr.size
    let m ← if d.hasSizeP then storeVal m d.hdr.maxSize 0 d.hdr.size else some m
    pure (m, d.hdr.size)

/-- `are_zeroes`, /repo/inc/tuplestore/data_type_info.h:957-963. -/
def areZeroes (m : Bytes) (o n : Nat) : Option Bool := do
  pure ((← load m o n).all (· == 0))

/-- `is_minimal_data_for_type_info`, /repo/inc/tuplestore/data_type_info.h:965-986
(`get_offset_to_prefix_size_for_container_type_info` is 0). -/
def isMin (d : Dti) (m : Bytes) : Option Bool :=
  if d.isBit then some false
  else if !d.isVar then areZeroes m 0 d.hdr.size
  else do
    let s ← d.getSize m
    if s ≠ d.hdr.size then pure false
    else if d.hasSizeP then do
      let a ← areZeroes m 0 0
      let b ← areZeroes m d.w (← sub32 s d.w)
      pure (a && b)
    else areZeroes m 0 s

/-- `set_containee_to_NULL_in_container_CONTAINITY_UNSAFE`,
/repo/inc/tuplestore/data_type_info.h:988-1020. -/
def setNull (d : Dti) (m : Bytes) (i : Nat) (p : PosInfo) : Option (Bytes × Bool) := do
  if ← d.isNullAt m p then pure (m, true)
  else if !p.ty.isNullable then pure (m, false)
  else if p.ty.needsValid then do
    let m ← resetBit m d.offBitmap p.vbit
    pure (m, true)
  else do
    let s ← d.getSize m
    let o ← ← d.ptrAt m p
    let cs ← p.ty.getSize (m.drop o)
    let (m, _) ← d.moveEnd m i p
    let m ← storeVal m d.hdr.maxSize p.off 0
    let m ← if d.hasSizeP then storeVal m d.hdr.maxSize 0 (← sub32 s cs) else some m
    pure (m, true)

/-- The size test shared by all setters,
`new_size > dti->max_size || (new_size > old_size && new_size - old_size > allowed)` negated,
/repo/inc/tuplestore/data_type_info.h:1059. -/
def fits (mx old new inc : Nat) : Bool :=
  !(decide (new > mx) || (decide (new > old) && decide (new - old > inc)))

/-- The size a variable sized element has once it is set to the datum,
/repo/inc/tuplestore/data_type_info.h:1057, 1066, 1075, 1084. -/
def newSize (d : Dti) (v : Datum) : Option Nat :=
  match d with
  | .prim .. => none
  | .str false h => do u32 (vsz h.maxSize + (strn (← v.asBytes)).length)
  | .str true h => do u32 (vsz h.maxSize + (← v.asBytes).length)
  | d =>
    match v with
    | .empty => some d.hdr.size
    | .ptr m => d.getSize m
    | _ => none

/-- The size of the datum before it is set, /repo/inc/tuplestore/data_type_info.h:1056. -/
def oldSize (d : Dti) (m : Bytes) (valid : Bool) : Option Nat := if valid then d.getSize m else some 0

/-- `can_set_datum_for_type_info`, /repo/inc/tuplestore/data_type_info.h:1035-1095. -/
def canSetDatum (d : Dti) (m : Bytes) (valid : Bool) (inc : Nat) (v : Datum) : Option Bool :=
  if v.isNull then some false
  else if d.isBit then some false
  else if !d.isVar then some true
  else if !d.isCont then some false
  else do
    let old ← d.oldSize m valid
    let new ← d.newSize v
    pure (fits d.hdr.maxSize old new inc)

/-- `set_datum_for_type_info`, /repo/inc/tuplestore/data_type_info.h:1097-1257. -/
def setDatum (d : Dti) (m : Bytes) (valid : Bool) (inc : Nat) (v : Datum) :
    Option (Bytes × Bool) :=
  if v.isNull then some (m, false)
  else if d.isBit then some (m, false)
  else if !d.isVar then
    match d with
    | .prim .bitField _ => some (m, false)
    | .prim .uint h | .prim .largeUint h => do
      pure (← store m 0 (leEnc h.size (← v.asUint)), true)
    | .prim .int h | .prim .largeInt h => do
      pure (← store m 0 (intEnc h.size (← v.asInt)), true)
    | .prim .float h => do
      pure (← store m 0 (← v.asFlt h.size), true)
    | .str false h => do
      let b := (strn (← v.asBytes)).take h.size
      let m ← store m 0 b
      let m ← if b.length < h.size then zeroIn m b.length (h.size - b.length) else some m
      pure (m, true)
    | .str true h => do
      let b := (← v.asBytes).take h.size
      pure (← store m 0 b, true)
    | d =>
      match v with
      | .ptr src => do pure (← store m 0 (← load src 0 d.hdr.size), true)
      | .empty => do pure ((← d.initMin m).1, true)
      | _ => none
  else
    match d with
    | .prim .. => some (m, false)
    | .str bin h => do
      let old ← oldSize (.str bin h) m valid
      let new ← newSize (.str bin h) v
      if !fits h.maxSize old new inc then pure (m, false)
      else do
        let b ← v.asBytes
        let b := if bin then b else strn b
        let m ← storeVal m h.maxSize 0 b.length
        pure (← store m (vsz h.maxSize) b, true)
    | d => do
      let old ← d.oldSize m valid
      let new ← d.newSize v
      if !fits d.hdr.maxSize old new inc then pure (m, false)
      else
        match v with
        | .ptr src => do pure (← store m 0 (← load src 0 (← d.getSize src)), true)
        | .empty => do pure ((← d.initMin m).1, true)
        | _ => none

/-- `can_set_datum_to_containee_in_container_CONTAINITY_UNSAFE` once the position is known,
/repo/inc/tuplestore/data_type_info.h:1259-1282. -/
def canSetAt (d : Dti) (m : Bytes) (p : PosInfo) (inc : Nat) (v : Datum) : Option Bool :=
  if v.isNull then pure p.ty.isNullable
  else if !p.ty.isVar then pure true
  else do
    let s ← d.getSize m
    let inc := min inc (← sub32 d.hdr.maxSize s)
    match ← d.ptrAt m p with
    | none => p.ty.canSetDatum (m.drop s) false inc v
    | some o => p.ty.canSetDatum (m.drop o) true inc v

/-- `can_set_datum_to_containee_in_container_CONTAINITY_UNSAFE` with an invalid cache,
/repo/inc/tuplestore/data_type_info.h:1259-1282. -/
def canSetContUnsafe (d : Dti) (m : Bytes) (i inc : Nat) (v : Datum) : Option Bool := do
  d.canSetAt m (← d.posInfo m i) inc v

/-- `can_set_datum_to_containee_in_container`,
/repo/inc/tuplestore/data_type_info.h:1284-1295. -/
def canSetCont (d : Dti) (m : Bytes) (i inc : Nat) (v : Datum) : Option Bool :=
  if !d.isCont then some false
  else do
    if i ≥ (← d.getCount m) then pure false else d.canSetContUnsafe m i inc v

/-- Runs a function on the memory from offset `o` onward. -/
def atOff (m : Bytes) (o : Nat) (f : Bytes → Option (Bytes × Bool)) : Option (Bytes × Bool) := do
  let (c, r) ← f (m.drop o)
  pure (m.take o ++ c, r)

/-- `set_datum_to_containee_in_container_CONTAINITY_UNSAFE` once the position is known,
/repo/inc/tuplestore/data_type_info.h:1297-1363. -/
def setAt (d : Dti) (m : Bytes) (i : Nat) (p : PosInfo) (inc : Nat) (v : Datum) : Option (Bytes × Bool) :=
  if v.isNull then d.setNull m i p
  else if !p.ty.isVar then do
    let m ← if p.ty.needsValid then setBit m d.offBitmap p.vbit else some m
    if p.ty.isBit then do
      let m ← setBits m d.offBitmap p.off p.ty.hdr.size (← v.asUint)
      pure (m, true)
    else do
      let o ← ← d.ptrAt m p
      atOff m o (fun c => p.ty.setDatum c true inc v)
  else do
    let (m, _) ← d.moveEnd m i p
    let s ← d.getSize m
    let inc := min inc (← sub32 d.hdr.maxSize s)
    let o? ← d.ptrAt m p
    let o := o?.getD s
    let cs ← match o? with
      | none => some 0
      | some o => p.ty.getSize (m.drop o)
    let (m, r) ← atOff m o (fun c => p.ty.setDatum c o?.isSome inc v)
    let m ← if r && o?.isNone then storeVal m d.hdr.maxSize p.off s else some m
    let m ← if r && d.hasSizeP then do
        let ns ← p.ty.getSize (m.drop o)
        storeVal m d.hdr.maxSize 0 (← u32 ((← sub32 s cs) + ns))
      else some m
    pure (m, r)

/-- `set_datum_to_containee_in_container_CONTAINITY_UNSAFE` with an invalid cache,
/repo/inc/tuplestore/data_type_info.h:1297-1363. -/
def setContUnsafe (d : Dti) (m : Bytes) (i inc : Nat) (v : Datum) : Option (Bytes × Bool) := do
  d.setAt m i (← d.posInfo m i) inc v

/-- `set_datum_to_containee_in_container`, /repo/inc/tuplestore/data_type_info.h:1365-1376. -/
def setCont (d : Dti) (m : Bytes) (i inc : Nat) (v : Datum) : Option (Bytes × Bool) :=
  if !d.isCont then some (m, false)
  else do
    if i ≥ (← d.getCount m) then pure (m, false) else d.setContUnsafe m i inc v

/-- `overwrite_size_for_container_type_info_with_size_in_prefix`,
/repo/inc/tuplestore/data_type_info.h:432-443. -/
def overwriteSize (d : Dti) (m : Bytes) (s : Nat) : Option Bytes :=
  if !d.hasSizeP then some m
  else if s > d.hdr.maxSize then some m
  else storeVal m d.hdr.maxSize 0 s

/-! ### Positions inside of a tuple, /repo/src/tuple.c -/

/-- `get_type_info_for_element_from_tuple_def`, /repo/src/tuple.c:58-82. -/
def typeAt (d : Dti) : List Nat → Option Dti
  | [] => some d
  | i :: pa => do typeAt (← d.tyAtNoData i) pa

/-- `get_value_from_element_from_tuple`, /repo/src/tuple.c:12-56. -/
def getElem (d : Dti) (m : Bytes) : List Nat → Option (Option Datum)
  | [] => d.getDatum m
  | [i] => d.getCont m i
  | i :: j :: pa =>
    if !d.isCont then some none
    else do
      if i ≥ (← d.getCount m) then pure none
      else do
        let p ← d.posInfo m i
        match ← d.ptrAt m p with
        | none => pure (some .null)
        | some o => getElem p.ty (m.drop o) (j :: pa)

/-- `can_set_element_in_tuple`, /repo/src/tuple.c:156-207. -/
def canSetElem (d : Dti) (m : Bytes) (inc : Nat) (v : Datum) : List Nat → Option Bool
  | [] => if v.isNull then some false else d.canSetDatum m true inc v
  | [i] => d.canSetCont m i inc v
  | i :: j :: pa =>
    if !d.isCont then some false
    else do
      if i ≥ (← d.getCount m) then pure false
      else do
        let inc ← if d.isVar then do pure (min inc (← sub32 d.hdr.maxSize (← d.getSize m))) else some inc
        let p ← d.posInfo m i
        match ← d.ptrAt m p with
        | none => pure false
        | some o => canSetElem p.ty (m.drop o) inc v (j :: pa)

/-- The part of the three recursive functions of /repo/src/tuple.c that is executed around the
recursive call once the containee exists: lines 241-262 (with `upd` the flag
`is_inner_most_dti_variable_sized`), 425-435 and 523-533. -/
def inChild (d : Dti) (m : Bytes) (p : PosInfo) (o : Nat) (upd : Bool)
    (f : Bytes → Option (Bytes × Bool)) : Option (Bytes × Bool) :=
  if upd then do
    let s ← d.getSize m
    let cs ← d.sizeAt m p
    let (m, r) ← atOff m o f
    if r then do
      let ns ← d.sizeAt m p
      let m ← d.overwriteSize m (← u32 ((← sub32 s cs) + ns))
      pure (m, r)
    else pure (m, r)
  else atOff m o f

/-- `set_element_in_tuple_INTERNAL`, /repo/src/tuple.c:209-272. -/
def setElemI (d : Dti) (m : Bytes) (inc : Nat) (v : Datum) (iv : Bool) :
    List Nat → Option (Bytes × Bool)
  | [] => if v.isNull then some (m, false) else d.setDatum m true inc v
  | [i] => d.setCont m i inc v
  | i :: j :: pa =>
    if !d.isCont then some (m, false)
    else do
      if i ≥ (← d.getCount m) then pure (m, false)
      else do
        let inc ← if d.isVar then do pure (min inc (← sub32 d.hdr.maxSize (← d.getSize m))) else some inc
        let p ← d.posInfo m i
        let (m, _) ← if iv then d.moveEnd m i p else some (m, false)
        match ← d.ptrAt m p with
        | none => pure (m, false)
        | some o => d.inChild m p o iv (fun c => setElemI p.ty c inc v iv (j :: pa))

/-- `set_element_in_tuple`, /repo/src/tuple.c:275-285. -/
def setElem (d : Dti) (m : Bytes) (pa : List Nat) (v : Datum) (inc : Nat) :
    Option (Bytes × Bool) :=
  match d.typeAt pa with
  | none => some (m, false)
  | some t => d.setElemI m inc v t.isVar pa

end Dti
end TS
