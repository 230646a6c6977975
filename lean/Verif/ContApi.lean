import Verif.Compare
/-
The functions of /repo/inc/tuplestore/data_type_info.h on one containee of a container, as a caller
outside of the library uses them: with the tests of the type and of the index in front, and with a
`data_positional_info` in which the position is cached from call to call.

A cache is an `Option PosInfo`; `none` is INVALID_DATA_POSITIONAL_INFO. The cache after the call is
part of every result.
-/
namespace TS
namespace Dti

/-- `get_data_positional_info_for_containee_of_container_CONTAINITY_UNSAFE`,
/repo/inc/tuplestore/data_type_info.h:586-644: what the cache holds after the call. -/
def cached (d : Dti) (m : Bytes) (i : Nat) : Option PosInfo → Option PosInfo
  | some p => some p
  | none => d.posInfo m i

/-- The two tests all functions below start with: is it a container, and is the index less than the
element count. -/
def inBounds (d : Dti) (m : Bytes) (i : Nat) : Option Bool :=
  if !d.isCont then some false
  else do
    if i ≥ (← d.getCount m) then pure false else pure true

/-- `get_data_type_info_for_containee_of_container`,
/repo/inc/tuplestore/data_type_info.h:571-584. -/
def typeIn (d : Dti) (m : Bytes) (i : Nat) : Option (Option Dti) := do
  if !(← d.inBounds m i) then pure none else pure (some (← d.tyAt i))

/-- `get_data_positional_info_for_containee_of_container`,
/repo/inc/tuplestore/data_type_info.h:646-657. -/
def posIn (d : Dti) (m : Bytes) (i : Nat) (c : Option PosInfo) : Option (Bool × Option PosInfo) := do
  if !(← d.inBounds m i) then pure (false, c) else pure (true, some (← d.cached m i c))

/-- `is_containee_null_in_container`, /repo/inc/tuplestore/data_type_info.h:679-690. -/
def isNullIn (d : Dti) (m : Bytes) (i : Nat) (c : Option PosInfo) : Option (Bool × Option PosInfo) := do
  if !(← d.inBounds m i) then pure (true, c)
  else do
    let p ← d.cached m i c
    pure (← d.isNullAt m p, some p)

/-- `get_pointer_to_containee_from_container`, /repo/inc/tuplestore/data_type_info.h:716-727. The
result is an offset into the data of the container, `none` is NULL. -/
def ptrIn (d : Dti) (m : Bytes) (i : Nat) (c : Option PosInfo) : Option (Option Nat × Option PosInfo) := do
  if !(← d.inBounds m i) then pure (none, c)
  else do
    let p ← d.cached m i c
    pure (← d.ptrAt m p, some p)

/-- `get_size_of_containee_from_container`, /repo/inc/tuplestore/data_type_info.h:748-759. -/
def sizeIn (d : Dti) (m : Bytes) (i : Nat) (c : Option PosInfo) : Option (Nat × Option PosInfo) := do
  if !(← d.inBounds m i) then pure (0, c)
  else do
    let p ← d.cached m i c
    pure (← d.sizeAt m p, some p)

/-- `get_datum_to_containee_from_container`, /repo/inc/tuplestore/data_type_info.h:866-877. -/
def getIn (d : Dti) (m : Bytes) (i : Nat) (c : Option PosInfo) : Option (Option Datum × Option PosInfo) := do
  if !(← d.inBounds m i) then pure (none, c)
  else do
    let p ← d.cached m i c
    pure (← d.getAt m p, some p)

/-- `can_set_datum_to_containee_in_container`,
/repo/inc/tuplestore/data_type_info.h:1284-1295. -/
def canSetIn (d : Dti) (m : Bytes) (i inc : Nat) (v : Datum) (c : Option PosInfo) :
    Option (Bool × Option PosInfo) := do
  if !(← d.inBounds m i) then pure (false, c)
  else do
    let p ← d.cached m i c
    pure (← d.canSetAt m p inc v, some p)

/-- `move_variable_sized_containee_to_end_of_container`,
/repo/inc/tuplestore/data_type_info.h:924-935. -/
def moveEndIn (d : Dti) (m : Bytes) (i : Nat) (c : Option PosInfo) : Option (Bytes × Bool × Option PosInfo) := do
  if !(← d.inBounds m i) then pure (m, false, c)
  else do
    let p ← d.cached m i c
    let (m, r) ← d.moveEnd m i p
    pure (m, r, some p)

/-- `set_containee_to_NULL_in_container`, /repo/inc/tuplestore/data_type_info.h:1022-1033. -/
def setNullIn (d : Dti) (m : Bytes) (i : Nat) (c : Option PosInfo) : Option (Bytes × Bool × Option PosInfo) := do
  if !(← d.inBounds m i) then pure (m, false, c)
  else do
    let p ← d.cached m i c
    let (m, r) ← d.setNull m i p
    pure (m, r, some p)

/-- `set_datum_to_containee_in_container`, /repo/inc/tuplestore/data_type_info.h:1365-1376. -/
def setIn (d : Dti) (m : Bytes) (i inc : Nat) (v : Datum) (c : Option PosInfo) :
    Option (Bytes × Bool × Option PosInfo) := do
  if !(← d.inBounds m i) then pure (m, false, c)
  else do
    let p ← d.cached m i c
    let (m, r) ← d.setAt m i p inc v
    pure (m, r, some p)

/-- `hash_containee_in_container`, /repo/src/data_type_info.c:1479-1505, with the state of the hasher
made explicit. -/
def hashIn {σ : Type} (upd : σ → UInt8 → σ) (h : σ) (d : Dti) (m : Bytes) (i : Nat) (c : Option PosInfo) :
    Option (σ × Option PosInfo) := do
  if !(← d.inBounds m i) then pure (h, c)
  else do
    let p ← d.cached m i c
    if ← d.isNullAt m p then pure (h, some p)
    else do
      let o ← ← d.ptrAt m p
      if p.ty.isBit then do
        pure (hashBytes upd h (bitBytes (← getBits m d.offBitmap p.off p.ty.hdr.size) p.ty.hdr.size), some p)
      else do
        pure (← hashData upd h p.ty (m.drop o), some p)

end Dti
end TS
