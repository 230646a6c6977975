import Verif.Container
/-
Model of the functions that insert slots into and remove slots from containers with a variable
number of elements. 32 bit arithmetic on the number of slots is exact (`w32`), since the
functions are documented to be prone to overflow (/repo/README.md:23).
-/
namespace TS

/-- The loops that copy the bits of elements one by one,
/repo/inc/tuplestore/data_type_info.h:1488-1494, 1536-1542, 1655-1661, 1679-1685; the list has
the source and destination bit of every iteration. -/
def copyBits (off pb : Nat) : Bytes → List (Nat × Nat) → Option Bytes
  | m, [] => some m
  | m, (a, b) :: r => do
    let t ← getBits m off a pb
    let m ← setBits m off b pb t
    copyBits off pb m r

/-- The loop that zeroes the bits of new elements, /repo/inc/tuplestore/data_type_info.h:1497-1501. -/
def zeroBits (off pb : Nat) : Bytes → List Nat → Option Bytes
  | m, [] => some m
  | m, a :: r => do
    let m ← setBits m off a pb 0
    zeroBits off pb m r

/-- The loop that resets the is-valid bits of new elements,
/repo/inc/tuplestore/data_type_info.h:1545-1549. -/
def resetBits (off : Nat) : Bytes → List Nat → Option Bytes
  | m, [] => some m
  | m, a :: r => do
    let m ← resetBit m off a
    resetBits off m r

/-- Zeroing of the unused bits of the last byte of the bitmap,
/repo/inc/tuplestore/data_type_info.h:1504-1509, 1563-1569. -/
def zeroTail (m : Bytes) (off total : Nat) : Option Bytes :=
  if bitmapBytes total * 8 > total then setBits m off total (bitmapBytes total * 8 - total) 0 else some m

/-- `if(b) f`. -/
def whenB (b : Bool) (f : Bytes → Option Bytes) (m : Bytes) : Option Bytes := if b then f m else some m

namespace Dti

/-- Bits one element of type `c` takes in the prefix bitmap of an array:
`prefix_bits_necessary_for_1_containee`, /repo/inc/tuplestore/data_type_info.h:1481. -/
def eltBits (c : Dti) : Nat := c.needsValid.toNat + c.hdr.size

/-- `new_size` of a container of elements of type `c` of size `old` when it is expanded to `n`
elements, of which `slots` are new, /repo/inc/tuplestore/data_type_info.h:1410-1434. -/
def grownSize (d c : Dti) (old n slots : Nat) : Nat :=
  if c.isBit then w32 (d.offBitmap + bitmapBytes (c.eltBits * n))
  else if !c.isVar then
    w32 (d.offBitmap + bitmapBytes (w32 (n * c.needsValid.toNat)) + w32 (c.hdr.size * n))
  else w32 (old + w32 (d.w * slots))

/-- `can_expand_container`, /repo/inc/tuplestore/data_type_info.h:1378-1440. -/
def canExpand (d : Dti) (m : Bytes) (index slots inc : Nat) : Option Bool :=
  if !d.isVarCount then some false
  else do
    let n ← d.getCount m
    if slots + n ≥ 4294967296 then pure false
    else if index > n then pure false
    else if slots = 0 then pure true
    else do
      let c ← d.cont
      let old ← d.getSize m
      pure (fits d.hdr.maxSize old (d.grownSize c old (n + slots) slots) inc)

/-- The branch of `expand_container` for elements that are bit fields,
/repo/inc/tuplestore/data_type_info.h:1487-1509. -/
def growBit (d c : Dti) (m : Bytes) (n index slots : Nat) : Option Bytes := do
  let pb := c.eltBits
  let m ← copyBits d.offBitmap pb m
    ((List.range (n - index)).map (fun i => ((n - 1 - i) * pb, (n + slots - 1 - i) * pb)))
  let m ← zeroBits d.offBitmap pb m ((List.range slots).map (fun i => (index + i) * pb))
  zeroTail m d.offBitmap ((n + slots) * pb)

/-- Moving and resetting is-valid bits, /repo/inc/tuplestore/data_type_info.h:1534-1550. -/
def growValid (off : Nat) (m : Bytes) (n index slots : Nat) : Option Bytes := do
  let m ← copyBits off 1 m ((List.range (n - index)).map (fun i => (n - 1 - i, n + slots - 1 - i)))
  resetBits off m ((List.range slots).map (fun i => index + i))

/-- `memory_move` of everything behind the bitmap if the bitmap changes its size,
/repo/inc/tuplestore/data_type_info.h:1526-1532 and 1688-1693. -/
def shiftData (off old bo bn : Nat) (m : Bytes) : Option Bytes :=
  if bo ≠ bn then do moveIn m (off + bn) (off + bo) (← sub32 old (off + bo)) else some m

/-- The branch of `expand_container` for elements of a fixed size,
/repo/inc/tuplestore/data_type_info.h:1513-1570. -/
def growFixed (d c : Dti) (m : Bytes) (old n index slots : Nat) : Option Bytes := do
  let bn := bitmapBytes (w32 ((n + slots) * c.needsValid.toNat))
  let m ← shiftData d.offBitmap old (bitmapBytes (w32 (n * c.needsValid.toNat))) bn m
  let m ← whenB c.needsValid (fun m => growValid d.offBitmap m n index slots) m
  let first := d.offBitmap + bn
  let m ← moveIn m (first + w32 ((index + slots) * c.hdr.size)) (first + w32 (index * c.hdr.size))
    (w32 ((n - index) * c.hdr.size))
  let m ← zeroIn m (first + w32 (index * c.hdr.size)) (w32 (slots * c.hdr.size))
  whenB c.needsValid (fun m => zeroTail m d.offBitmap (n + slots)) m

/-- One iteration of the loop that adjusts the offset of element `i`,
/repo/inc/tuplestore/data_type_info.h:1587-1592, 1733-1738. -/
def fixOff (d : Dti) (g : Nat → Option Nat) (m : Bytes) (i : Nat) : Option Bytes := do
  let o ← loadVal m d.hdr.maxSize (d.offBitmap + i * d.w)
  if o ≠ 0 then do storeVal m d.hdr.maxSize (d.offBitmap + i * d.w) (← g o) else some m

def fixOffs (d : Dti) (g : Nat → Option Nat) : Bytes → List Nat → Option Bytes
  | m, [] => some m
  | m, i :: r => do
    let m ← d.fixOff g m i
    fixOffs d g m r

/-- The branch of `expand_container` for elements of variable size,
/repo/inc/tuplestore/data_type_info.h:1578-1592. -/
def growVar (d : Dti) (m : Bytes) (old n index slots : Nat) : Option Bytes := do
  let src := w32 (d.offBitmap + w32 (d.w * index))
  let dst := w32 (d.offBitmap + w32 (d.w * (index + slots)))
  let m ← moveIn m dst src (← sub32 old src)
  let m ← zeroIn m src (← sub32 dst src)
  d.fixOffs (fun o => some (w32 (o + (dst - src)))) m (List.range (n + slots))

/-- The final stores of size and element count, /repo/inc/tuplestore/data_type_info.h:1596-1599,
1742-1745. -/
def putPrefix (d : Dti) (m : Bytes) (s n : Nat) : Option Bytes := do
  let m ← whenB d.hasSizeP (fun m => storeVal m d.hdr.maxSize 0 s) m
  whenB d.hasCountP (fun m => storeVal m d.hdr.maxSize d.offCountP n) m

/-- The body of the three branches. -/
def growBody (d c : Dti) (m : Bytes) (old n index slots : Nat) : Option Bytes :=
  if c.isBit then d.growBit c m n index slots
  else if !c.isVar then d.growFixed c m old n index slots
  else d.growVar m old n index slots

/-- `expand_container`, /repo/inc/tuplestore/data_type_info.h:1442-1601. -/
def expand (d : Dti) (m : Bytes) (index slots inc : Nat) : Option (Bytes × Bool) :=
  if !d.isVarCount then some (m, false)
  else do
    let n ← d.getCount m
    if slots + n ≥ 4294967296 then pure (m, false)
    else if index > n then pure (m, false)
    else if slots = 0 then pure (m, true)
    else do
      let c ← d.cont
      let old ← d.getSize m
      let new := d.grownSize c old (n + slots) slots
      if !fits d.hdr.maxSize old new inc then pure (m, false)
      else do
        let m ← d.growBody c m old n index slots
        let m ← d.putPrefix m new (n + slots)
        pure (m, true)

/-- `can_discard_from_container`, /repo/inc/tuplestore/data_type_info.h:1603-1619. -/
def canDiscard (d : Dti) (m : Bytes) (index slots : Nat) : Option Bool :=
  if !d.isVarCount then some false
  else do
    let n ← d.getCount m
    if index ≥ n then pure false
    else pure (slots ≤ n - index)

/-- The branch of `discard_from_container` for bit fields,
/repo/inc/tuplestore/data_type_info.h:1648-1661. -/
def shrinkBit (d c : Dti) (m : Bytes) (n index slots : Nat) : Option (Bytes × Nat) := do
  let pb := c.eltBits
  let s ← u32 (d.offBitmap + bitmapBytes (pb * (n - slots)))
  let m ← copyBits d.offBitmap pb m
    ((List.range (n - (index + slots))).map (fun i => ((index + slots + i) * pb, (index + i) * pb)))
  pure (m, s)

/-- Moving of is-valid bits, /repo/inc/tuplestore/data_type_info.h:1677-1686. -/
def shrinkValid (d : Dti) (m : Bytes) (n index slots : Nat) : Option Bytes :=
  copyBits d.offBitmap 1 m
    ((List.range (n - (index + slots))).map (fun i => (index + slots + i, index + i)))

/-- The branch of `discard_from_container` for elements of a fixed size,
/repo/inc/tuplestore/data_type_info.h:1665-1700. -/
def shrinkFixed (d c : Dti) (m : Bytes) (old n index slots : Nat) : Option (Bytes × Nat) := do
  let bn := bitmapBytes ((n - slots) * c.needsValid.toNat)
  let s ← u32 (d.offBitmap + bn + c.hdr.size * (n - slots))
  let m ← whenB c.needsValid (fun m => d.shrinkValid m n index slots) m
  let m ← shiftData d.offBitmap old (bitmapBytes (n * c.needsValid.toNat)) bn m
  let first := d.offBitmap + bn
  let m ← moveIn m (first + index * c.hdr.size) (first + (index + slots) * c.hdr.size)
    ((n - (index + slots)) * c.hdr.size)
  pure (m, s)

/-- The loop that sets the elements to be discarded to NULL,
/repo/inc/tuplestore/data_type_info.h:1705-1709. -/
def nullAll (d : Dti) : Bytes → List Nat → Option Bytes
  | m, [] => some m
  | m, i :: r => do
    let p ← d.posInfo m i
    let (m, _) ← d.setNull m i p
    nullAll d m r

/-- The branch of `discard_from_container` for elements of variable size,
/repo/inc/tuplestore/data_type_info.h:1704-1738. -/
def shrinkVar (d : Dti) (m : Bytes) (n index slots : Nat) : Option (Bytes × Nat) := do
  let m ← d.nullAll m ((List.range slots).map (fun i => index + i))
  let old ← d.getSize m
  let s ← sub32 old (d.w * slots)
  let src := d.offBitmap + d.w * (index + slots)
  let dst := d.offBitmap + d.w * index
  let m ← moveIn m dst src (← sub32 old src)
  let m ← d.fixOffs (fun o => sub32 o (src - dst)) m (List.range (n - slots))
  pure (m, s)

/-- The three branches. -/
def shrinkBody (d c : Dti) (m : Bytes) (old n index slots : Nat) : Option (Bytes × Nat) :=
  if c.isBit then d.shrinkBit c m n index slots
  else if !c.isVar then d.shrinkFixed c m old n index slots
  else d.shrinkVar m n index slots

/-- `discard_from_container`, /repo/inc/tuplestore/data_type_info.h:1621-1747. The arithmetic
cannot wrap on a well formed container: it is checked. -/
def discard (d : Dti) (m : Bytes) (index slots : Nat) : Option (Bytes × Bool) :=
  if !d.isVarCount then some (m, false)
  else do
    let n ← d.getCount m
    if index ≥ n then pure (m, false)
    else if n - index < slots then pure (m, false)
    else if slots = 0 then pure (m, true)
    else do
      let c ← d.cont
      let old ← d.getSize m
      let (m, s) ← d.shrinkBody c m old n index slots
      let m ← d.putPrefix m s (n - slots)
      pure (m, true)

/-! ### the same at a position inside of a tuple -/

/-- `get_max_size_increment_allowed_for_element_in_tuple`, /repo/src/tuple.c:108-154;
`inc` is `max_size_increment_allowed` so far. -/
def maxInc (d : Dti) (m : Bytes) (inc : Nat) : List Nat → Option Nat
  | [] =>
    if !d.isVar then some 0
    else do pure (min inc (← sub32 d.hdr.maxSize (← d.getSize m)))
  | i :: pa =>
    if !d.isVar then some 0
    else do
      let inc := min inc (← sub32 d.hdr.maxSize (← d.getSize m))
      if !d.isCont then pure 0
      else do
        if i ≥ (← d.getCount m) then pure 0
        else do
          let p ← d.posInfo m i
          match ← d.ptrAt m p with
          | none => pure 0
          | some o => maxInc p.ty (m.drop o) inc pa

/-- `get_element_count_for_element_from_tuple`, /repo/src/tuple.c:314-349. -/
def elemCount (d : Dti) (m : Bytes) : List Nat → Option Nat
  | [] => d.getCount m
  | i :: pa =>
    if !d.isCont then some 0
    else do
      if i ≥ (← d.getCount m) then pure 0
      else do
        let p ← d.posInfo m i
        match ← d.ptrAt m p with
        | none => pure 0
        | some o => elemCount p.ty (m.drop o) pa

/-- The loop of `can_expand_element_count_for_element_in_tuple`, /repo/src/tuple.c:351-393. -/
def canExpandElemI (d : Dti) (m : Bytes) (index slots inc : Nat) : List Nat → Option Bool
  | [] => d.canExpand m index slots inc
  | i :: pa =>
    if !d.isCont then some false
    else do
      if i ≥ (← d.getCount m) then pure false
      else do
        let inc := min inc (← sub32 d.hdr.maxSize (← d.getSize m))
        let p ← d.posInfo m i
        match ← d.ptrAt m p with
        | none => pure false
        | some o => canExpandElemI p.ty (m.drop o) index slots inc pa

/-- `can_expand_element_count_for_element_in_tuple`, /repo/src/tuple.c:351-393. -/
def canExpandElem (d : Dti) (m : Bytes) (pa : List Nat) (index slots inc : Nat) : Option Bool :=
  match d.typeAt pa with
  | none => some false
  | some t => if !t.isVarCount then some false else d.canExpandElemI m index slots inc pa

/-- `expand_element_count_for_element_in_tuple_INTERNAL`, /repo/src/tuple.c:395-437. -/
def expandElemI (d : Dti) (m : Bytes) (index slots inc : Nat) : List Nat → Option (Bytes × Bool)
  | [] => d.expand m index slots inc
  | i :: pa =>
    if !d.isCont then some (m, false)
    else do
      if i ≥ (← d.getCount m) then pure (m, false)
      else do
        let inc := min inc (← sub32 d.hdr.maxSize (← d.getSize m))
        let p ← d.posInfo m i
        let (m, _) ← d.moveEnd m i p
        match ← d.ptrAt m p with
        | none => pure (m, false)
        | some o => d.inChild m p o true (fun c => expandElemI p.ty c index slots inc pa)

/-- `expand_element_count_for_element_in_tuple`, /repo/src/tuple.c:440-449. -/
def expandElem (d : Dti) (m : Bytes) (pa : List Nat) (index slots inc : Nat) : Option (Bytes × Bool) :=
  match d.typeAt pa with
  | none => some (m, false)
  | some t => if !t.isVarCount then some (m, false) else d.expandElemI m index slots inc pa

/-- The loop of `can_discard_elements_from_element_in_tuple`, /repo/src/tuple.c:451-492. -/
def canDiscardElemI (d : Dti) (m : Bytes) (index slots : Nat) : List Nat → Option Bool
  | [] => d.canDiscard m index slots
  | i :: pa =>
    if !d.isCont then some false
    else do
      if i ≥ (← d.getCount m) then pure false
      else do
        let p ← d.posInfo m i
        match ← d.ptrAt m p with
        | none => pure false
        | some o => canDiscardElemI p.ty (m.drop o) index slots pa

/-- `can_discard_elements_from_element_in_tuple`, /repo/src/tuple.c:451-492. -/
def canDiscardElem (d : Dti) (m : Bytes) (pa : List Nat) (index slots : Nat) : Option Bool :=
  match d.typeAt pa with
  | none => some false
  | some t => if !t.isVarCount then some false else d.canDiscardElemI m index slots pa

/-- `discard_elements_from_element_in_tuple_INTERNAL`, /repo/src/tuple.c:497-535. -/
def discardElemI (d : Dti) (m : Bytes) (index slots : Nat) : List Nat → Option (Bytes × Bool)
  | [] => d.discard m index slots
  | i :: pa =>
    if !d.isCont then some (m, false)
    else do
      if i ≥ (← d.getCount m) then pure (m, false)
      else do
        let p ← d.posInfo m i
        let (m, _) ← d.moveEnd m i p
        match ← d.ptrAt m p with
        | none => pure (m, false)
        | some o => d.inChild m p o true (fun c => discardElemI p.ty c index slots pa)

/-- `discard_elements_from_element_in_tuple`, /repo/src/tuple.c:537-547. -/
def discardElem (d : Dti) (m : Bytes) (pa : List Nat) (index slots : Nat) : Option (Bytes × Bool) :=
  match d.typeAt pa with
  | none => some (m, false)
  | some t => if !t.isVarCount then some (m, false) else d.discardElemI m index slots pa

end Dti
end TS
