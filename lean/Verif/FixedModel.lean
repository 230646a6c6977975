import Verif.SlottedModel
/-
Model of /repo/src/page_layout_fixed_array.c, function by function, on the bytes of the page.
-/
namespace TS

/-- One byte with bit `k` set: the right hand side of cutlery `set_bit`
(external library, used by /repo/src/page_layout_fixed_array.c:157,219,223). -/
def byteSet (b : UInt8) (k : Nat) : UInt8 := UInt8.ofNat (b.toNat ||| 2 ^ k)

/-- One byte with bit `k` reset: the right hand side of cutlery `reset_bit`. -/
def byteReset (b : UInt8) (k : Nat) : UInt8 := UInt8.ofNat (b.toNat &&& (255 ^^^ 2 ^ k))

/-- cutlery `get_bit(m + off, i)`: bit `i % 8` of byte `i / 8` (external library, used by
/repo/src/page_layout_fixed_array.c). -/
def getBit (m : Bytes) (off i : Nat) : Option Bool := do
  let b ← m[off + i / 8]?
  pure (b.toNat.testBit (i % 8))

/-- cutlery `set_bit(m + off, i)` (external library). -/
def setBit (m : Bytes) (off i : Nat) : Option Bytes := do
  let b ← m[off + i / 8]?
  store m (off + i / 8) [byteSet b (i % 8)]

/-- cutlery `reset_bit(m + off, i)` (external library). -/
def resetBit (m : Bytes) (off i : Nat) : Option Bytes := do
  let b ← m[off + i / 8]?
  store m (off + i / 8) [byteReset b (i % 8)]

/-- The C idiom `v ? set_bit(m, i) : reset_bit(m, i)`,
/repo/src/page_layout_fixed_array.c:219,223,391,392. -/
def putBit (m : Bytes) (off i : Nat) (v : Bool) : Option Bytes :=
  if v then setBit m off i else resetBit m off i

namespace Fixed

/-- `get_offset_to_tuple_count`, /repo/src/page_layout_fixed_array.c:27-30. -/
def offCount (pg : Bytes) (ps : Nat) : Option Nat := offEndHdr pg ps

/-- `get_offset_to_tomb_stone_count`, /repo/src/page_layout_fixed_array.c:32-35. -/
def offTomb (pg : Bytes) (ps : Nat) : Option Nat := do u32 ((← offCount pg ps) + vsz ps)

/-- `get_offset_to_is_valid_bitmap`, /repo/src/page_layout_fixed_array.c:37-40. -/
def offBits (pg : Bytes) (ps : Nat) : Option Nat := do u32 ((← offTomb pg ps) + vsz ps)

/-- `get_tuple_capacity`, /repo/src/page_layout_fixed_array.c:18-21 (the product and quotient are
64 bit, the result is returned as a 32 bit value). -/
def capacity (pg : Bytes) (ps : Nat) (d : SizeDef) : Option Nat := do
  let a ← sub32 ps (← offBits pg ps)
  u32 (a * 8 / (d.size * 8 + 1))

/-- `get_offset_to_tuples`, /repo/src/page_layout_fixed_array.c:42-45. -/
def offTuples (pg : Bytes) (ps : Nat) (d : SizeDef) : Option Nat := do
  u32 ((← offBits pg ps) + bitmapBytes (← capacity pg ps d))

/-- `get_offset_to_ith_tuple`, /repo/src/page_layout_fixed_array.c:47-50. -/
def offIth (pg : Bytes) (ps : Nat) (d : SizeDef) (i : Nat) : Option Nat := do
  u32 ((← offTuples pg ps d) + i * d.size)

/-- `get_tuple_count_fixed_array_page`, /repo/src/page_layout_fixed_array.c:127-131. -/
def tupleCount (pg : Bytes) (ps : Nat) : Option Nat := do loadVal pg ps (← offCount pg ps)

/-- `get_tomb_stone_count_fixed_array_page`, /repo/src/page_layout_fixed_array.c:133-137. -/
def tombCount (pg : Bytes) (ps : Nat) : Option Nat := do loadVal pg ps (← offTomb pg ps)

/-- `get_offset_to_start_of_free_space`, /repo/src/page_layout_fixed_array.c:52-58. -/
def startFree (pg : Bytes) (ps : Nat) (d : SizeDef) : Option Nat := do
  offIth pg ps d (← tupleCount pg ps)

/-- `get_free_space_fixed_array_page`, /repo/src/page_layout_fixed_array.c:447-450
(the end of free space is the page size, lines 60-63). -/
def freeSpace (pg : Bytes) (ps : Nat) (d : SizeDef) : Option Nat := do
  sub32 ps (← startFree pg ps d)

/-- `get_minimum_page_size_for_fixed_array_page`, /repo/src/page_layout_fixed_array.c:68-84. -/
def minPageSize (h : Nat) (d : SizeDef) (n : Nat) : Option Nat := do
  let m8 ← u32 (1 + h + 1 * 2 + bitmapBytes n + n * d.size)
  if m8 ≤ 2 ^ 8 then pure m8
  else do
    let m16 ← u32 (2 + h + 2 * 2 + bitmapBytes n + n * d.size)
    if m16 ≤ 2 ^ 16 then pure m16
    else do
      let m24 ← u32 (3 + h + 3 * 2 + bitmapBytes n + n * d.size)
      if m24 ≤ 2 ^ 24 then pure m24
      else u32 (4 + h + 4 * 2 + bitmapBytes n + n * d.size)

/-- First line of the three functions below:
`space_allotted_to_all_tuples_PLUS_is_valid_bitmap_size_in_bytes`,
/repo/src/page_layout_fixed_array.c:88,95,482. -/
def spacePlusBits (h ps : Nat) : Option Nat := do sub32 ps (← u32 (vsz ps + h + vsz ps * 2))

/-- `get_maximum_tuple_count_fixed_array_page`, /repo/src/page_layout_fixed_array.c:86-91. -/
def maxTupleCount (h ps : Nat) (d : SizeDef) : Option Nat := do
  let a ← spacePlusBits h ps
  u32 (a * 8 / (d.size * 8 + 1))

/-- `get_maximum_tuple_size_fixed_array_page`, /repo/src/page_layout_fixed_array.c:93-99. -/
def maxTupleSizeOnPage (h ps : Nat) : Option Nat := do
  let a ← spacePlusBits h ps
  sub32 a 1

/-- `get_space_to_be_allotted_to_all_tuples_fixed_array_page`,
/repo/src/page_layout_fixed_array.c:479-485. -/
def spaceToBeAllotted (h ps : Nat) (d : SizeDef) : Option Nat := do
  let a ← spacePlusBits h ps
  let c ← u32 (a * 8 / (d.size * 8 + 1))
  sub32 a (bitmapBytes c)

/-- `get_space_allotted_to_all_tuples_fixed_array_page`,
/repo/src/page_layout_fixed_array.c:474-477. -/
def spaceAllotted (pg : Bytes) (ps : Nat) (d : SizeDef) : Option Nat := do
  sub32 ps (← offTuples pg ps d)

/-- `init_fixed_array_page`, /repo/src/page_layout_fixed_array.c:101-125 (cutlery
`reset_all_bits(b, n)` zeroes `bitmap_size_in_bytes(n)` bytes). -/
def init (pg : Bytes) (ps h : Nat) (d : SizeDef) : Option (Bytes × Bool) := do
  let m ← minPageSize h d 1
  if ps < m then pure (pg, false)
  else do
    let (pg, ok) ← initPageHeader pg ps h
    if !ok then pure (pg, false)
    else do
      let pg ← storeVal pg ps (← offCount pg ps) 0
      let pg ← storeVal pg ps (← offTomb pg ps) 0
      let o ← offBits pg ps
      let c ← capacity pg ps d
      let pg ← zeroIn pg o (bitmapBytes c)
      pure (pg, true)

/-- `can_append_tuple_fixed_array_page`, /repo/src/page_layout_fixed_array.c:179-182. -/
def canAppend (pg : Bytes) (ps : Nat) (d : SizeDef) : Option Bool := do
  let n ← tupleCount pg ps
  let c ← capacity pg ps d
  pure (decide (n < c))

/-- `append_tuple_fixed_array_page`, /repo/src/page_layout_fixed_array.c:139-177. -/
def append (pg : Bytes) (ps : Nat) (d : SizeDef) (ext : Option Bytes) :
    Option (Bytes × Bool) := do
  if !(← canAppend pg ps d) then pure (pg, false)
  else do
    let n ← loadVal pg ps (← offCount pg ps)
    let n ← u32 (n + 1)
    let pg ← storeVal pg ps (← offCount pg ps) n
    let idx := n - 1
    match ext with
    | some t => do
      let pg ← setBit pg (← offBits pg ps) idx
      let slot ← offIth pg ps d idx
      let b ← load t 0 d.size
      let pg ← store pg slot b
      pure (pg, true)
    | none => do
      let pg ← resetBit pg (← offBits pg ps) idx
      let z ← loadVal pg ps (← offTomb pg ps)
      let z ← u32 (z + 1)
      let pg ← storeVal pg ps (← offTomb pg ps) z
      pure (pg, true)

/-- The bit copying loop of `insert_tuple_fixed_array_page`,
/repo/src/page_layout_fixed_array.c:215-220: `k` iterations with `i` going down from
`idx + k` to `idx + 1`; `o` is the offset of the bitmap. -/
def rotBitsLoop (o idx : Nat) : Nat → Bytes → Option Bytes
  | 0, pg => some pg
  | k + 1, pg => do
    let v ← getBit pg o (idx + k + 1 - 1)
    let pg ← putBit pg o (idx + k + 1) v
    rotBitsLoop o idx k pg

/-- `insert_tuple_fixed_array_page`, /repo/src/page_layout_fixed_array.c:184-227. -/
def insert (pg : Bytes) (ps : Nat) (d : SizeDef) (idx : Nat) (ext : Option Bytes) :
    Option (Bytes × Bool) := do
  if idx > (← tupleCount pg ps) then pure (pg, false)
  else do
    let (pg, ok) ← append pg ps d ext
    if !ok then pure (pg, false)
    else do
      let n ← tupleCount pg ps
      let last ← sub32 n 1
      if idx = last then pure (pg, true)
      else do
        let o ← offBits pg ps
        let v ← getBit pg o last
        let pg ← rotBitsLoop o idx (last - idx) pg
        let pg ← putBit pg o idx v
        let cnt ← sub32 n idx
        let len ← u32 (cnt * d.size)
        let pg ← rotRight pg (← offIth pg ps d idx) len d.size
        pure (pg, true)

/-- `can_update_tuple_fixed_array_page`, /repo/src/page_layout_fixed_array.c:273-276. -/
def canUpdate (pg : Bytes) (ps idx : Nat) : Option Bool := do
  let n ← tupleCount pg ps
  pure (decide (idx < n))

/-- First half of `update_tuple_fixed_array_page`, /repo/src/page_layout_fixed_array.c:240-249:
make the slot a tomb stone. -/
def updateDiscard (pg : Bytes) (ps idx : Nat) : Option Bytes := do
  let o ← offBits pg ps
  if ← getBit pg o idx then do
    let pg ← resetBit pg o idx
    let z ← loadVal pg ps (← offTomb pg ps)
    let z ← u32 (z + 1)
    storeVal pg ps (← offTomb pg ps) z
  else pure pg

/-- Second half of `update_tuple_fixed_array_page`, /repo/src/page_layout_fixed_array.c:254-268:
fill the tomb stone. -/
def updatePlace (pg : Bytes) (ps : Nat) (d : SizeDef) (idx : Nat) (t : Bytes) : Option Bytes := do
  let pg ← setBit pg (← offBits pg ps) idx
  let z ← loadVal pg ps (← offTomb pg ps)
  let z ← sub32 z 1
  let pg ← storeVal pg ps (← offTomb pg ps) z
  let slot ← offIth pg ps d idx
  let b ← load t 0 d.size
  store pg slot b

/-- `update_tuple_fixed_array_page`, /repo/src/page_layout_fixed_array.c:229-271. -/
def update (pg : Bytes) (ps : Nat) (d : SizeDef) (idx : Nat) (ext : Option Bytes) :
    Option (Bytes × Bool) := do
  if !(← canUpdate pg ps idx) then pure (pg, false)
  else do
    let pg ← updateDiscard pg ps idx
    match ext with
    | none => pure (pg, true)
    | some t => do
      let pg ← updatePlace pg ps d idx t
      pure (pg, true)

/-- Loop of `discard_tuple_fixed_array_page`, /repo/src/page_layout_fixed_array.c:292-305:
`k` iterations with `i` going up from `i`; `o` is the offset of the bitmap. -/
def discardLoop (ps : Nat) (d : SizeDef) (o : Nat) : Nat → Nat → Bytes → Option Bytes
  | 0, _, pg => some pg
  | k + 1, i, pg => do
    let pg ← (if ← getBit pg o i then do
        let pg ← setBit pg o (i - 1)
        moveIn pg (← offIth pg ps d (i - 1)) (← offIth pg ps d i) d.size
      else resetBit pg o (i - 1) : Option Bytes)
    discardLoop ps d o k (i + 1) pg

/-- `discard_tuple_fixed_array_page`, /repo/src/page_layout_fixed_array.c:278-318. -/
def discard (pg : Bytes) (ps : Nat) (d : SizeDef) (idx : Nat) : Option (Bytes × Bool) := do
  if idx ≥ (← tupleCount pg ps) then pure (pg, false)
  else do
    let n ← loadVal pg ps (← offCount pg ps)
    let o ← offBits pg ps
    let valid ← getBit pg o idx
    let pg ← discardLoop ps d o (n - (idx + 1)) (idx + 1) pg
    let n ← sub32 n 1
    let pg ← storeVal pg ps (← offCount pg ps) n
    if valid then pure (pg, true)
    else do
      let z ← loadVal pg ps (← offTomb pg ps)
      let z ← sub32 z 1
      let pg ← storeVal pg ps (← offTomb pg ps) z
      pure (pg, true)

/-- Loop of `discard_trailing_tomb_stones_fixed_array_page`,
/repo/src/page_layout_fixed_array.c:334-340. Arguments: tuple count, tomb stone count, number
discarded. -/
def trailLoop (pg : Bytes) (o : Nat) : Nat → Nat → Nat → Option (Nat × Nat × Nat)
  | 0, z, k => some (0, z, k)
  | n + 1, z, k => do
    if ← getBit pg o n then pure (n + 1, z, k)
    else do
      let z ← sub32 z 1
      trailLoop pg o n z (k + 1)

/-- `discard_trailing_tomb_stones_fixed_array_page`,
/repo/src/page_layout_fixed_array.c:320-348. -/
def discardTrailing (pg : Bytes) (ps : Nat) : Option (Bytes × Nat) := do
  let n ← loadVal pg ps (← offCount pg ps)
  let z ← loadVal pg ps (← offTomb pg ps)
  let (n, z, k) ← trailLoop pg (← offBits pg ps) n z 0
  let pg ← storeVal pg ps (← offCount pg ps) n
  let pg ← storeVal pg ps (← offTomb pg ps) z
  pure (pg, k)

/-- `discard_all_tuples_fixed_array_page`, /repo/src/page_layout_fixed_array.c:350-359. -/
def discardAll (pg : Bytes) (ps : Nat) : Option Bytes := do
  let pg ← storeVal pg ps (← offCount pg ps) 0
  storeVal pg ps (← offTomb pg ps) 0

/-- `exists_tuple_fixed_array_page`, /repo/src/page_layout_fixed_array.c:361-370. -/
def existsTuple (pg : Bytes) (ps idx : Nat) : Option Bool := do
  if idx ≥ (← tupleCount pg ps) then pure false
  else getBit pg (← offBits pg ps) idx

/-- `swap_tuples_fixed_array_page`, /repo/src/page_layout_fixed_array.c:372-402. -/
def swap (pg : Bytes) (ps : Nat) (d : SizeDef) (i j : Nat) : Option (Bytes × Bool) := do
  let n ← tupleCount pg ps
  if i ≥ n ∨ j ≥ n then pure (pg, false)
  else if i = j then pure (pg, true)
  else do
    let o ← offBits pg ps
    let bi ← getBit pg o i
    let bj ← getBit pg o j
    if !bi && !bj then pure (pg, true)
    else do
      let pg ← putBit pg o j bi
      let pg ← putBit pg o i bj
      let pg ← swapIn pg (← offIth pg ps d i) (← offIth pg ps d j) d.size
      pure (pg, true)

/-- `get_nth_tuple_fixed_array_page`, /repo/src/page_layout_fixed_array.c:404-416. Returns the
offset of the tuple in the page, `some none` being the NULL pointer. -/
def getNth (pg : Bytes) (ps : Nat) (d : SizeDef) (idx : Nat) : Option (Option Nat) := do
  if idx ≥ (← tupleCount pg ps) then pure none
  else if !(← getBit pg (← offBits pg ps) idx) then pure none
  else do
    let o ← offIth pg ps d idx
    pure (some o)

/-- `run_page_compaction_fixed_array_page`, /repo/src/page_layout_fixed_array.c:432-436. -/
def compact (pg : Bytes) : Option (Bytes × Bool) := some (pg, false)

/-- `zero_out_free_space_fixed_array_page`, /repo/src/page_layout_fixed_array.c:438-445. -/
def zeroOut (pg : Bytes) (ps : Nat) (d : SizeDef) : Option (Bytes × Bool) := do
  if 0 = (← freeSpace pg ps d) then pure (pg, false)
  else do
    let s ← startFree pg ps d
    let n ← sub32 ps s
    let pg ← zeroIn pg s n
    pure (pg, true)

/-- `get_space_occupied_by_tuples_fixed_array_page`,
/repo/src/page_layout_fixed_array.c:452-455. -/
def spaceOccBy (d : SizeDef) (a b : Nat) : Option Nat := do
  let n ← sub32 b a
  u32 ((n + 1) * d.size)

/-- `get_space_occupied_by_all_tuples_fixed_array_page`,
/repo/src/page_layout_fixed_array.c:457-460. -/
def spaceOcc (pg : Bytes) (ps : Nat) (d : SizeDef) : Option Nat := do
  u32 ((← tupleCount pg ps) * d.size)

/-- `get_space_occupied_by_all_tomb_stones_fixed_array_page`,
/repo/src/page_layout_fixed_array.c:462-465. -/
def spaceTomb (pg : Bytes) (ps : Nat) (d : SizeDef) : Option Nat := do
  u32 ((← tombCount pg ps) * d.size)

/-- `get_space_to_be_occupied_by_tuple_fixed_array_page`,
/repo/src/page_layout_fixed_array.c:467-472. -/
def spaceFor (d : SizeDef) : Nat := d.size

/-- `get_additional_space_overhead_per_tuple_fixed_array_page`,
/repo/src/page_layout_fixed_array.c:487-490. -/
def overhead : Nat := 0

end Fixed
end TS
