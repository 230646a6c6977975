import Verif.Lookup
import Verif.ApiInit
/-
The computations with page sizes, header sizes and tuple counts as the code does them, in `uint32_t` that wraps around.
`Slotted.minPageSize`, `Slotted.init`, … have a fault where a computation wraps; the functions here go on with the wrapped value.
The C expressions reduce modulo 2^32 after every operation; here this is done once at the end of each sum, which gives the same number.
-/
namespace TS

/-- Subtraction of `uint32_t` values. -/
def subW (a b : Nat) : Nat := (a + (4294967296 - b % 4294967296)) % 4294967296

namespace Slotted

/-- `get_minimum_page_size_for_slotted_page`, /repo/src/page_layout_slotted.c:118-134. -/
def minPageSizeW (h : Nat) (d : SizeDef) (n : Nat) : Nat :=
  let m8 := (1 + h + (4 + n) * 1 + n * minTupleSize d) % 4294967296
  if m8 ≤ 2 ^ 8 then m8
  else
    let m16 := (2 + h + (4 + n) * 2 + n * minTupleSize d) % 4294967296
    if m16 ≤ 2 ^ 16 then m16
    else
      let m24 := (3 + h + (4 + n) * 3 + n * minTupleSize d) % 4294967296
      if m24 ≤ 2 ^ 24 then m24
      else (4 + h + (4 + n) * 4 + n * minTupleSize d) % 4294967296

/-- `get_space_to_be_allotted_to_all_tuples_slotted_page`, /repo/src/page_layout_slotted.c:753-756. -/
def spaceToBeAllottedW (h ps : Nat) : Nat := subW ps (vsz ps + h + 4 * vsz ps)

/-- `get_maximum_tuple_count_slotted_page`, /repo/src/page_layout_slotted.c:136-139. A division by zero, for a sum that wraps to 0,
is a fault. -/
def maxTupleCountW (h ps : Nat) (d : SizeDef) : Option Nat :=
  let q := (minTupleSize d + overhead ps) % 4294967296
  if q = 0 then none else some (spaceToBeAllottedW h ps / q)

/-- `get_maximum_tuple_size_slotted_page`, /repo/src/page_layout_slotted.c:141-150. -/
def maxTupleSizeW (h ps : Nat) : Nat :=
  if spaceToBeAllottedW h ps > overhead ps then subW (spaceToBeAllottedW h ps) (overhead ps) else 0

/-- The second half of `init_slotted_page`, /repo/src/page_layout_slotted.c:162-178. The offsets do not wrap before a store has gone
outside of the page, which is a fault. -/
def initMeta (pg : Bytes) (ps : Nat) : Option (Bytes × Bool) := do
  let pg ← storeVal pg ps (← offOcc pg ps) 0
  let pg ← storeVal pg ps (← offCount pg ps) 0
  let pg ← storeVal pg ps (← offTomb pg ps) 0
  let pg ← storeVal pg ps (← offEofs pg ps) ps
  pure (pg, true)

/-- `init_slotted_page`, /repo/src/page_layout_slotted.c:152-179. -/
def initW (pg : Bytes) (ps h : Nat) (d : SizeDef) : Option (Bytes × Bool) := do
  if ps < minPageSizeW h d 1 then pure (pg, false)
  else do
    let (pg, ok) ← initHdr pg ps h
    if !ok then pure (pg, false) else initMeta pg ps

end Slotted

namespace Fixed

/-- `get_minimum_page_size_for_fixed_array_page`, /repo/src/page_layout_fixed_array.c:68-84. -/
def minPageSizeW (h : Nat) (d : SizeDef) (n : Nat) : Nat :=
  let m8 := (1 + h + 1 * 2 + bitmapBytes n + n * d.size) % 4294967296
  if m8 ≤ 2 ^ 8 then m8
  else
    let m16 := (2 + h + 2 * 2 + bitmapBytes n + n * d.size) % 4294967296
    if m16 ≤ 2 ^ 16 then m16
    else
      let m24 := (3 + h + 3 * 2 + bitmapBytes n + n * d.size) % 4294967296
      if m24 ≤ 2 ^ 24 then m24
      else (4 + h + 4 * 2 + bitmapBytes n + n * d.size) % 4294967296

/-- First line of the two functions below, /repo/src/page_layout_fixed_array.c:88,95. -/
def spacePlusBitsW (h ps : Nat) : Nat := subW ps (vsz ps + h + vsz ps * 2)

/-- `get_maximum_tuple_count_fixed_array_page`, /repo/src/page_layout_fixed_array.c:86-91 (the quotient is 64 bit, the result 32 bit). -/
def maxTupleCountW (h ps : Nat) (d : SizeDef) : Nat := spacePlusBitsW h ps * 8 / (d.size * 8 + 1) % 4294967296

/-- `get_maximum_tuple_size_fixed_array_page`, /repo/src/page_layout_fixed_array.c:93-99. -/
def maxTupleSizeW (h ps : Nat) : Nat := subW (spacePlusBitsW h ps) 1

/-- The second half of `init_fixed_array_page`, /repo/src/page_layout_fixed_array.c:111-124. -/
def initMeta (pg : Bytes) (ps : Nat) (d : SizeDef) : Option (Bytes × Bool) := do
  let pg ← storeVal pg ps (← offCount pg ps) 0
  let pg ← storeVal pg ps (← offTomb pg ps) 0
  let o ← offBits pg ps
  let c ← capacity pg ps d
  let pg ← zeroIn pg o (bitmapBytes c)
  pure (pg, true)

/-- `init_fixed_array_page`, /repo/src/page_layout_fixed_array.c:101-125. -/
def initW (pg : Bytes) (ps h : Nat) (d : SizeDef) : Option (Bytes × Bool) := do
  if ps < minPageSizeW h d 1 then pure (pg, false)
  else do
    let (pg, ok) ← initHdr pg ps h
    if !ok then pure (pg, false) else initMeta pg ps d

end Fixed

namespace Api

/-- `get_minimum_page_size`, /repo/src/page_layout.c:20-30. -/
def minPageSizeW (h : Nat) (d : SizeDef) (n : Nat) : Nat :=
  if slotted d then Slotted.minPageSizeW h d n else Fixed.minPageSizeW h d n

/-- `get_maximum_tuple_count_on_page`, /repo/src/page_layout.c:32-42. -/
def maxTupleCountW (h ps : Nat) (d : SizeDef) : Option Nat :=
  if slotted d then Slotted.maxTupleCountW h ps d else some (Fixed.maxTupleCountW h ps d)

/-- `get_maximum_tuple_size_accomodatable_on_page`, /repo/src/page_layout.c:44-54. -/
def maxTupleSizeW (h ps : Nat) (d : SizeDef) : Nat :=
  if slotted d then Slotted.maxTupleSizeW h ps else Fixed.maxTupleSizeW h ps

/-- `init_page`, /repo/src/page_layout.c:56-66. -/
def initPageW (pg : Bytes) (ps h : Nat) (d : SizeDef) : Option (Bytes × Bool) :=
  if slotted d then Slotted.initW pg ps h d else Fixed.initW pg ps h d

end Api

end TS
