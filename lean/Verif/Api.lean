import Verif.FixedModel
/-
Model of /repo/src/page_layout.c: the public page functions, which dispatch on the layout.
-/
namespace TS
namespace Api

/-- `get_page_layout_type`, /repo/src/page_layout.c:12-18, as used by the `switch` of every
function below: `true` is the slotted layout. -/
def slotted (d : SizeDef) : Bool := d.isVar

/-- `get_minimum_page_size`, /repo/src/page_layout.c:20-30. -/
def minPageSize (h : Nat) (d : SizeDef) (n : Nat) : Option Nat :=
  if slotted d then Slotted.minPageSize h d n else Fixed.minPageSize h d n

/-- `get_maximum_tuple_count_on_page`, /repo/src/page_layout.c:32-42. -/
def maxTupleCount (h ps : Nat) (d : SizeDef) : Option Nat :=
  if slotted d then Slotted.maxTupleCount h ps d else Fixed.maxTupleCount h ps d

/-- `get_maximum_tuple_size_accomodatable_on_page`, /repo/src/page_layout.c:44-54. -/
def maxTupleSizeOnPage (h ps : Nat) (d : SizeDef) : Option Nat :=
  if slotted d then Slotted.maxTupleSizeOnPage h ps else Fixed.maxTupleSizeOnPage h ps

/-- `init_page`, /repo/src/page_layout.c:56-66. -/
def initPage (pg : Bytes) (ps h : Nat) (d : SizeDef) : Option (Bytes × Bool) :=
  if slotted d then Slotted.init pg ps h d else Fixed.init pg ps h d

/-- `get_tuple_count_on_page`, /repo/src/page_layout.c:68-78. -/
def tupleCount (pg : Bytes) (ps : Nat) (d : SizeDef) : Option Nat :=
  if slotted d then Slotted.tupleCount pg ps else Fixed.tupleCount pg ps

/-- `get_tomb_stone_count_on_page`, /repo/src/page_layout.c:80-90. -/
def tombCount (pg : Bytes) (ps : Nat) (d : SizeDef) : Option Nat :=
  if slotted d then Slotted.tombCount pg ps else Fixed.tombCount pg ps

/-- `append_tuple_on_page`, /repo/src/page_layout.c:92-102. -/
def append (pg : Bytes) (ps : Nat) (d : SizeDef) (ext : Option Bytes) : Option (Bytes × Bool) :=
  if slotted d then Slotted.append pg ps d ext else Fixed.append pg ps d ext

/-- `can_append_tuple_on_page`, /repo/src/page_layout.c:104-114. -/
def canAppend (pg : Bytes) (ps : Nat) (d : SizeDef) (ext : Option Bytes) : Option Bool :=
  if slotted d then Slotted.canAppend pg ps d ext else Fixed.canAppend pg ps d

/-- `insert_tuple_on_page`, /repo/src/page_layout.c:116-126. -/
def insert (pg : Bytes) (ps : Nat) (d : SizeDef) (i : Nat) (ext : Option Bytes) :
    Option (Bytes × Bool) :=
  if slotted d then Slotted.insert pg ps d i ext else Fixed.insert pg ps d i ext

/-- `can_insert_tuple_on_page`, /repo/src/page_layout.c:128-132. -/
def canInsert (pg : Bytes) (ps : Nat) (d : SizeDef) (i : Nat) (ext : Option Bytes) :
    Option Bool := do
  let n ← tupleCount pg ps d
  if i ≤ n then canAppend pg ps d ext else pure false

/-- `update_tuple_on_page`, /repo/src/page_layout.c:134-144. -/
def update (pg : Bytes) (ps : Nat) (d : SizeDef) (i : Nat) (ext : Option Bytes) :
    Option (Bytes × Bool) :=
  if slotted d then Slotted.update pg ps d i ext else Fixed.update pg ps d i ext

/-- `can_update_tuple_on_page`, /repo/src/page_layout.c:146-156. -/
def canUpdate (pg : Bytes) (ps : Nat) (d : SizeDef) (i : Nat) (ext : Option Bytes) :
    Option Bool :=
  if slotted d then Slotted.canUpdate pg ps d i ext else Fixed.canUpdate pg ps i

/-- `discard_tuple_on_page`, /repo/src/page_layout.c:158-168. -/
def discard (pg : Bytes) (ps : Nat) (d : SizeDef) (i : Nat) : Option (Bytes × Bool) :=
  if slotted d then Slotted.discard pg ps d i else Fixed.discard pg ps d i

/-- `discard_all_tuples_on_page`, /repo/src/page_layout.c:170-185. -/
def discardAll (pg : Bytes) (ps : Nat) (d : SizeDef) : Option Bytes :=
  if slotted d then Slotted.discardAll pg ps else Fixed.discardAll pg ps

/-- `discard_trailing_tomb_stones_on_page`, /repo/src/page_layout.c:187-197. -/
def discardTrailing (pg : Bytes) (ps : Nat) (d : SizeDef) : Option (Bytes × Nat) :=
  if slotted d then Slotted.discardTrailing pg ps else Fixed.discardTrailing pg ps

/-- `exists_tuple_on_page`, /repo/src/page_layout.c:212-222. -/
def existsTuple (pg : Bytes) (ps : Nat) (d : SizeDef) (i : Nat) : Option Bool :=
  if slotted d then Slotted.existsTuple pg ps i else Fixed.existsTuple pg ps i

/-- Loop of `get_trailing_tomb_stones_count_on_page`, /repo/src/page_layout.c:202-208: arguments
are `tuple_count_concerned` and `result`. -/
def trailingLoop (pg : Bytes) (ps : Nat) (d : SizeDef) : Nat → Nat → Option Nat
  | 0, r => some r
  | n + 1, r => do
    if ← existsTuple pg ps d n then pure r else trailingLoop pg ps d n (r + 1)

/-- `get_trailing_tomb_stones_count_on_page`, /repo/src/page_layout.c:199-210. -/
def trailingCount (pg : Bytes) (ps : Nat) (d : SizeDef) : Option Nat := do
  trailingLoop pg ps d (← tupleCount pg ps d) 0

/-- `swap_tuples_on_page`, /repo/src/page_layout.c:224-234. -/
def swap (pg : Bytes) (ps : Nat) (d : SizeDef) (i j : Nat) : Option (Bytes × Bool) :=
  if slotted d then Slotted.swap pg ps i j else Fixed.swap pg ps d i j

/-- `get_nth_tuple_on_page`, /repo/src/page_layout.c:236-246 (offset in the page of the returned
pointer, `some none` is NULL). -/
def getNth (pg : Bytes) (ps : Nat) (d : SizeDef) (i : Nat) : Option (Option Nat) :=
  if slotted d then Slotted.getNth pg ps i else Fixed.getNth pg ps d i

/-- What a caller can read through the pointer of `get_nth_tuple_on_page`: the bytes of the
tuple, as many as `get_tuple_size_using_tuple_size_def` (/repo/src/tuple_def.c:68-92) says. -/
def readNth (pg : Bytes) (ps : Nat) (d : SizeDef) (i : Nat) : Option (Option Bytes) := do
  match ← getNth pg ps d i with
  | none => pure none
  | some o => do
    let n ← tupleSize d (pg.drop o)
    let t ← load pg o n
    pure (some t)

/-- An element update as seen by the page layer: `can` stands for `can_set_element_in_tuple`,
`set` for `set_element_in_tuple` (/repo/src/tuple.c:156-285), both with a given position and
value and an allowed size increment of 0, acting on the bytes of one tuple. -/
structure Edit where
  can : Bytes → Option Bool
  set : Bytes → Option (Bytes × Bool)

/-- `set_element_in_tuple_in_place_slotted_page`, /repo/src/page_layout_slotted.c:574-605. The
tuple memory handed to the element setter is the old size of the tuple; `get_tuple_size` of the
full type is modelled by the size definition. The 32 bit `+=` of a possibly negative difference
is modelled with its wrap around. -/
def setInPlaceSlotted (pg : Bytes) (ps : Nat) (d : SizeDef) (i : Nat) (e : Edit) :
    Option (Bytes × Bool) := do
  match ← Slotted.getNth pg ps i with
  | none => pure (pg, false)
  | some o => do
    let old ← tupleSize d (pg.drop o)
    let t ← load pg o old
    if !(← e.can t) then pure (pg, false)
    else do
      let (t, ok) ← e.set t
      let pg ← store pg o t
      if ok then do
        let new ← tupleSize d (pg.drop o)
        let occ ← loadVal pg ps (← Slotted.offOcc pg ps)
        let pg ← storeVal pg ps (← Slotted.offOcc pg ps)
          ((occ + new + 4294967296 - old) % 4294967296)
        pure (pg, true)
      else pure (pg, false)

/-- `set_element_in_tuple_in_place_fixed_array_page`,
/repo/src/page_layout_fixed_array.c:418-430. -/
def setInPlaceFixed (pg : Bytes) (ps : Nat) (d : SizeDef) (i : Nat) (e : Edit) :
    Option (Bytes × Bool) := do
  match ← Fixed.getNth pg ps d i with
  | none => pure (pg, false)
  | some o => do
    let t ← load pg o d.size
    let (t, ok) ← e.set t
    let pg ← store pg o t
    pure (pg, ok)

/-- `set_element_in_tuple_in_place_on_page`, /repo/src/page_layout.c:248-258. -/
def setInPlace (pg : Bytes) (ps : Nat) (d : SizeDef) (i : Nat) (e : Edit) :
    Option (Bytes × Bool) :=
  if slotted d then setInPlaceSlotted pg ps d i e else setInPlaceFixed pg ps d i e

/-- `clone_page`, /repo/src/page_layout.c:260-264: the new contents of `page`, given `page_src`. -/
def clonePage (pg : Bytes) (ps : Nat) (src : Bytes) : Option Bytes := do
  let b ← load src 0 ps
  store pg 0 b

/-- `run_page_compaction`, /repo/src/page_layout.c:266-276. `mem` tells whether the `malloc` of
/repo/src/page_layout_slotted.c:640 succeeds; if it does not, the function returns 0 before
touching the page. -/
def compact (pg : Bytes) (ps : Nat) (d : SizeDef) (mem : Bool) : Option (Bytes × Bool) :=
  if slotted d then
    if mem then Slotted.compact pg ps d
    else do
      let _ ← Slotted.tupleCount pg ps
      pure (pg, false)
  else Fixed.compact pg

/-- `zero_out_free_space_on_page`, /repo/src/page_layout.c:278-288. -/
def zeroOut (pg : Bytes) (ps : Nat) (d : SizeDef) : Option (Bytes × Bool) :=
  if slotted d then Slotted.zeroOut pg ps else Fixed.zeroOut pg ps d

/-- `get_free_space_on_page`, /repo/src/page_layout.c:290-300. -/
def freeSpace (pg : Bytes) (ps : Nat) (d : SizeDef) : Option Nat :=
  if slotted d then Slotted.freeSpace pg ps else Fixed.freeSpace pg ps d

/-- `get_space_occupied_by_tuples_on_page`, /repo/src/page_layout.c:302-316. -/
def spaceOccBy (pg : Bytes) (ps : Nat) (d : SizeDef) (a b : Nat) : Option Nat := do
  let n ← tupleCount pg ps d
  if a > b ∨ b ≥ n then pure 0
  else if slotted d then Slotted.spaceOccBy pg ps d a b else Fixed.spaceOccBy d a b

/-- `get_space_occupied_by_all_tuples_on_page`, /repo/src/page_layout.c:318-328. -/
def spaceOcc (pg : Bytes) (ps : Nat) (d : SizeDef) : Option Nat :=
  if slotted d then Slotted.spaceOcc pg ps else Fixed.spaceOcc pg ps d

/-- `get_space_occupied_by_all_tomb_stones_on_page`, /repo/src/page_layout.c:330-340. -/
def spaceTomb (pg : Bytes) (ps : Nat) (d : SizeDef) : Option Nat :=
  if slotted d then Slotted.spaceTomb pg ps else Fixed.spaceTomb pg ps d

/-- `get_space_to_be_occupied_by_tuple_on_page`, /repo/src/page_layout.c:342-352. -/
def spaceFor (ps : Nat) (d : SizeDef) (ext : Option Bytes) : Option Nat :=
  if slotted d then Slotted.spaceFor ps d ext else some (Fixed.spaceFor d)

/-- `get_space_allotted_to_all_tuples_on_page`, /repo/src/page_layout.c:354-364. -/
def spaceAllotted (pg : Bytes) (ps : Nat) (d : SizeDef) : Option Nat :=
  if slotted d then Slotted.spaceAllotted pg ps else Fixed.spaceAllotted pg ps d

/-- `get_space_to_be_allotted_to_all_tuples_on_page`, /repo/src/page_layout.c:366-376. -/
def spaceToBeAllotted (h ps : Nat) (d : SizeDef) : Option Nat :=
  if slotted d then Slotted.spaceToBeAllotted h ps else Fixed.spaceToBeAllotted h ps d

/-- `get_fragmentation_space_on_page`, /repo/src/page_layout.c:378-383. -/
def fragmentation (pg : Bytes) (ps : Nat) (d : SizeDef) : Option Nat := do
  let a ← spaceAllotted pg ps d
  let o ← spaceOcc pg ps d
  let f ← freeSpace pg ps d
  let u ← u32 (o + f)
  sub32 a u

/-- `get_additional_space_overhead_per_tuple_on_page`, /repo/src/page_layout.c:385-395. -/
def overhead (ps : Nat) (d : SizeDef) : Nat :=
  if slotted d then Slotted.overhead ps else Fixed.overhead

/-- `get_page_header_size`, /repo/src/page_header.c:17-20. -/
def headerSize (pg : Bytes) (ps : Nat) : Option Nat := hdrSize pg ps

/-- The user reading the page header: `get_page_header_size` bytes from `get_page_header_ua`,
/repo/src/page_header.c:28-32. -/
def readHeader (pg : Bytes) (ps : Nat) : Option Bytes := do
  let n ← headerSize pg ps
  load pg (vsz ps) n

/-- The user writing `bs` at offset `off` of the page header through `get_page_header`,
/repo/src/page_header.c:22-26. -/
def writeHeader (pg : Bytes) (ps : Nat) (off : Nat) (bs : Bytes) : Option Bytes :=
  store pg (vsz ps + off) bs

end Api
end TS
