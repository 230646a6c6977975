import Verif.Api
/-
The page functions that take an external tuple, when the pointer they are given points into the
page itself (for instance a pointer returned by `get_nth_tuple_on_page`). In Api.lean and below
the external tuple is memory apart from the page; here every read through the pointer is a read
of the page as it is at that moment.
-/
namespace TS

/-- A pointer to an external tuple that is not NULL: to memory apart from the page, or to the
byte at offset `o` of the page. -/
inductive Ptr where
  | out (m : Bytes)
  | on (o : Nat)

/-- The memory from the pointer on, `pg` being the present contents of the page. -/
def Ptr.mem (pg : Bytes) : Ptr → Bytes
  | .out m => m
  | .on o => pg.drop o

namespace Slotted

/-- `get_space_to_be_occupied_by_tuple_slotted_page`, /repo/src/page_layout_slotted.c:740-746. -/
def spaceForAt (pg : Bytes) (ps : Nat) (d : SizeDef) : Option Ptr → Option Nat
  | none => some (overhead ps)
  | some p => do u32 (overhead ps + (← tupleSize d (p.mem pg)))

/-- `can_append_tuple_slotted_page`, /repo/src/page_layout_slotted.c:248-251. -/
def canAppendAt (pg : Bytes) (ps : Nat) (d : SizeDef) (ext : Option Ptr) : Option Bool := do
  let need ← spaceForAt pg ps d ext
  let free ← freeSpace pg ps
  pure (decide (need ≤ free))

/-- `append_tuple_slotted_page`, /repo/src/page_layout_slotted.c:193-246. The pointer is read at
line 224, when the tuple count has been written, and at line 236, when the end of free space and
the slot have been written. -/
def appendAt (pg : Bytes) (ps : Nat) (d : SizeDef) (ext : Option Ptr) :
    Option (Bytes × Bool) := do
  if !(← canAppendAt pg ps d ext) then pure (pg, false)
  else do
    let n ← loadVal pg ps (← offCount pg ps)
    let n ← u32 (n + 1)
    let pg ← storeVal pg ps (← offCount pg ps) n
    let slot ← offIth pg ps (n - 1)
    let (pg, space) ←
      (match ext with
      | none => do
        let pg ← storeVal pg ps slot 0
        let z ← loadVal pg ps (← offTomb pg ps)
        let z ← u32 (z + 1)
        let pg ← storeVal pg ps (← offTomb pg ps) z
        pure (pg, overhead ps)
      | some p => do
        let sz ← tupleSize d (p.mem pg)
        let space ← u32 (overhead ps + sz)
        let (pg, o) ← allocate pg ps sz
        let pg ← storeVal pg ps slot o
        let b ← load (p.mem pg) 0 sz
        let pg ← store pg o b
        pure (pg, space) : Option (Bytes × Nat))
    let occ ← loadVal pg ps (← offOcc pg ps)
    let occ ← u32 (occ + space)
    let pg ← storeVal pg ps (← offOcc pg ps) occ
    pure (pg, true)

/-- `insert_tuple_slotted_page`, /repo/src/page_layout_slotted.c:253-279. -/
def insertAt (pg : Bytes) (ps : Nat) (d : SizeDef) (idx : Nat) (ext : Option Ptr) :
    Option (Bytes × Bool) := do
  if idx > (← tupleCount pg ps) then pure (pg, false)
  else do
    let (pg, ok) ← appendAt pg ps d ext
    if !ok then pure (pg, false)
    else do
      let n ← tupleCount pg ps
      let last ← sub32 n 1
      if idx = last then pure (pg, true)
      else do
        let cnt ← sub32 n idx
        let pg ← rotRight pg (← offIth pg ps idx) (cnt * vsz ps) (vsz ps)
        pure (pg, true)

/-- `can_update_tuple_slotted_page`, /repo/src/page_layout_slotted.c:388-432. -/
def canUpdateAt (pg : Bytes) (ps : Nat) (d : SizeDef) (idx : Nat) (ext : Option Ptr) :
    Option Bool := do
  if idx ≥ (← tupleCount pg ps) then pure false
  else
    match ext with
    | none => pure true
    | some p => do
      let sz ← tupleSize d (p.mem pg)
      let o ← tupOff pg ps idx
      let free ← freeSpace pg ps
      if o ≠ 0 then do
        let osz ← tupleSize d (pg.drop o)
        if o = (← endFree pg ps) then do
          let tot ← u32 (free + osz)
          pure (decide (tot ≥ sz))
        else if osz ≥ sz then pure true
        else pure (decide (free ≥ sz))
      else pure (decide (free ≥ sz))

/-- The part of `update_tuple_slotted_page` that places the new tuple,
/repo/src/page_layout_slotted.c:343-368: the size is read through the pointer at line 345, the
bytes at line 361, after the writes of lines 350-351 or 357. -/
def updatePlaceAt (pg : Bytes) (ps : Nat) (d : SizeDef) (slot old : Nat) (inFree : Bool)
    (p : Ptr) : Option Bytes := do
  let sz ← tupleSize d (p.mem pg)
  let (pg, o) ← if inFree then allocate pg ps sz else pure (pg, old)
  let pg ← storeVal pg ps slot o
  let b ← load (p.mem pg) 0 sz
  let pg ← store pg o b
  let occ ← loadVal pg ps (← offOcc pg ps)
  let occ ← u32 (occ + sz)
  storeVal pg ps (← offOcc pg ps) occ

/-- `update_tuple_slotted_page`, /repo/src/page_layout_slotted.c:281-386. The old tuple is
discarded (lines 324-341) before the new one is copied. -/
def updateAt (pg : Bytes) (ps : Nat) (d : SizeDef) (idx : Nat) (ext : Option Ptr) :
    Option (Bytes × Bool) := do
  if !(← canUpdateAt pg ps d idx ext) then pure (pg, false)
  else do
    let slot ← offIth pg ps idx
    let old ← loadVal pg ps slot
    if old = 0 then
      match ext with
      | none => pure (pg, true)
      | some p => do
        let pg ← updatePlaceAt pg ps d slot old true p
        let z ← loadVal pg ps (← offTomb pg ps)
        let z ← sub32 z 1
        let pg ← storeVal pg ps (← offTomb pg ps) z
        pure (pg, true)
    else
      match ext with
      | none => do
        let pg ← updateDiscard pg ps d slot old
        let z ← loadVal pg ps (← offTomb pg ps)
        let z ← u32 (z + 1)
        let pg ← storeVal pg ps (← offTomb pg ps) z
        pure (pg, true)
      | some p => do
        let osz ← tupleSize d (pg.drop old)
        let sz ← tupleSize d (p.mem pg)
        let e ← endFree pg ps
        let inFree := decide (old = e ∨ osz < sz)
        let pg ← updateDiscard pg ps d slot old
        let pg ← updatePlaceAt pg ps d slot old inFree p
        pure (pg, true)

end Slotted

namespace Fixed

/-- `append_tuple_fixed_array_page`, /repo/src/page_layout_fixed_array.c:139-177. The pointer is
read at line 162, when the tuple count and the validity bit have been written. -/
def appendAt (pg : Bytes) (ps : Nat) (d : SizeDef) (ext : Option Ptr) :
    Option (Bytes × Bool) := do
  if !(← canAppend pg ps d) then pure (pg, false)
  else do
    let n ← loadVal pg ps (← offCount pg ps)
    let n ← u32 (n + 1)
    let pg ← storeVal pg ps (← offCount pg ps) n
    let idx := n - 1
    match ext with
    | some p => do
      let pg ← setBit pg (← offBits pg ps) idx
      let slot ← offIth pg ps d idx
      let b ← load (p.mem pg) 0 d.size
      let pg ← store pg slot b
      pure (pg, true)
    | none => do
      let pg ← resetBit pg (← offBits pg ps) idx
      let z ← loadVal pg ps (← offTomb pg ps)
      let z ← u32 (z + 1)
      let pg ← storeVal pg ps (← offTomb pg ps) z
      pure (pg, true)

/-- `insert_tuple_fixed_array_page`, /repo/src/page_layout_fixed_array.c:184-227. -/
def insertAt (pg : Bytes) (ps : Nat) (d : SizeDef) (idx : Nat) (ext : Option Ptr) :
    Option (Bytes × Bool) := do
  if idx > (← tupleCount pg ps) then pure (pg, false)
  else do
    let (pg, ok) ← appendAt pg ps d ext
    if !ok then pure (pg, false)
    else do
      let n ← tupleCount pg ps
      let last ← sub32 n 1
      if idx = last then pure (pg, true)
      else do
        let o ← offBits pg ps
        let v ← getBit pg o last
        let pg ← rotBitsLoop o idx (last - idx) pg
        let pg ← putBit pg o idx v
        let cnt ← sub32 n idx
        let len ← u32 (cnt * d.size)
        let pg ← rotRight pg (← offIth pg ps d idx) len d.size
        pure (pg, true)

/-- Second half of `update_tuple_fixed_array_page`, /repo/src/page_layout_fixed_array.c:254-268;
the pointer is read at the last line. -/
def updatePlaceAt (pg : Bytes) (ps : Nat) (d : SizeDef) (idx : Nat) (p : Ptr) :
    Option Bytes := do
  let pg ← setBit pg (← offBits pg ps) idx
  let z ← loadVal pg ps (← offTomb pg ps)
  let z ← sub32 z 1
  let pg ← storeVal pg ps (← offTomb pg ps) z
  let slot ← offIth pg ps d idx
  let b ← load (p.mem pg) 0 d.size
  store pg slot b

/-- `update_tuple_fixed_array_page`, /repo/src/page_layout_fixed_array.c:229-271. -/
def updateAt (pg : Bytes) (ps : Nat) (d : SizeDef) (idx : Nat) (ext : Option Ptr) :
    Option (Bytes × Bool) := do
  if !(← canUpdate pg ps idx) then pure (pg, false)
  else do
    let pg ← updateDiscard pg ps idx
    match ext with
    | none => pure (pg, true)
    | some p => do
      let pg ← updatePlaceAt pg ps d idx p
      pure (pg, true)

end Fixed

namespace Api

/-- `get_space_to_be_occupied_by_tuple_on_page`, /repo/src/page_layout.c:342-352. -/
def spaceForAt (pg : Bytes) (ps : Nat) (d : SizeDef) (ext : Option Ptr) : Option Nat :=
  if slotted d then Slotted.spaceForAt pg ps d ext else some (Fixed.spaceFor d)

/-- `append_tuple_on_page`, /repo/src/page_layout.c:92-102. -/
def appendAt (pg : Bytes) (ps : Nat) (d : SizeDef) (ext : Option Ptr) : Option (Bytes × Bool) :=
  if slotted d then Slotted.appendAt pg ps d ext else Fixed.appendAt pg ps d ext

/-- `can_append_tuple_on_page`, /repo/src/page_layout.c:104-114. -/
def canAppendAt (pg : Bytes) (ps : Nat) (d : SizeDef) (ext : Option Ptr) : Option Bool :=
  if slotted d then Slotted.canAppendAt pg ps d ext else Fixed.canAppend pg ps d

/-- `insert_tuple_on_page`, /repo/src/page_layout.c:116-126. -/
def insertAt (pg : Bytes) (ps : Nat) (d : SizeDef) (i : Nat) (ext : Option Ptr) :
    Option (Bytes × Bool) :=
  if slotted d then Slotted.insertAt pg ps d i ext else Fixed.insertAt pg ps d i ext

/-- `can_insert_tuple_on_page`, /repo/src/page_layout.c:128-132. -/
def canInsertAt (pg : Bytes) (ps : Nat) (d : SizeDef) (i : Nat) (ext : Option Ptr) :
    Option Bool := do
  let n ← tupleCount pg ps d
  if i ≤ n then canAppendAt pg ps d ext else pure false

/-- `update_tuple_on_page`, /repo/src/page_layout.c:134-144. -/
def updateAt (pg : Bytes) (ps : Nat) (d : SizeDef) (i : Nat) (ext : Option Ptr) :
    Option (Bytes × Bool) :=
  if slotted d then Slotted.updateAt pg ps d i ext else Fixed.updateAt pg ps d i ext

/-- `can_update_tuple_on_page`, /repo/src/page_layout.c:146-156. -/
def canUpdateAt (pg : Bytes) (ps : Nat) (d : SizeDef) (i : Nat) (ext : Option Ptr) :
    Option Bool :=
  if slotted d then Slotted.canUpdateAt pg ps d i ext else Fixed.canUpdate pg ps i

end Api
end TS
