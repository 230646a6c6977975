import Verif.SizeDef
/-
Model of /repo/src/page_layout_slotted.c, function by function, on the bytes of the page.
`pg` is the page, `ps` is `page_size`, `d` is `tpl_sz_d`; an `external_tuple` is an
`Option Bytes` (`none` is the NULL pointer).
-/
namespace TS

/-- `get_page_header_size_INLINE`, /repo/inc/tuplestore/page_header_util.h:6-9. -/
def hdrSize (pg : Bytes) (ps : Nat) : Option Nat := loadVal pg ps 0

/-- `get_offset_to_end_of_page_header`, /repo/inc/tuplestore/page_header_util.h:12-15. -/
def offEndHdr (pg : Bytes) (ps : Nat) : Option Nat := do
  u32 (vsz ps + (← hdrSize pg ps))

/-- `init_page_header`, /repo/src/page_header.c:34-46. -/
def initPageHeader (pg : Bytes) (ps h : Nat) : Option (Bytes × Bool) := do
  let need ← u32 (vsz ps + h)
  if ps < need then pure (pg, false)
  else do
    let pg ← storeVal pg ps 0 h
    let pg ← zeroIn pg (vsz ps) h
    pure (pg, true)

namespace Slotted

/-- `get_offset_to_space_occupied_by_tuples`, /repo/src/page_layout_slotted.c:19-22. -/
def offOcc (pg : Bytes) (ps : Nat) : Option Nat := offEndHdr pg ps

/-- `get_offset_to_tuple_count`, /repo/src/page_layout_slotted.c:24-27. -/
def offCount (pg : Bytes) (ps : Nat) : Option Nat := do u32 ((← offOcc pg ps) + vsz ps)

/-- `get_offset_to_tomb_stone_count`, /repo/src/page_layout_slotted.c:29-32. -/
def offTomb (pg : Bytes) (ps : Nat) : Option Nat := do u32 ((← offCount pg ps) + vsz ps)

/-- `get_offset_to_end_of_free_space_offset`, /repo/src/page_layout_slotted.c:34-37. -/
def offEofs (pg : Bytes) (ps : Nat) : Option Nat := do u32 ((← offTomb pg ps) + vsz ps)

/-- `get_offset_to_tuple_offsets`, /repo/src/page_layout_slotted.c:39-42. -/
def offOffs (pg : Bytes) (ps : Nat) : Option Nat := do u32 ((← offEofs pg ps) + vsz ps)

/-- `get_offset_to_ith_tuple_offset`, /repo/src/page_layout_slotted.c:44-47. -/
def offIth (pg : Bytes) (ps i : Nat) : Option Nat := do u32 ((← offOffs pg ps) + i * vsz ps)

/-- `get_tuple_count_slotted_page`, /repo/src/page_layout_slotted.c:181-185. -/
def tupleCount (pg : Bytes) (ps : Nat) : Option Nat := do loadVal pg ps (← offCount pg ps)

/-- `get_tomb_stone_count_slotted_page`, /repo/src/page_layout_slotted.c:187-191. -/
def tombCount (pg : Bytes) (ps : Nat) : Option Nat := do loadVal pg ps (← offTomb pg ps)

/-- `get_offset_to_start_of_free_space`, /repo/src/page_layout_slotted.c:49-54. -/
def startFree (pg : Bytes) (ps : Nat) : Option Nat := do offIth pg ps (← tupleCount pg ps)

/-- `get_offset_to_end_of_free_space`, /repo/src/page_layout_slotted.c:56-63. -/
def endFree (pg : Bytes) (ps : Nat) : Option Nat := do
  let v ← loadVal pg ps (← offEofs pg ps)
  pure (if v = 0 then ps else v)

/-- `get_offset_to_ith_tuple`, /repo/src/page_layout_slotted.c:65-69. -/
def tupOff (pg : Bytes) (ps i : Nat) : Option Nat := do loadVal pg ps (← offIth pg ps i)

/-- `get_free_space_slotted_page`, /repo/src/page_layout_slotted.c:712-715. -/
def freeSpace (pg : Bytes) (ps : Nat) : Option Nat := do
  sub32 (← endFree pg ps) (← startFree pg ps)

/-- Loop of `recompute_end_of_free_space_offset`, /repo/src/page_layout_slotted.c:81-86:
slots `i, i+1, …, i+n-1`, running minimum `acc`. -/
def minOffLoop (pg : Bytes) (ps : Nat) : Nat → Nat → Nat → Option Nat
  | 0, _, acc => some acc
  | n + 1, i, acc => do
    let o ← tupOff pg ps i
    minOffLoop pg ps n (i + 1) (if o ≠ 0 then min acc o else acc)

/-- `recompute_end_of_free_space_offset`, /repo/src/page_layout_slotted.c:73-90. -/
def recomputeEnd (pg : Bytes) (ps : Nat) : Option Bytes := do
  let n ← tupleCount pg ps
  let e ← minOffLoop pg ps n 0 ps
  storeVal pg ps (← offEofs pg ps) e

/-- `allocate_space_for_tuple_from_free_space`, /repo/src/page_layout_slotted.c:95-113. -/
def allocate (pg : Bytes) (ps sz : Nat) : Option (Bytes × Nat) := do
  let free ← freeSpace pg ps
  if sz > free then pure (pg, 0)
  else do
    let e ← sub32 (← endFree pg ps) sz
    let pg ← storeVal pg ps (← offEofs pg ps) e
    pure (pg, e)

/-- `get_additional_space_overhead_per_tuple_slotted_page`,
/repo/src/page_layout_slotted.c:758-762. -/
def overhead (ps : Nat) : Nat := vsz ps

/-- `get_space_to_be_occupied_by_tuple_slotted_page`, /repo/src/page_layout_slotted.c:740-746. -/
def spaceFor (ps : Nat) (d : SizeDef) : Option Bytes → Option Nat
  | none => some (overhead ps)
  | some t => do u32 (overhead ps + (← tupleSize d t))

/-- `get_space_to_be_allotted_to_all_tuples_slotted_page`,
/repo/src/page_layout_slotted.c:753-756. -/
def spaceToBeAllotted (h ps : Nat) : Option Nat := do
  sub32 ps (← u32 (vsz ps + h + 4 * vsz ps))

/-- `get_space_allotted_to_all_tuples_slotted_page`, /repo/src/page_layout_slotted.c:748-751. -/
def spaceAllotted (pg : Bytes) (ps : Nat) : Option Nat := do sub32 ps (← offOffs pg ps)

/-- `get_minimum_page_size_for_slotted_page`, /repo/src/page_layout_slotted.c:118-134. -/
def minPageSize (h : Nat) (d : SizeDef) (n : Nat) : Option Nat := do
  let m8 ← u32 (1 + h + (4 + n) * 1 + n * minTupleSize d)
  if m8 ≤ 2 ^ 8 then pure m8
  else do
    let m16 ← u32 (2 + h + (4 + n) * 2 + n * minTupleSize d)
    if m16 ≤ 2 ^ 16 then pure m16
    else do
      let m24 ← u32 (3 + h + (4 + n) * 3 + n * minTupleSize d)
      if m24 ≤ 2 ^ 24 then pure m24
      else u32 (4 + h + (4 + n) * 4 + n * minTupleSize d)

/-- `get_maximum_tuple_count_slotted_page`, /repo/src/page_layout_slotted.c:136-139. The C
division cannot be by zero because the overhead is at least 1. -/
def maxTupleCount (h ps : Nat) (d : SizeDef) : Option Nat := do
  let a ← spaceToBeAllotted h ps
  let q ← u32 (minTupleSize d + overhead ps)
  pure (a / q)

/-- `get_maximum_tuple_size_slotted_page`, /repo/src/page_layout_slotted.c:141-150. -/
def maxTupleSizeOnPage (h ps : Nat) : Option Nat := do
  let total ← spaceToBeAllotted h ps
  if total > overhead ps then sub32 total (overhead ps) else pure 0

/-- `init_slotted_page`, /repo/src/page_layout_slotted.c:152-179. -/
def init (pg : Bytes) (ps h : Nat) (d : SizeDef) : Option (Bytes × Bool) := do
  let m ← minPageSize h d 1
  if ps < m then pure (pg, false)
  else do
    let (pg, ok) ← initPageHeader pg ps h
    if !ok then pure (pg, false)
    else do
      let pg ← storeVal pg ps (← offOcc pg ps) 0
      let pg ← storeVal pg ps (← offCount pg ps) 0
      let pg ← storeVal pg ps (← offTomb pg ps) 0
      let pg ← storeVal pg ps (← offEofs pg ps) ps
      pure (pg, true)

/-- `can_append_tuple_slotted_page`, /repo/src/page_layout_slotted.c:248-251. -/
def canAppend (pg : Bytes) (ps : Nat) (d : SizeDef) (ext : Option Bytes) : Option Bool := do
  let need ← spaceFor ps d ext
  let free ← freeSpace pg ps
  pure (decide (need ≤ free))

/-- `append_tuple_slotted_page`, /repo/src/page_layout_slotted.c:193-246. -/
def append (pg : Bytes) (ps : Nat) (d : SizeDef) (ext : Option Bytes) :
    Option (Bytes × Bool) := do
  if !(← canAppend pg ps d ext) then pure (pg, false)
  else do
    let n ← loadVal pg ps (← offCount pg ps)
    let n ← u32 (n + 1)
    let pg ← storeVal pg ps (← offCount pg ps) n
    let slot ← offIth pg ps (n - 1)
    let (pg, space) ←
      (match ext with
      | none => do
        let pg ← storeVal pg ps slot 0
        let z ← loadVal pg ps (← offTomb pg ps)
        let z ← u32 (z + 1)
        let pg ← storeVal pg ps (← offTomb pg ps) z
        pure (pg, overhead ps)
      | some t => do
        let sz ← tupleSize d t
        let space ← u32 (overhead ps + sz)
        let (pg, o) ← allocate pg ps sz
        let pg ← storeVal pg ps slot o
        let b ← load t 0 sz
        let pg ← store pg o b
        pure (pg, space) : Option (Bytes × Nat))
    let occ ← loadVal pg ps (← offOcc pg ps)
    let occ ← u32 (occ + space)
    let pg ← storeVal pg ps (← offOcc pg ps) occ
    pure (pg, true)

/-- `insert_tuple_slotted_page`, /repo/src/page_layout_slotted.c:253-279. -/
def insert (pg : Bytes) (ps : Nat) (d : SizeDef) (idx : Nat) (ext : Option Bytes) :
    Option (Bytes × Bool) := do
  if idx > (← tupleCount pg ps) then pure (pg, false)
  else do
    let (pg, ok) ← append pg ps d ext
    if !ok then pure (pg, false)
    else do
      let n ← tupleCount pg ps
      let last ← sub32 n 1
      if idx = last then pure (pg, true)
      else do
        let cnt ← sub32 n idx
        let pg ← rotRight pg (← offIth pg ps idx) (cnt * vsz ps) (vsz ps)
        pure (pg, true)

/-- `can_update_tuple_slotted_page`, /repo/src/page_layout_slotted.c:388-432. -/
def canUpdate (pg : Bytes) (ps : Nat) (d : SizeDef) (idx : Nat) (ext : Option Bytes) :
    Option Bool := do
  if idx ≥ (← tupleCount pg ps) then pure false
  else
    match ext with
    | none => pure true
    | some t => do
      let sz ← tupleSize d t
      let o ← tupOff pg ps idx
      let free ← freeSpace pg ps
      if o ≠ 0 then do
        let osz ← tupleSize d (pg.drop o)
        if o = (← endFree pg ps) then do
          let tot ← u32 (free + osz)
          pure (decide (tot ≥ sz))
        else if osz ≥ sz then pure true
        else pure (decide (free ≥ sz))
      else pure (decide (free ≥ sz))

/-- The part of `update_tuple_slotted_page` guarded by `discard_ith_tuple`,
/repo/src/page_layout_slotted.c:324-341: the slot at byte offset `slot`, holding a tuple at
offset `old`, is made a tomb stone. -/
def updateDiscard (pg : Bytes) (ps : Nat) (d : SizeDef) (slot old : Nat) : Option Bytes := do
  let pg ← storeVal pg ps slot 0
  let osz ← tupleSize d (pg.drop old)
  let occ ← loadVal pg ps (← offOcc pg ps)
  let occ ← sub32 occ osz
  let pg ← storeVal pg ps (← offOcc pg ps) occ
  if old = (← endFree pg ps) then recomputeEnd pg ps else pure pg

/-- The part of `update_tuple_slotted_page` that places the new tuple,
/repo/src/page_layout_slotted.c:343-368 (`inFree` is `append_in_free_space`). -/
def updatePlace (pg : Bytes) (ps : Nat) (d : SizeDef) (slot old : Nat) (inFree : Bool)
    (t : Bytes) : Option Bytes := do
  let sz ← tupleSize d t
  let (pg, o) ← if inFree then allocate pg ps sz else pure (pg, old)
  let pg ← storeVal pg ps slot o
  let b ← load t 0 sz
  let pg ← store pg o b
  let occ ← loadVal pg ps (← offOcc pg ps)
  let occ ← u32 (occ + sz)
  storeVal pg ps (← offOcc pg ps) occ

/-- `update_tuple_slotted_page`, /repo/src/page_layout_slotted.c:281-386. The C flags
(`discard_ith_tuple`, `append_in_free_space`, `update_in_place`, `increment_/decrement_
tomb_stone_count`) are folded into the four branches that set them; order of the effects inside
each branch is that of the code. -/
def update (pg : Bytes) (ps : Nat) (d : SizeDef) (idx : Nat) (ext : Option Bytes) :
    Option (Bytes × Bool) := do
  if !(← canUpdate pg ps d idx ext) then pure (pg, false)
  else do
    let slot ← offIth pg ps idx
    let old ← loadVal pg ps slot
    if old = 0 then
      match ext with
      | none => pure (pg, true)
      | some t => do
        let pg ← updatePlace pg ps d slot old true t
        let z ← loadVal pg ps (← offTomb pg ps)
        let z ← sub32 z 1
        let pg ← storeVal pg ps (← offTomb pg ps) z
        pure (pg, true)
    else
      match ext with
      | none => do
        let pg ← updateDiscard pg ps d slot old
        let z ← loadVal pg ps (← offTomb pg ps)
        let z ← u32 (z + 1)
        let pg ← storeVal pg ps (← offTomb pg ps) z
        pure (pg, true)
      | some t => do
        let osz ← tupleSize d (pg.drop old)
        let sz ← tupleSize d t
        let e ← endFree pg ps
        let inFree := decide (old = e ∨ osz < sz)
        let pg ← updateDiscard pg ps d slot old
        let pg ← updatePlace pg ps d slot old inFree t
        pure (pg, true)

/-- `discard_tuple_slotted_page`, /repo/src/page_layout_slotted.c:434-474. -/
def discard (pg : Bytes) (ps : Nat) (d : SizeDef) (idx : Nat) : Option (Bytes × Bool) := do
  if idx ≥ (← tupleCount pg ps) then pure (pg, false)
  else do
    let old ← tupOff pg ps idx
    let osz ← (if old = 0 then pure 0 else tupleSize d (pg.drop old) : Option Nat)
    let n ← loadVal pg ps (← offCount pg ps)
    let k ← sub32 n (idx + 1)
    let pg ← moveIn pg (← offIth pg ps idx) (← offIth pg ps (idx + 1)) (k * overhead ps)
    let n ← sub32 n 1
    let pg ← storeVal pg ps (← offCount pg ps) n
    let pg ← (if old = 0 then do
        let z ← loadVal pg ps (← offTomb pg ps)
        let z ← sub32 z 1
        storeVal pg ps (← offTomb pg ps) z
      else pure pg : Option Bytes)
    let occ ← loadVal pg ps (← offOcc pg ps)
    let occ ← sub32 occ (osz + overhead ps)
    let pg ← storeVal pg ps (← offOcc pg ps) occ
    let pg ← (if old = (← endFree pg ps) then recomputeEnd pg ps else pure pg : Option Bytes)
    pure (pg, true)

/-- Loop of `discard_trailing_tomb_stones_slotted_page`, /repo/src/page_layout_slotted.c:493-499.
Arguments: tuple count, occupied space, tomb stone count, number discarded. -/
def trailLoop (pg : Bytes) (ps : Nat) : Nat → Nat → Nat → Nat → Option (Nat × Nat × Nat × Nat)
  | 0, occ, z, k => some (0, occ, z, k)
  | n + 1, occ, z, k => do
    if (← tupOff pg ps n) = 0 then do
      let occ ← sub32 occ (overhead ps)
      let z ← sub32 z 1
      trailLoop pg ps n occ z (k + 1)
    else pure (n + 1, occ, z, k)

/-- `discard_trailing_tomb_stones_slotted_page`, /repo/src/page_layout_slotted.c:476-507. -/
def discardTrailing (pg : Bytes) (ps : Nat) : Option (Bytes × Nat) := do
  let occ ← loadVal pg ps (← offOcc pg ps)
  let n ← loadVal pg ps (← offCount pg ps)
  let z ← loadVal pg ps (← offTomb pg ps)
  let (n, occ, z, k) ← trailLoop pg ps n occ z 0
  let pg ← storeVal pg ps (← offOcc pg ps) occ
  let pg ← storeVal pg ps (← offCount pg ps) n
  let pg ← storeVal pg ps (← offTomb pg ps) z
  pure (pg, k)

/-- `discard_all_tuples_slotted_page`, /repo/src/page_layout_slotted.c:509-526. -/
def discardAll (pg : Bytes) (ps : Nat) : Option Bytes := do
  let pg ← storeVal pg ps (← offOcc pg ps) 0
  let pg ← storeVal pg ps (← offCount pg ps) 0
  let pg ← storeVal pg ps (← offTomb pg ps) 0
  storeVal pg ps (← offEofs pg ps) ps

/-- `exists_tuple_slotted_page`, /repo/src/page_layout_slotted.c:528-535. -/
def existsTuple (pg : Bytes) (ps idx : Nat) : Option Bool := do
  if idx ≥ (← tupleCount pg ps) then pure false
  else do
    let o ← tupOff pg ps idx
    pure (decide (o ≠ 0))

/-- `swap_tuples_slotted_page`, /repo/src/page_layout_slotted.c:537-556. -/
def swap (pg : Bytes) (ps i j : Nat) : Option (Bytes × Bool) := do
  let n ← tupleCount pg ps
  if i ≥ n ∨ j ≥ n then pure (pg, false)
  else if i = j then pure (pg, true)
  else do
    let pg ← swapIn pg (← offIth pg ps i) (← offIth pg ps j) (vsz ps)
    pure (pg, true)

/-- `get_nth_tuple_slotted_page`, /repo/src/page_layout_slotted.c:558-572. Returns the offset of
the tuple in the page, `some none` being the NULL pointer. -/
def getNth (pg : Bytes) (ps idx : Nat) : Option (Option Nat) := do
  if idx ≥ (← tupleCount pg ps) then pure none
  else do
    let o ← tupOff pg ps idx
    if o = 0 then pure none else pure (some o)

/-- First loop of `run_page_compaction_slotted_page`, /repo/src/page_layout_slotted.c:647-657:
collects `(offset, index)` of the existing tuples among indices `i … i+n-1`. -/
def collectLoop (pg : Bytes) (ps : Nat) : Nat → Nat → Option (List (Nat × Nat))
  | 0, _ => some []
  | n + 1, i => do
    let e ← existsTuple pg ps i
    if e then do
      let o ← tupOff pg ps i
      let r ← collectLoop pg ps n (i + 1)
      pure ((o, i) :: r)
    else collectLoop pg ps n (i + 1)

/-- Second loop of `run_page_compaction_slotted_page`, /repo/src/page_layout_slotted.c:667-692:
`e` is `end_of_free_space_offset_val`, `moved` is `was_page_compacted`. -/
def relocLoop (ps : Nat) (d : SizeDef) :
    List (Nat × Nat) → Bytes → Nat → Bool → Option (Bytes × Nat × Bool)
  | [], pg, e, moved => some (pg, e, moved)
  | (o, i) :: rest, pg, e, moved => do
    let slot ← offIth pg ps i
    let tup ← tupOff pg ps i
    let sz ← tupleSize d (pg.drop tup)
    let e ← sub32 e sz
    let moved := moved || decide (e ≠ o)
    let pg ← moveIn pg e tup sz
    let pg ← storeVal pg ps slot e
    relocLoop ps d rest pg e moved

/-- `run_page_compaction_slotted_page`, /repo/src/page_layout_slotted.c:627-701, when `malloc`
succeeds. The external `heap_sort` with `compare_by_offset_descending` (lines 617-620, 660-661)
is modelled by `List.mergeSort` with the same order; offsets of distinct live tuples are
distinct, so the sorted list does not depend on the sorting algorithm. If `malloc` fails the
function returns before touching the page (lines 640-644). -/
def compact (pg : Bytes) (ps : Nat) (d : SizeDef) : Option (Bytes × Bool) := do
  let n ← tupleCount pg ps
  let l ← collectLoop pg ps n 0
  let l := l.mergeSort (fun a b => decide (b.1 ≤ a.1))
  let (pg, e, moved) ← relocLoop ps d l pg ps false
  let pg ← storeVal pg ps (← offEofs pg ps) e
  pure (pg, moved)

/-- `zero_out_free_space_slotted_page`, /repo/src/page_layout_slotted.c:703-710. -/
def zeroOut (pg : Bytes) (ps : Nat) : Option (Bytes × Bool) := do
  if 0 = (← freeSpace pg ps) then pure (pg, false)
  else do
    let s ← startFree pg ps
    let e ← endFree pg ps
    let n ← sub32 e s
    let pg ← zeroIn pg s n
    pure (pg, true)

/-- Loop of `get_space_occupied_by_tuples_slotted_page`, /repo/src/page_layout_slotted.c:720-724:
`n` iterations starting at index `i`. -/
def occLoop (pg : Bytes) (ps : Nat) (d : SizeDef) : Nat → Nat → Nat → Option Nat
  | 0, _, acc => some acc
  | n + 1, i, acc => do
    let e ← existsTuple pg ps i
    if e then do
      match ← getNth pg ps i with
      | none => none
      | some o => do
        let sz ← tupleSize d (pg.drop o)
        let acc ← u32 (acc + sz)
        occLoop pg ps d n (i + 1) acc
    else occLoop pg ps d n (i + 1) acc

/-- `get_space_occupied_by_tuples_slotted_page`, /repo/src/page_layout_slotted.c:717-726. -/
def spaceOccBy (pg : Bytes) (ps : Nat) (d : SizeDef) (a b : Nat) : Option Nat := do
  let n ← sub32 b a
  let s ← occLoop pg ps d (n + 1) a 0
  u32 (s + (n + 1) * overhead ps)

/-- `get_space_occupied_by_all_tuples_slotted_page`, /repo/src/page_layout_slotted.c:728-733. -/
def spaceOcc (pg : Bytes) (ps : Nat) : Option Nat := do loadVal pg ps (← offOcc pg ps)

/-- `get_space_occupied_by_all_tomb_stones_slotted_page`,
/repo/src/page_layout_slotted.c:735-738. -/
def spaceTomb (pg : Bytes) (ps : Nat) : Option Nat := do u32 ((← tombCount pg ps) * overhead ps)

end Slotted
end TS
