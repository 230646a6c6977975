import Verif.Api
import Verif.TypeSer
/-
Model of the printing functions (/repo/src/datum.c:334-439, /repo/src/data_type_info.c:13-24, 1343-1447,
/repo/src/tuple.c:712-716, /repo/src/tuple_def.c:272-305, /repo/src/page_layout.c:397-426,
/repo/src/page_layout_fixed_array.c:492-513, /repo/src/page_layout_slotted.c:764-786). What is
printed is a list of tokens: the conversions of the `printf` calls with their arguments and the
literal text around them. How `printf` writes out a number is not modelled.
-/
namespace TS

/-- A piece of what is printed: literal text, `%u`, `%x`, `%d`, `%f` (object representation of the
argument), `%s` or `%.*s` (the characters printed), and `[%u]->`, the offset of a variable sized
element. -/
inductive Tok where
  | txt (s : String)
  | num (n : Nat)
  | hex (n : Nat)
  | int (z : Int)
  | flt (b : Bytes)
  | str (b : Bytes)
  | off (n : Nat)
deriving DecidableEq, Repr

/-- `printf("%s", name)` where `name` is a `char[64]`: without a NUL in the array, reading runs off
it. -/
def printName (n : Bytes) : Option (List Tok) :=
  if (cname n).length < 64 then some [.str (cname n)] else none

/-- The loop that prints a string, /repo/src/datum.c:383-389: pieces of 1024 characters with
`%.*s`, which stops at a NUL. At most `n` iterations. -/
def printCharsN : Nat → Bytes → List Tok
  | 0, _ => []
  | n + 1, b => if b.length = 0 then [] else .str (strn (b.take 1024)) :: printCharsN n (b.drop 1024)

/-- The loop with as many iterations as it can need. -/
def printChars (b : Bytes) : List Tok := printCharsN b.length b

/-- `dti->size`, `float` or `double`, /repo/src/datum.c:358-365; other sizes print nothing. -/
def printFlt (size : Nat) (v : Datum) : Option (List Tok) :=
  if size = 4 ∨ size = 8 then do pure [.flt (← v.asFlt size)] else some []

/-- The pointer inside of a datum for a tuple or array; the zero datum has a NULL pointer there. -/
def Datum.asPtr : Datum → Option Bytes
  | .ptr m => some m
  | _ => none

namespace Dti

/-- `[%u]->` in front of a variable sized element that is not NULL, /repo/src/datum.c:412-413 and
/repo/src/datum.c:431-432. -/
def printOff (d : Dti) (m : Bytes) (p : PosInfo) (c : Datum) : Option (List Tok) :=
  if p.ty.isVar && !c.isNull then do pure [.off (← loadVal m d.hdr.maxSize p.off)] else some []

/-- The comma in front of every element but the first, /repo/src/datum.c:406-407. -/
def comma (i : Nat) : List Tok := if i ≠ 0 then [.txt ", "] else []

/-- The loop over the elements of an array, /repo/src/datum.c:422-434: from index `i` on, `k` more.
The `continue` of an element that cannot be read comes after its comma. -/
def printLoop (f : Datum → Option (List Tok)) (d : Dti) (m : Bytes) : Nat → Nat → Option (List Tok)
  | 0, _ => some []
  | k + 1, i => do
    let p ← d.posInfo m i
    let x ← match ← d.getContUnsafe m i with
      | none => pure []
      | some c => do pure ((← d.printOff m p c) ++ (← f c))
    pure (comma i ++ x ++ (← printLoop f d m k (i + 1)))

mutual
/-- `print_datum`, /repo/src/datum.c:334-439. -/
def printDatum : Dti → Datum → Option (List Tok)
  | .prim k h, v => if v.isNull then some [.txt "NULL"] else
      match k with
      | .bitField => do pure [.hex (← v.asUint)]
      | .uint => do pure [.num (← v.asUint)]
      | .int => do pure [.int (← v.asInt)]
      | .float => printFlt h.size v
      | .largeUint => do pure [.num (← v.asUint)]
      | .largeInt => do pure [.int (← v.asInt)]
  | .str false _, v => if v.isNull then some [.txt "NULL"] else do
      pure ([.txt "\""] ++ printChars (← v.asBytes) ++ [.txt "\""])
  | .str true _, v => if v.isNull then some [.txt "NULL"] else do
      let b ← v.asBytes
      pure ([.txt "BINARY<", .num b.length, .txt ">["] ++ b.flatMap (fun x => [.txt " 0x", .hex x.toNat]) ++ [.txt "]"])
  | .tup h fs, v => if v.isNull then some [.txt "NULL"] else do
      let m ← v.asPtr
      let nm ← printName h.name
      let s ← getSize (.tup h fs) m
      let x ← printFlds fs (.tup h fs) m (← getCount (.tup h fs) m) 0
      pure ([.txt "("] ++ nm ++ [.txt ")<", .num s, .txt ">("] ++ x ++ [.txt ")"])
  | .arr h c, v => if v.isNull then some [.txt "NULL"] else do
      let m ← v.asPtr
      let s ← getSize (.arr h c) m
      let x ← printLoop (printDatum c) (.arr h c) m (← getCount (.arr h c) m) 0
      pure ([.txt "ARRAY<", .num s, .txt ">["] ++ x ++ [.txt "]"])
/-- The loop over the fields of a tuple, /repo/src/datum.c:404-415. -/
def printFlds : List (Fld × Dti) → Dti → Bytes → Nat → Nat → Option (List Tok)
  | [], _, _, n, i => if i < n then none else some []
  | (f, t) :: r, d, m, n, i =>
    if i < n then do
      let x ← match ← d.getContUnsafe m i with
        | none => pure []
        | some c => do pure ((← d.printOff m ⟨f.off, f.vbit, t⟩ c) ++ (← printDatum t c))
      pure (comma i ++ x ++ (← printFlds r d m n (i + 1)))
    else some []
end

/-- `print_data_for_data_type_info`, /repo/src/data_type_info.c:1442-1447. If there is no datum to get,
the uninitialised variable is printed, which is a fault. -/
def printData (d : Dti) (m : Bytes) : Option (List Tok) := do
  match ← d.getDatum m with
  | none => none
  | some v => d.printDatum v

/-- `print_tuple`, /repo/src/tuple.c:712-716. -/
def printTuple (d : Dti) (m : Bytes) : Option (List Tok) := do
  pure ((← d.printData m) ++ [.txt "\n"])

/-! ### types -/

/-- `print_tabs`, /repo/src/data_type_info.c:1343-1350, and a line of text with one conversion. -/
def line (tabs : Nat) (s : String) (x : Tok) (e : String) : List Tok :=
  List.replicate tabs (.txt "\t") ++ [.txt s, x, .txt e]

/-- A line of text, /repo/src/data_type_info.c:1384-1432. -/
def line0 (tabs : Nat) (s : String) : List Tok := List.replicate tabs (.txt "\t") ++ [.txt s]

/-- `types_as_string`, /repo/src/data_type_info.c:13-24. -/
def kindText : Kind → String
  | .bitField => "BIT_FIELD" | .uint => "UINT" | .int => "INT" | .float => "FLOAT" | .largeUint => "LARGE_UINT"
  | .largeInt => "LARGE_INT" | .string => "STRING" | .binary => "BINARY" | .tuple => "TUPLE" | .array => "ARRAY"

/-- The part of `print_type_info_recursive` for every type, /repo/src/data_type_info.c:1354-1374. -/
def printHead (d : Dti) (tabs : Nat) : List Tok :=
  List.replicate tabs (.txt "\t") ++
    [.txt "type_name : \"", .str (cname d.hdr.name), .txt "\" (", .txt (if d.hdr.isFinal then "" else "not-"), .txt "finalized)\n"] ++
  line tabs "type : " (.txt (kindText d.kind)) "\n" ++
  line tabs "is_nullable : " (.num d.isNullable.toNat) "\n" ++
  line tabs "is_variable_sized : " (.num d.isVar.toNat) "\n" ++
  line tabs "needs_is_valid_bit_in_prefix_bitmap : " (.num d.needsValid.toNat) "\n" ++
  (if d.isBit then line tabs "bit_field_size : " (.num d.hdr.size) "\n"
   else if !d.isVar then line tabs "size : " (.num d.hdr.size) "\n"
   else line tabs "min_size : " (.num d.hdr.size) "\n" ++ line tabs "max_size : " (.num d.hdr.maxSize) "\n") ++
  line tabs "is_container_type : " (.num d.isCont.toNat) "\n"

/-- The part of `print_type_info_recursive` for every container, /repo/src/data_type_info.c:1378-1393. -/
def printContHead (d : Dti) (tabs : Nat) : List Tok :=
  line tabs "has_size_in_prefix : " (.num d.hasSizeP.toNat) "\n" ++
  line tabs "has_element_count_in_prefix : " (.num d.hasCountP.toNat) "\n" ++
  (if d.hdr.varCount then line0 tabs "element_count : variable\n"
   else line tabs "element_count : " (.num d.hdr.count) "\n" ++
     line tabs "prefix_bitmap_size_in_bits : " (.num d.hdr.bits) "\n")

/-- What is printed about the position of a field, /repo/src/data_type_info.c:1404-1422. -/
def printPos (f : Fld) (t : Dti) (tabs : Nat) : Option (List Tok) := do
  let nm ← printName f.name
  pure (List.replicate tabs (.txt "\t") ++ [.txt "field_name : "] ++ nm ++ [.txt "\n"] ++
    (if t.isBit then line tabs "bit_offset : " (.num f.off) "\n"
     else if !t.isVar then line tabs "byte_offset : " (.num f.off) "\n"
     else line tabs "byte_offset_to_byte_offset : " (.num f.off) "\n") ++
    (if t.needsValid then line tabs "bit_offset_to_is_valid_bit : " (.num f.vbit) "\n" else []))

mutual
/-- `print_type_info_recursive`, /repo/src/data_type_info.c:1352-1435. The containee of a string or
binary type is set when it is finalised (/repo/src/data_type_info.c:95); before that it may be a NULL
pointer, a fault. -/
def printTypeRec : Dti → Nat → Option (List Tok)
  | .prim k h, tabs => some (printHead (.prim k h) tabs)
  | .str b h, tabs =>
      if h.isFinal then
        some (printHead (.str b h) tabs ++ printContHead (.str b h) tabs ++ line0 (tabs + 1) "[\n" ++ printHead u8 (tabs + 2) ++
          line0 (tabs + 1) "]\n")
      else none
  | .tup h fs, tabs => do
      let x ← printTypeFlds fs h.count tabs
      pure (printHead (.tup h fs) tabs ++ printContHead (.tup h fs) tabs ++ line0 (tabs + 1) "(\n" ++ x ++ line0 (tabs + 1) ")\n")
  | .arr h c, tabs => do
      let x ← printTypeRec c (tabs + 2)
      pure (printHead (.arr h c) tabs ++ printContHead (.arr h c) tabs ++ line0 (tabs + 1) "[\n" ++ x ++ line0 (tabs + 1) "]\n")
/-- The loop over the fields, /repo/src/data_type_info.c:1399-1425, with `n` iterations left; a field behind the
array is a fault. -/
def printTypeFlds : List (Fld × Dti) → Nat → Nat → Option (List Tok)
  | _, 0, _ => some []
  | [], _ + 1, _ => none
  | (f, t) :: r, n + 1, tabs => do
      let a ← printPos f t (tabs + 2)
      let x ← printTypeRec t (tabs + 3)
      pure (a ++ x ++ (← printTypeFlds r n tabs))
end

/-- `print_type_info`, /repo/src/data_type_info.c:1437-1440. -/
def printType (d : Dti) : Option (List Tok) := printTypeRec d 0

end Dti

/-- `print_tuple_size_def`, /repo/src/tuple_def.c:272-297. -/
def printSizeDef (d : SizeDef) : List Tok :=
  Dti.line 0 "is_variable_sized : " (.num d.isVar.toNat) "\n" ++
  if !d.isVar then Dti.line 0 "size = " (.num d.size) "\n"
  else
    Dti.line 0 "min_size : " (.num d.size) "\n" ++ Dti.line 0 "max_size : " (.num d.maxSize) "\n" ++
    Dti.line 0 "has_size_in_prefix : " (.num d.hasSize.toNat) "\n" ++
    Dti.line 0 "has_element_count_in_prefix : " (.num d.hasCount.toNat) "\n" ++
    if d.hasSize then []
    else
      Dti.line 0 "does_containee_need_is_valid_bit_in_prefix : " (.num d.contValid.toNat) "\n" ++
      Dti.line 0 "is_containee_bit_field : " (.num d.contIsBit.toNat) "\n" ++
      if d.contIsBit then Dti.line 0 "containee_bit_field_size : " (.num d.contSize) "\n"
      else Dti.line 0 "containee_size : " (.num d.contSize) "\n"

/-- `print_tuple_def`, /repo/src/tuple_def.c:299-305. -/
def printTupleDef (sd : SizeDef) (ty : Dti) : Option (List Tok) := do
  pure ([.txt "size_def : "] ++ printSizeDef sd ++ [.txt "type_info : "] ++ (← ty.printType))

/-! ### pages -/
namespace Api

/-- One iteration of the loops over the tuples of a page, /repo/src/page_layout_slotted.c:773-783 and
/repo/src/page_layout_fixed_array.c:499-512: both call the functions of their layout that
`exists_tuple_on_page` and `get_nth_tuple_on_page` select, and the size is the one of the tuple
respectively of the definition. The pointer is not compared with NULL before it is used. -/
def printSlot (pg : Bytes) (ps : Nat) (sd : SizeDef) (ty : Dti) (i : Nat) : Option (List Tok) := do
  if ← existsTuple pg ps sd i then do
    let o ← ← getNth pg ps sd i
    let n ← if slotted sd then tupleSize sd (pg.drop o) else some sd.size
    pure ([.txt "\t\ttuple ", .num i, .txt "\n", .txt "\t\t\toffset[", .off o, .txt "] size(", .num n, .txt ") :: "] ++
      (← ty.printTuple (pg.drop o)) ++ [.txt "\n\n"])
  else pure [.txt "\t\ttuple ", .num i, .txt "\n", .txt "\t\t\tTOMB STONE\n\n"]

/-- The loop over the tuples of a page, /repo/src/page_layout_slotted.c:771-784 and
/repo/src/page_layout_fixed_array.c:497-513. -/
def printSlots (pg : Bytes) (ps : Nat) (sd : SizeDef) (ty : Dti) : Nat → Nat → Option (List Tok)
  | 0, _ => some []
  | k + 1, i => do
    let x ← printSlot pg ps sd ty i
    pure (x ++ (← printSlots pg ps sd ty k (i + 1)))

/-- `print_slotted_page`, /repo/src/page_layout_slotted.c:764-786, and `print_fixed_array_page`,
/repo/src/page_layout_fixed_array.c:492-513. -/
def printTuples (pg : Bytes) (ps : Nat) (sd : SizeDef) (ty : Dti) : Option (List Tok) := do
  let n ← tupleCount pg ps sd
  let hd ← if slotted sd then pure [.txt "SLOTTED PAGE :\n\n", .txt "\tTuples :: (", .num n, .txt ")\n"]
    else do pure [.txt "FIXED ARRAY PAGE :\n\n", .txt "\tTuples :: (", .num n, .txt " of ", .num (← Fixed.capacity pg ps sd), .txt ")\n"]
  pure (hd ++ (← printSlots pg ps sd ty n 0) ++ [.txt "\n\n\n"])

/-- `print_page`, /repo/src/page_layout.c:397-415. -/
def printPage (pg : Bytes) (ps : Nat) (sd : SizeDef) (ty : Dti) : Option (List Tok) := do
  let a ← spaceAllotted pg ps sd
  let b ← spaceOcc pg ps sd
  let c ← spaceTomb pg ps sd
  let f ← freeSpace pg ps sd
  let g ← fragmentation pg ps sd
  let n ← tupleCount pg ps sd
  let t ← tombCount pg ps sd
  pure ([.txt "PAGE : \n", .txt "space allotted   = ", .num a, .txt "\n", .txt "space occupied   = ", .num b,
    .txt " (tomb_stones occupy ", .num c, .txt ")\n", .txt "free space       = ", .num f, .txt "\n",
    .txt "fragmented space = ", .num g, .txt "\n", .txt "\n", .txt "tuple_count      = ", .num n, .txt "\n",
    .txt "tomb_stone_count = ", .num t, .txt "\n", .txt "\n"] ++ (← printTuples pg ps sd ty))

/-- The loop of `print_page_in_hex`, /repo/src/page_layout.c:419-424: `k` more bytes from `i` on. -/
def printHexLoop (pg : Bytes) : Nat → Nat → Option (List Tok)
  | 0, _ => some []
  | k + 1, i => do
    let b ← pg[i]?
    let x := (if i % 8 = 0 then [.txt "\n"] else []) ++ [.txt "[", .num i, .txt "](", .hex b.toNat, .txt ")", .str [b], .txt " \t "]
    pure (x ++ (← printHexLoop pg k (i + 1)))

/-- `print_page_in_hex`, /repo/src/page_layout.c:417-426. -/
def printHex (pg : Bytes) (ps : Nat) : Option (List Tok) := do
  pure ((← printHexLoop pg ps 0) ++ [.txt "\n\n"])

end Api
end TS
