import Verif.TypeHeap
/-
Model of the sizes of the objects that represent types, and of `deserialize_type_info` with a check that
containees are written inside of the object that was allocated for them.
-/
namespace TS

/-- What depends on the compiler: the number of values of `size_t`, `sizeof(data_type_info)` and
`sizeof(data_position_info)`. -/
structure Abi where
  word : Nat
  head : Nat
  pos : Nat

namespace Dti

/-- `sizeof_tuple_data_type_info`, /repo/inc/tuplestore/data_type_info.h:119, in `size_t`. -/
def sizeofTup (A : Abi) (count : Nat) : Nat := (A.head + A.pos * count) % A.word

/-- `get_shallow_copy_struct_size_for_data_type_info`, /repo/inc/tuplestore/data_type_info.h:379-385. -/
def structSize (A : Abi) : Dti → Nat
  | .tup h _ => sizeofTup A h.count
  | _ => A.head

/-- The loop over the containees of a tuple, /repo/src/data_type_info.c:1049-1077, as in `deserFields`, from containee `i` on; the
tuple type is in an object of `sz` bytes, and writing the name of a containee that is not in there is a fault.
(`deserialize_type_name` writes nothing if it fails, lines 537-558.) -/
def deserFieldsS (A : Abi) (sz : Nat) (rec : Bytes → Nat → Option (Option Dti)) (m : Bytes) (n : Nat) :
    Nat → Nat → Nat → Option (Option (List (Fld × Dti)))
  | 0, _, _ => some (some [])
  | k + 1, i, b => do
    match ← deserName (m.drop b) (wsub n b) with
    | none => pure none
    | some (nm, l) =>
      if sz < A.head + A.pos * (i + 1) then none
      else do
        let b := w32 (b + l)
        match ← rec (m.drop b) (wsub n b) with
        | none => pure none
        | some t =>
          let t := (finalize t).getD (finLeft t)
          let c ← byteCount t
          match ← deserFieldsS A sz rec m n k (i + 1) (w32 (b + c)) with
          | none => pure none
          | some r => pure (some (({ name := nm }, t) :: r))

/-- The TUPLE case, /repo/src/data_type_info.c:998-1081: the object has `sizeof_tuple_data_type_info(element_count)` bytes (lines
1011 and 1030); its members before the containees are written in any case. -/
def deserTupS (A : Abi) (rec : Bytes → Nat → Option (Option Dti)) (h : Hdr) (m : Bytes) (n b : Nat) : Option (Option Dti) :=
  if sizeofTup A h.count < A.head then none
  else do
    match ← deserName (m.drop b) (wsub n b) with
    | none => pure none
    | some (nm, l) =>
      match ← deserFieldsS A (sizeofTup A h.count) rec m n h.count 0 (w32 (b + l)) with
      | none => pure none
      | some fs => pure (some (.tup { h with name := nm } fs))

/-- `deserialize_type_info`, /repo/src/data_type_info.c:562-1141, as in `deserF`, with objects of limited size. Allocations
are assumed to succeed. -/
def deserS (A : Abi) : Nat → Bytes → Nat → Option (Option Dti)
  | 0, _, _ => some none
  | f + 1, m, n =>
    if n < 1 then some none
    else do
      match ← deserHead (← m[0]?).toNat m n with
      | none => pure none
      | some (.leaf d b) => finishName d m n b
      | some (.tup h b) => deserTupS A (deserS A f) h m n b
      | some (.arr h b) => deserArr (deserS A f) h m n b

end Dti
end TS
