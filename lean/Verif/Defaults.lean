import Verif.TypeSer
/-
Model of the predefined types and of the macros that build types,
/repo/inc/tuplestore/data_type_info_defaults.h and /repo/src/data_type_info_defaults.c, and of
`initialize_tuple_def`, /repo/src/tuple_def.c.
-/
namespace TS
namespace Dti

/-- `define_bit_field_nullable_type("", n)` and its siblings,
/repo/inc/tuplestore/data_type_info_defaults.h:38-166: a static type that is not finalised.
Members that the macros do not mention are 0. -/
def defPrim (k : PKind) (nullable : Bool) (n : Nat) : Dti :=
  .prim k { isStatic := true, isFinal := false, name := [], nullable := nullable, isVar := false, size := n }

/-- An array of `n` pointers to predefined types, the first of which is NULL,
/repo/src/data_type_info_defaults.c:4-70 and below. -/
def defTable (k : PKind) (nullable : Bool) (n : Nat) : List (Option Dti) :=
  none :: (List.range (n - 1)).map fun i => some (defPrim k nullable (i + 1))

/-- `BIT_FIELD_NULLABLE`, /repo/src/data_type_info_defaults.c:4-70, and `BIT_FIELD_NON_NULLABLE`,
72-138. -/
def bitFieldTable (nullable : Bool) : List (Option Dti) := defTable .bitField nullable 65

/-- `UINT_NULLABLE`, /repo/src/data_type_info_defaults.c:140-150, and `UINT_NON_NULLABLE`, 152-162. -/
def uintTable (nullable : Bool) : List (Option Dti) := defTable .uint nullable 9

/-- `INT_NULLABLE`, /repo/src/data_type_info_defaults.c:164-174, and `INT_NON_NULLABLE`, 176-186. -/
def intTable (nullable : Bool) : List (Option Dti) := defTable .int nullable 9

/-- `FLOAT_float_NULLABLE`, `FLOAT_double_NULLABLE` and their siblings,
/repo/src/data_type_info_defaults.c:188-192, here by their size. -/
def floatTable (nullable : Bool) (n : Nat) : Option Dti :=
  if n = 4 then some (defPrim .float nullable 4)
  else if n = 8 then some (defPrim .float nullable 8)
  else none

/-- `LARGE_UINT_NULLABLE`, /repo/src/data_type_info_defaults.c:194-228, and
`LARGE_UINT_NON_NULLABLE`, 230-264. -/
def largeUintTable (nullable : Bool) : List (Option Dti) := defTable .largeUint nullable 33

/-- `LARGE_INT_NULLABLE`, /repo/src/data_type_info_defaults.c:266-300, and `LARGE_INT_NON_NULLABLE`,
302-336. -/
def largeIntTable (nullable : Bool) : List (Option Dti) := defTable .largeInt nullable 33

/-- The predefined type of a kind and size. `none` is NULL or an index outside of the array. -/
def predefined (k : PKind) (nullable : Bool) (n : Nat) : Option Dti :=
  match k with
  | .bitField => ((bitFieldTable nullable)[n]?).getD none
  | .uint => ((uintTable nullable)[n]?).getD none
  | .int => ((intTable nullable)[n]?).getD none
  | .float => floatTable nullable n
  | .largeUint => ((largeUintTable nullable)[n]?).getD none
  | .largeInt => ((largeIntTable nullable)[n]?).getD none

/-- `get_fixed_length_string_type`, /repo/inc/tuplestore/data_type_info_defaults.h:168-179, and
`get_fixed_length_binary_type`, 181-192. -/
def fixedStr (bin : Bool) (name : Bytes) (n : Nat) (nullable : Bool) : Dti :=
  .str bin { name := name, nullable := nullable, size := n, varCount := false, count := n }

/-- `get_variable_length_string_type`, /repo/inc/tuplestore/data_type_info_defaults.h:194-203, and
`get_variable_length_binary_type`, 205-214. -/
def varStr (bin : Bool) (name : Bytes) (max : Nat) : Dti :=
  .str bin { name := name, maxSize := max, varCount := true }

/-- `get_fixed_element_count_array_type`, /repo/inc/tuplestore/data_type_info_defaults.h:216-227. -/
def fixedArr (name : Bytes) (n max : Nat) (nullable : Bool) (c : Dti) : Dti :=
  .arr { name := name, nullable := nullable, maxSize := max, varCount := false, count := n } c

/-- `get_variable_element_count_array_type`, /repo/inc/tuplestore/data_type_info_defaults.h:229-238. -/
def varArr (name : Bytes) (max : Nat) (c : Dti) : Dti :=
  .arr { name := name, maxSize := max, varCount := true } c

/-- `initialize_tuple_data_type_info`, /repo/inc/tuplestore/data_type_info_defaults.h:240-248, on the
members `h` that the memory held before. `strncpy` copies up to 64 characters. -/
def initTup (h : Hdr) (name : Bytes) (nullable : Bool) (max count : Nat) : Hdr :=
  { h with isStatic := false, isFinal := false, name := cname name, nullable := nullable, maxSize := max,
           varCount := false, count := count }

/-- `initialize_tuple_size_def`, /repo/src/tuple_def.c:7-58, with its call of `finalize_type_info`:
the type afterwards and the size definition. `none` is the return value 0. -/
def initSizeDef (d0 : SizeDef) (d : Dti) : Option (Dti × SizeDef) :=
  if d.isBit then none
  else do
    let d' ← finalize d
    pure (d', ← sizeDefOf d0 d')

/-- `initialize_tuple_def`, /repo/src/tuple_def.c:60-66: a `tuple_def` is the size definition and the
type. -/
def initTupleDef (d0 : SizeDef) (d : Dti) : Option (Dti × SizeDef) := initSizeDef d0 d

/-- `init_tuple`, /repo/src/tuple.c:7-10. -/
def initTuple (td : Dti × SizeDef) (m : Bytes) : Option (Bytes × Nat) := td.1.initMin m

/-- `get_tuple_size`, /repo/src/tuple_def.c:94-97. -/
def tupleSizeOf (td : Dti × SizeDef) (m : Bytes) : Option Nat := tupleSize td.2 m

/-- `is_variable_sized_tuple_size_def`, `is_variable_sized_tuple_def`, /repo/src/tuple_def.c:124-132. -/
def isVarDef (td : Dti × SizeDef) : Bool := td.2.isVar

/-- `is_fixed_sized_tuple_def`, /repo/src/tuple_def.c:134-137. -/
def isFixedDef (td : Dti × SizeDef) : Bool := !isVarDef td

end Dti
end TS
