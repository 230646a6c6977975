import Verif.Container
/-
Model of /repo/src/primitive_numeral_types.c: comparison, casts, smallest and largest values of the
primitive numeral types.

Floating point numbers are bit patterns (IEEE 754 binary32 and binary64). Their comparison is exact
comparison of the numbers they stand for. The functions of the external library serint that are
called here are modelled by what they compute on mathematical integers; conversions between
integers and floating point numbers are a parameter (`Conv`), of which the rounding of IEEE 754 is
assumed where C converts and less where serint does (`Conv.Ok`); `Rounding.lean` has an instance.
-/
namespace TS

/-- A number, exact: all finite floating point numbers are integer multiples of 2^-1074, so `fin z`
is the number z / 2^1074. -/
inductive Num where
  | ninf
  | fin (z : Int)
  | pinf
  | nan
deriving DecidableEq, Repr

namespace Num

/-- The integer `z`. -/
def ofInt (z : Int) : Num := .fin (z * 2 ^ 1074)

/-- The sign of `a - b`, cutlery `compare_numbers` (external library). -/
def cmpInt (a b : Int) : Int := if a < b then -1 else if b < a then 1 else 0

/-- `compare_numbers` on two numbers that are not NaN. -/
def cmp : Num → Num → Int
  | .fin a, .fin b => cmpInt a b
  | .ninf, .ninf => 0
  | .pinf, .pinf => 0
  | .nan, _ => 0
  | _, .nan => 0
  | .ninf, _ => -1
  | _, .ninf => 1
  | .pinf, _ => 1
  | _, .pinf => -1

/-- The number with sign bit `s`, exponent field `e`, fraction field `f` of `fb` bits; `emax` is the
largest exponent field and `sh` the scale of the smallest numbers. -/
def ofFields (s e f fb emax sh : Nat) : Num :=
  if e = emax then (if f = 0 then (if s = 0 then .pinf else .ninf) else .nan)
  else
    let m : Int := if e = 0 then f * 2 ^ sh else (f + 2 ^ fb) * 2 ^ (e - 1 + sh)
    .fin (if s = 0 then m else -m)

/-- The number a `float` (4 bytes) or `double` (8 bytes) stands for. -/
def ofBits (b : Bytes) : Num :=
  let n := leDec b
  if b.length = 4 then ofFields (n / 2 ^ 31) (n / 2 ^ 23 % 2 ^ 8) (n % 2 ^ 23) 23 255 925
  else ofFields (n / 2 ^ 63) (n / 2 ^ 52 % 2 ^ 11) (n % 2 ^ 52) 52 2047 0

/-- The number that an infinity of `n` bytes stands for when numbers are rounded: the first power of
two that is too large. -/
def past (n : Nat) : Int := 2 ^ (1074 + if n = 4 then 128 else 1024)

/-- A number in units of 2^-1074, infinities as above. -/
def ext (n : Nat) : Num → Int
  | .fin z => z
  | .pinf => past n
  | .ninf => -past n
  | .nan => 0

end Num

/-- C `isnan`. -/
def isnan (b : Bytes) : Bool := decide (Num.ofBits b = .nan)

/-- serint `compare_uintb64_double`, `compare_intb64_double`, `compare_uint256_double`,
`compare_int256_double` (external library): exact comparison of an integer with a number that is not
NaN. -/
def cmpIntDouble (z : Int) (b : Bytes) : Int := Num.cmp (.ofInt z) (.ofBits b)

/-- C `compare_numbers` on two floating point numbers, of which a `float` is promoted to `double`. -/
def cmpDouble (a b : Bytes) : Int := Num.cmp (.ofBits a) (.ofBits b)

/-- IEEE 754 round to nearest, ties to even: `b` is a number of `n` bytes that is nearest to
x / 2^1074, and its last bit is 0 if another one is as near. -/
structure Rounds (n : Nat) (x : Int) (b : Bytes) : Prop where
  len : b.length = n
  num : Num.ofBits b ≠ .nan
  near : ∀ c : Bytes, c.length = n → Num.ofBits c ≠ .nan →
    ((Num.ofBits b).ext n - x).natAbs ≤ ((Num.ofBits c).ext n - x).natAbs
  even : ∀ c : Bytes, c.length = n → Num.ofBits c ≠ .nan → Num.ofBits c ≠ Num.ofBits b →
    ((Num.ofBits b).ext n - x).natAbs = ((Num.ofBits c).ext n - x).natAbs → leDec b % 2 = 0

namespace Dti

/-- `is_primitive_numeral_type_info`, /repo/src/primitive_numeral_types.c:7-21. -/
def isNum : Dti → Bool
  | .prim .. => true
  | _ => false

/-- The comparison of an integer with a FLOAT of type header `h`,
/repo/src/primitive_numeral_types.c:44-62. -/
def cmpIntFlt (z : Int) (h : Hdr) (e2 : Datum) : Option Int :=
  if h.size = 4 || h.size = 8 then do
    let b ← e2.asFlt h.size
    if isnan b then pure (-1) else pure (cmpIntDouble z b)
  else some (-2)

/-- The comparison of a FLOAT of type header `h` with an integer,
/repo/src/primitive_numeral_types.c:148-168. -/
def cmpFltInt (h : Hdr) (e1 : Datum) (z : Int) : Option Int := do
  let b ← e1.asFlt h.size
  if isnan b then pure 1 else pure (-(cmpIntDouble z b))

/-- The comparison of two FLOATs, /repo/src/primitive_numeral_types.c:169-195, 237-263. -/
def cmpFltFlt (h1 h2 : Hdr) (e1 e2 : Datum) : Option Int :=
  if h2.size = 4 || h2.size = 8 then do
    let a ← e1.asFlt h1.size
    let b ← e2.asFlt h2.size
    if isnan a && isnan b then pure 0
    else if isnan a then pure 1
    else if isnan b then pure (-1)
    else pure (cmpDouble a b)
  else some (-2)

/-- `compare_primitive_numeral_type` behind its tests for NULL,
/repo/src/primitive_numeral_types.c:32-368. -/
def cmpPrim (k1 : PKind) (h1 : Hdr) (e1 : Datum) (k2 : PKind) (h2 : Hdr) (e2 : Datum) : Option Int :=
  match k1, k2 with
  -- BIT_FIELD, lines 34-70
  | .bitField, .bitField => do pure (Num.cmpInt (← e1.asUint) (← e2.asUint))
  | .bitField, .uint => do pure (Num.cmpInt (← e1.asUint) (← e2.asUint))
  | .bitField, .int => do pure (-(Num.cmpInt (← e2.asInt) (← e1.asUint)))
  | .bitField, .float => do cmpIntFlt (← e1.asUint) h2 e2
  | .bitField, .largeUint => do pure (Num.cmpInt (← e1.asUint) (← e2.asUint))
  | .bitField, .largeInt => do pure (-(Num.cmpInt (← e2.asInt) (← e1.asUint)))
  -- UINT, lines 71-107
  | .uint, .bitField => do pure (Num.cmpInt (← e1.asUint) (← e2.asUint))
  | .uint, .uint => do pure (Num.cmpInt (← e1.asUint) (← e2.asUint))
  | .uint, .int => do pure (-(Num.cmpInt (← e2.asInt) (← e1.asUint)))
  | .uint, .float => do cmpIntFlt (← e1.asUint) h2 e2
  | .uint, .largeUint => do pure (Num.cmpInt (← e1.asUint) (← e2.asUint))
  | .uint, .largeInt => do pure (-(Num.cmpInt (← e2.asInt) (← e1.asUint)))
  -- INT, lines 108-144
  | .int, .bitField => do pure (Num.cmpInt (← e1.asInt) (← e2.asUint))
  | .int, .uint => do pure (Num.cmpInt (← e1.asInt) (← e2.asUint))
  | .int, .int => do pure (Num.cmpInt (← e1.asInt) (← e2.asInt))
  | .int, .float => do cmpIntFlt (← e1.asInt) h2 e2
  | .int, .largeUint => do pure (Num.cmpInt (← e1.asInt) (← e2.asUint))
  | .int, .largeInt => do pure (Num.cmpInt (← e1.asInt) (← e2.asInt))
  -- FLOAT, lines 145-291
  | .float, k2 =>
    if h1.size = 4 || h1.size = 8 then
      match k2 with
      | .bitField => do cmpFltInt h1 e1 (← e2.asUint)
      | .uint => do cmpFltInt h1 e1 (← e2.asUint)
      | .int => do cmpFltInt h1 e1 (← e2.asInt)
      | .float => cmpFltFlt h1 h2 e1 e2
      | .largeUint => do cmpFltInt h1 e1 (← e2.asUint)
      | .largeInt => do cmpFltInt h1 e1 (← e2.asInt)
    else some (-2)
  -- LARGE_UINT, lines 292-328
  | .largeUint, .bitField => do pure (Num.cmpInt (← e1.asUint) (← e2.asUint))
  | .largeUint, .uint => do pure (Num.cmpInt (← e1.asUint) (← e2.asUint))
  | .largeUint, .int => do pure (-(Num.cmpInt (← e2.asInt) (← e1.asUint)))
  | .largeUint, .float => do cmpIntFlt (← e1.asUint) h2 e2
  | .largeUint, .largeUint => do pure (Num.cmpInt (← e1.asUint) (← e2.asUint))
  | .largeUint, .largeInt => do pure (-(Num.cmpInt (← e2.asInt) (← e1.asUint)))
  -- LARGE_INT, lines 329-365
  | .largeInt, .bitField => do pure (Num.cmpInt (← e1.asInt) (← e2.asUint))
  | .largeInt, .uint => do pure (Num.cmpInt (← e1.asInt) (← e2.asUint))
  | .largeInt, .int => do pure (Num.cmpInt (← e1.asInt) (← e2.asInt))
  | .largeInt, .float => do cmpIntFlt (← e1.asInt) h2 e2
  | .largeInt, .largeUint => do pure (Num.cmpInt (← e1.asInt) (← e2.asUint))
  | .largeInt, .largeInt => do pure (Num.cmpInt (← e1.asInt) (← e2.asInt))

/-- The tests for NULL that start all comparison functions,
/repo/src/primitive_numeral_types.c:25-30, /repo/src/datum.c:129-134, 202-207. -/
def cmpNull (e1 e2 : Datum) (f : Option Int) : Option Int :=
  if e1.isNull && e2.isNull then some 0
  else if e1.isNull && !e2.isNull then some (-1)
  else if !e1.isNull && e2.isNull then some 1
  else f

/-- `compare_primitive_numeral_type`, /repo/src/primitive_numeral_types.c:23-369. -/
def compareNum (e1 : Datum) (d1 : Dti) (e2 : Datum) (d2 : Dti) : Option Int :=
  cmpNull e1 e2 (match d1, d2 with
    | .prim k1 h1, .prim k2 h2 => cmpPrim k1 h1 e1 k2 h2 e2
    | _, _ => some (-2))

/-- `compare_primitive_numeral_type2`, /repo/src/primitive_numeral_types.c:371-424. -/
def compareNum2 (e1 e2 : Datum) (d : Dti) : Option Int :=
  cmpNull e1 e2 (match d with
    | .prim .bitField _ | .prim .uint _ | .prim .largeUint _ => do
      pure (Num.cmpInt (← e1.asUint) (← e2.asUint))
    | .prim .int _ | .prim .largeInt _ => do
      pure (Num.cmpInt (← e1.asInt) (← e2.asInt))
    | .prim .float h =>
      if h.size = 4 || h.size = 8 then do
        let a ← e1.asFlt h.size
        let b ← e2.asFlt h.size
        if isnan a && isnan b then pure 0
        else if isnan a then pure 1
        else if isnan b then pure (-1)
        else pure (cmpDouble a b)
      else some (-2)
    | _ => some (-2))

/-! ### casts -/

/-- Conversions between integers and floating point numbers: `ofInt n z` is the `float` (n = 4) or
`double` (n = 8) that C makes of the integer `z`; `ofFlt n b` is the one it makes of the `double` or
`float` `b`; `ofBig z` is the `double` of serint `convert_to_double_uint256`/`_int256`;
`toInt signed bits b` is serint `convert_from_double_uintb64`/`_intb64`/`_uint256`/`_int256`, `none` is
its return value 0. -/
structure Conv where
  ofInt : Nat → Int → Bytes
  ofFlt : Nat → Bytes → Bytes
  ofBig : Int → Bytes
  toInt : Bool → Nat → Bytes → Option Int

/-- The range of an integer of so many bits. -/
def InRange (signed : Bool) (bits : Nat) (z : Int) : Prop :=
  if signed then -(2 ^ (bits - 1) : Int) ≤ z ∧ z < 2 ^ (bits - 1) else 0 ≤ z ∧ z < 2 ^ bits

/-- What is assumed of the conversions. Those of C round to the nearest, ties to even (IEEE 754); a
converted floating point number keeps its sign, also that of zero. Those of serint yield a neighbour and
keep the order, respectively are exact where the target type has the number. -/
structure Conv.Ok (cv : Conv) : Prop where
  intLen : ∀ n z, (cv.ofInt n z).length = n
  fltLen : ∀ n b, n = 4 ∨ n = 8 → (cv.ofFlt n b).length = n
  bigLen : ∀ z, (cv.ofBig z).length = 8
  ofInt : ∀ n z, n = 4 ∨ n = 8 → Rounds n (z * 2 ^ 1074) (cv.ofInt n z)
  ofFlt : ∀ n (b : Bytes), n = 4 ∨ n = 8 → b.length = 4 ∨ b.length = 8 →
    match Num.ofBits b with
    | .fin x => Rounds n x (cv.ofFlt n b)
    | y => Num.ofBits (cv.ofFlt n b) = y
  sign : ∀ n (b : Bytes), n = 4 ∨ n = 8 → b.length = 4 ∨ b.length = 8 → Num.ofBits b ≠ .nan →
    leDec (cv.ofFlt n b) / 2 ^ (8 * n - 1) = leDec b / 2 ^ (8 * b.length - 1)
  bigNum : ∀ z, Num.ofBits (cv.ofBig z) ≠ .nan
  bigBetween : ∀ z (c : Bytes), c.length = 8 → Num.ofBits c ≠ .nan →
    ((Num.ofBits c).ext 8 ≤ z * 2 ^ 1074 → (Num.ofBits c).ext 8 ≤ (Num.ofBits (cv.ofBig z)).ext 8) ∧
    (z * 2 ^ 1074 ≤ (Num.ofBits c).ext 8 → (Num.ofBits (cv.ofBig z)).ext 8 ≤ (Num.ofBits c).ext 8)
  bigOrder : ∀ z w, z ≤ w → (Num.ofBits (cv.ofBig z)).ext 8 ≤ (Num.ofBits (cv.ofBig w)).ext 8
  toRange : ∀ s bits b z, cv.toInt s bits b = some z → InRange s bits z
  toExact : ∀ s bits b z, Num.ofBits b = .ofInt z → InRange s bits z → cv.toInt s bits b = some z

/-- Conversion of an integer to `uint64_t` (`bits = 64`) or `uint256`. -/
def toU (bits : Nat) (z : Int) : Nat := (z % (2 ^ bits : Nat)).toNat

/-- Conversion of an integer to `int64_t` or `int256` (two's complement). -/
def toS (bits : Nat) (z : Int) : Int := (z + (2 ^ (bits - 1) : Nat)) % (2 ^ bits : Nat) - (2 ^ (bits - 1) : Nat)

/-- The conversion of an integer to a FLOAT type with header `h`: directly, or by way of a double
(`big`, lines 640-649, 688-697), /repo/src/primitive_numeral_types.c:604-704. -/
def castToFlt (cv : Conv) (h : Hdr) (big : Bool) (z : Int) : Option (Option Datum) :=
  if h.size = 4 || h.size = 8 then
    if !big then some (some (.flt (cv.ofInt h.size z)))
    else if h.size = 4 then some (some (.flt (cv.ofFlt 4 (cv.ofBig z))))
    else some (some (.flt (cv.ofBig z)))
  else some none

/-- The conversion of a value of a FLOAT type with header `hf` to an integer; a float is promoted to
double, which is exact. /repo/src/primitive_numeral_types.c:459-480. -/
def castFromFlt (cv : Conv) (signed : Bool) (bits : Nat) (e : Datum) (hf : Hdr) : Option (Option Datum) :=
  if hf.size = 4 || hf.size = 8 then do
    let b ← e.asFlt hf.size
    match cv.toInt signed bits b with
    | none => pure none
    | some z => pure (some (if signed then .int z else .uint z.toNat))
  else some none

/-- The value assigned by `type_cast_primitive_numeral_type` for `e_from` not NULL,
/repo/src/primitive_numeral_types.c:440-799; `some none` is the return value 0. -/
def castVal (cv : Conv) (k : PKind) (h : Hdr) (e : Datum) (kf : PKind) (hf : Hdr) : Option (Option Datum) :=
  match k, kf with
  -- BIT_FIELD, lines 442-495
  | .bitField, .bitField => do pure (some (.uint (← e.asUint)))
  | .bitField, .uint => do pure (some (.uint (← e.asUint)))
  | .bitField, .int => do pure (some (.uint (toU 64 (← e.asInt))))
  | .bitField, .float => castFromFlt cv false 64 e hf
  | .bitField, .largeUint => do pure (some (.uint ((← e.asUint) % 2 ^ 64)))
  | .bitField, .largeInt => do pure (some (.uint (toU 64 (← e.asInt))))
  -- UINT, lines 496-549
  | .uint, .bitField => do pure (some (.uint (← e.asUint)))
  | .uint, .uint => do pure (some (.uint (← e.asUint)))
  | .uint, .int => do pure (some (.uint (toU 64 (← e.asInt))))
  | .uint, .float => castFromFlt cv false 64 e hf
  | .uint, .largeUint => do pure (some (.uint ((← e.asUint) % 2 ^ 64)))
  | .uint, .largeInt => do pure (some (.uint (toU 64 (← e.asInt))))
  -- INT, lines 550-603
  | .int, .bitField => do pure (some (.int (toS 64 (← e.asUint))))
  | .int, .uint => do pure (some (.int (toS 64 (← e.asUint))))
  | .int, .int => do pure (some (.int (← e.asInt)))
  | .int, .float => castFromFlt cv true 64 e hf
  | .int, .largeUint => do pure (some (.int (toS 64 (← e.asUint))))
  | .int, .largeInt => do pure (some (.int (toS 64 (← e.asInt))))
  -- FLOAT, lines 604-704
  | .float, .bitField => do castToFlt cv h false (← e.asUint)
  | .float, .uint => do castToFlt cv h false (← e.asUint)
  | .float, .int => do castToFlt cv h false (← e.asInt)
  | .float, .float =>
    if (h.size = 4 || h.size = 8) && (hf.size = 4 || hf.size = 8) then do
      let b ← e.asFlt hf.size
      if h.size = hf.size then pure (some (.flt b)) else pure (some (.flt (cv.ofFlt h.size b)))
    else some none
  | .float, .largeUint => do castToFlt cv h true (← e.asUint)
  | .float, .largeInt => do castToFlt cv h true (← e.asInt)
  -- LARGE_UINT, lines 705-750
  | .largeUint, .bitField => do pure (some (.uint (← e.asUint)))
  | .largeUint, .uint => do pure (some (.uint (← e.asUint)))
  | .largeUint, .int => do pure (some (.uint (toU 256 (← e.asInt))))
  | .largeUint, .float => castFromFlt cv false 256 e hf
  | .largeUint, .largeUint => do pure (some (.uint (← e.asUint)))
  | .largeUint, .largeInt => do pure (some (.uint (toU 256 (← e.asInt))))
  -- LARGE_INT, lines 751-796
  | .largeInt, .bitField => do pure (some (.int (toS 256 (← e.asUint))))
  | .largeInt, .uint => do pure (some (.int (toS 256 (← e.asUint))))
  | .largeInt, .int => do pure (some (.int (← e.asInt)))
  | .largeInt, .float => castFromFlt cv true 256 e hf
  | .largeInt, .largeUint => do pure (some (.int (toS 256 (← e.asUint))))
  | .largeInt, .largeInt => do pure (some (.int (← e.asInt)))

/-- `type_cast_primitive_numeral_type`, /repo/src/primitive_numeral_types.c:426-800: the new `*e` and
the return value; `e0` is the old `*e`. The member `is_NULL` of `*e` is only written if `e_from` is
NULL: otherwise a `*e` that was NULL stays NULL. -/
def typeCast (cv : Conv) (e0 : Datum) (d : Dti) (e : Datum) (df : Dti) : Option (Datum × Bool) :=
  if e.isNull then
    some (if d.isNullable then .null else .empty, true)
  else
    match d, df with
    | .prim k h, .prim kf hf => do
      match ← castVal cv k h e kf hf with
      | none => pure (e0, false)
      | some v => pure (if e0.isNull then .null else v, true)
    | _, _ => some (e0, false)

/-! ### smallest and largest values -/

/-- `-INFINITY` (`get_FLOAT_MIN` and `get_DOUBLE_MIN`, /repo/inc/tuplestore/float_accesses.h:78-86;
`get_FLOAT_MAX` and `get_DOUBLE_MAX` are not used) and `NAN` as the bytes of a `float` or `double`. (The NaN is the quiet
one with an empty payload; any other would do.) -/
def negInf (n : Nat) : Bytes := if n = 4 then leEnc 4 (511 * 2 ^ 23) else leEnc 8 (4095 * 2 ^ 52)
def aNan (n : Nat) : Bytes := if n = 4 then leEnc 4 (511 * 2 ^ 22) else leEnc 8 (4095 * 2 ^ 51)

/-- `get_MIN_value_for_primitive_numeral_type_info`,
/repo/src/primitive_numeral_types.c:802-832. serint `get_UINT64_MIN(n)` is 0, `get_INT64_MIN(n)` is
-2^(8n-1); `get_bitmask_lower_n_bits_set_int256(n)` is 2^n - 1 and `bitwise_not_int256(x)` is -x-1
(external library). -/
def minValue (d : Dti) : Datum :=
  if d.isNullable then .null
  else match d with
    | .prim .uint _ => .uint 0
    | .prim .int h => .int (-(2 ^ (8 * h.size - 1) : Int))
    | .prim .float h => if h.size = 4 || h.size = 8 then .flt (negInf h.size) else .null
    | .prim .largeUint _ => .uint 0
    | .prim .largeInt h => .int (-(2 ^ (8 * h.size - 1) - 1 : Int) - 1)
    | .prim .bitField _ => .uint 0
    | _ => .null

/-- `get_MAX_value_for_primitive_numeral_type_info`,
/repo/src/primitive_numeral_types.c:834-861. serint `get_UINT64_MAX(n)` is 2^(8n) - 1,
`get_INT64_MAX(n)` is 2^(8n-1) - 1. -/
def maxValue (d : Dti) : Datum :=
  match d with
  | .prim .uint h => .uint (2 ^ (8 * h.size) - 1)
  | .prim .int h => .int (2 ^ (8 * h.size - 1) - 1)
  | .prim .float h => if h.size = 4 || h.size = 8 then .flt (aNan h.size) else .null
  | .prim .largeUint h => .uint (2 ^ (8 * h.size) - 1)
  | .prim .largeInt h => .int (2 ^ (8 * h.size - 1) - 1)
  | .prim .bitField h => .uint (if h.size = 64 then 2 ^ 64 - 1 else 2 ^ h.size - 1)
  | _ => .null

end Dti
end TS
