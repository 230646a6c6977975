import Verif.Numeral
import Verif.TypeSer
/-
Model of the comparison and hashing of data and tuples, /repo/src/datum.c, /repo/src/tuple.c,
/repo/src/tuple_hasher.c, /repo/src/data_type_info.c:1449-1505.
-/
namespace TS
namespace Dti

/-- `get_element_count_for_datum`, /repo/src/datum.c:12-31. -/
def countOf (v : Datum) (d : Dti) : Option Nat :=
  if !d.isCont then some 0
  else if v.isNull then some 0
  else match d with
    | .str .. => do pure (← v.asBytes).length
    | d => match v with
      | .ptr m => d.getCount m
      | _ => none

/-- `get_containee_from_datum`, /repo/src/datum.c:33-75: the containee and its type (none is the
NULL pointer); `some none` is the return value 0. -/
def contOf (v : Datum) (d : Dti) (i : Nat) : Option (Option (Datum × Option Dti)) :=
  if !d.isCont then some none
  else if v.isNull then some (some (.null, none))
  else do
    if i ≥ (← countOf v d) then pure none
    else match d with
      | .str .. => do pure (some (.uint (← (← v.asBytes)[i]?).toNat, some u8))
      | d => match v with
        | .ptr m => do
          match ← d.getCont m i with
          | none => pure none
          | some x => pure (some (x, some (← d.posInfo m i).ty))
        | _ => none

/-- The containee at `i`, NULL if there is none, /repo/src/datum.c:144-152. -/
def childOf (v : Datum) (d : Dti) (i : Nat) : Option (Datum × Option Dti) := do
  pure ((← contOf v d i).getD (.null, none))

/-- `get_nested_containee_from_datum`, /repo/src/datum.c:81-112. The type is the NULL pointer below a
NULL datum; going on from there dereferences it. -/
def nestedOf (v : Datum) (d : Option Dti) : List Nat → Option (Option (Datum × Option Dti))
  | [] => some (some (v, d))
  | i :: pa => do
    match ← contOf v (← d) i with
    | none => pure none
    | some (c, t) => nestedOf c t pa

/-- `can_compare_datum` on a type without containee, /repo/src/datum.c:114-124. -/
def canCmpPrim (p d : Dti) : Option Bool := do
  if ← ident p d then pure true else pure (p.isNum && d.isNum)

/-- `can_compare_datum`, /repo/src/datum.c:114-124. (Only STRING, BINARY and ARRAY types have a
`containee`; it is `u8` for the first two.) -/
def canCompare : Dti → Dti → Option Bool
  | .prim k h, d => canCmpPrim (.prim k h) d
  | .tup h fs, d => ident (.tup h fs) d
  | .str b h, d => do
    if ← ident (.str b h) d then pure true
    else match d.cont with
      | some c2 => canCmpPrim u8 c2
      | none => pure false
  | .arr h c, d => do
    if ← ident (.arr h c) d then pure true
    else match d.cont with
      | some c2 => canCompare c c2
      | none => pure false

/-- The loop over the elements of two containers, /repo/src/datum.c:164-177: from index `i` on for
`k` more elements; `f` compares two elements that are not NULL, given the type of the second. -/
def cmpLoop (f : Dti → Datum → Datum → Option Int) (v1 : Datum) (d1 : Dti) (v2 : Datum) (d2 : Dti) :
    Nat → Nat → Option Int
  | 0, _ => some 0
  | k + 1, i => do
    let (c1, _) ← childOf v1 d1 i
    let (c2, t2) ← childOf v2 d2 i
    let r ← cmpNull c1 c2 (do f (← t2) c1 c2)
    if r ≠ 0 then pure r else cmpLoop f v1 d1 v2 d2 k (i + 1)

/-- The case of STRING, BINARY and ARRAY, /repo/src/datum.c:158-186. -/
def cmpSeq (f : Dti → Datum → Datum → Option Int) (v1 : Datum) (d1 : Dti) (v2 : Datum) (d2 : Dti) :
    Option Int := do
  let n1 ← countOf v1 d1
  let n2 ← countOf v2 d2
  let r ← cmpLoop f v1 d1 v2 d2 (min n1 n2) 0
  if r = 0 && n1 ≠ n2 then (if n1 > n2 then pure 1 else pure (-1)) else pure r

mutual
/-- `compare_datum_internal`, /repo/src/datum.c:127-187. -/
def cmpI : Dti → Dti → Datum → Datum → Option Int
  | .prim k h, d2, v1, v2 => cmpNull v1 v2 (compareNum v1 (.prim k h) v2 d2)
  | .tup h fs, d2, v1, v2 => cmpNull v1 v2 (do
      cmpFlds fs (.tup h fs) d2 v1 v2 (← countOf v1 (.tup h fs)) 0)
  | .str b h, d2, v1, v2 =>
    cmpNull v1 v2 (cmpSeq (fun t2 x y => compareNum x u8 y t2) v1 (.str b h) v2 d2)
  | .arr h c, d2, v1, v2 =>
    cmpNull v1 v2 (cmpSeq (fun t2 x y => cmpI c t2 x y) v1 (.arr h c) v2 d2)
/-- The loop over the fields of two tuples, /repo/src/datum.c:140-156, from index `i` on, whose
types in the first tuple are the given ones. -/
def cmpFlds : List (Fld × Dti) → Dti → Dti → Datum → Datum → Nat → Nat → Option Int
  | [], _, _, _, _, n, i => if i < n then none else some 0
  | (_, t) :: r, d1, d2, v1, v2, n, i =>
    if i < n then do
      let (c1, _) ← childOf v1 d1 i
      let (c2, t2) ← childOf v2 d2 i
      let x ← cmpNull c1 c2 (do cmpI t (← t2) c1 c2)
      if x ≠ 0 then pure x else cmpFlds r d1 d2 v1 v2 n (i + 1)
    else some 0
end

/-- `compare_datum`, /repo/src/datum.c:189-198. A type may be the NULL pointer; it is then
dereferenced unless one of the data is NULL. -/
def compareDatum (v1 : Datum) (d1 : Option Dti) (v2 : Datum) (d2 : Option Dti) : Option Int :=
  match d1, d2 with
  | some d1, some d2 => do
    if !(← canCompare d1 d2) then pure (-2) else cmpI d1 d2 v1 v2
  | _, _ => cmpNull v1 v2 none

/-- The loop over the characters of two strings, /repo/src/datum.c:240-241. -/
def cmpChars (a b : Bytes) : Nat → Nat → Option Int
  | 0, _ => some 0
  | k + 1, i => do
    let r := Num.cmpInt (← a[i]?).toNat (← b[i]?).toNat
    if r ≠ 0 then pure r else cmpChars a b k (i + 1)

/-- The loop over the elements of two arrays of the same type, /repo/src/datum.c:259-273; `f`
compares two elements. -/
def cmpLoop2 (f : Datum → Datum → Option Int) (v1 v2 : Datum) (d : Dti) : Nat → Nat → Option Int
  | 0, _ => some 0
  | k + 1, i => do
    let (c1, _) ← childOf v1 d i
    let (c2, _) ← childOf v2 d i
    let r ← f c1 c2
    if r ≠ 0 then pure r else cmpLoop2 f v1 v2 d k (i + 1)

mutual
/-- `compare_datum_internal2`, /repo/src/datum.c:200-284. -/
def cmpI2 : Dti → Datum → Datum → Option Int
  | .prim k h, v1, v2 => cmpNull v1 v2 (compareNum2 v1 v2 (.prim k h))
  | .tup h fs, v1, v2 => cmpNull v1 v2 (do
      cmpFlds2 fs (.tup h fs) v1 v2 (← countOf v1 (.tup h fs)) 0)
  | .str b h, v1, v2 => cmpNull v1 v2 (do
      let n1 ← countOf v1 (.str b h)
      let n2 ← countOf v2 (.str b h)
      let r ← cmpChars (← v1.asBytes) (← v2.asBytes) (min n1 n2) 0
      if r = 0 && n1 ≠ n2 then (if n1 > n2 then pure 1 else pure (-1)) else pure r)
  | .arr h c, v1, v2 => cmpNull v1 v2 (do
      let n1 ← countOf v1 (.arr h c)
      let n2 ← countOf v2 (.arr h c)
      let r ← cmpLoop2 (fun x y => cmpI2 c x y) v1 v2 (.arr h c) (min n1 n2) 0
      if r = 0 && n1 ≠ n2 then (if n1 > n2 then pure 1 else pure (-1)) else pure r)
/-- The loop over the fields of two tuples of the same type, /repo/src/datum.c:213-231. -/
def cmpFlds2 : List (Fld × Dti) → Dti → Datum → Datum → Nat → Nat → Option Int
  | [], _, _, _, n, i => if i < n then none else some 0
  | (_, t) :: r, d, v1, v2, n, i =>
    if i < n then do
      let (c1, _) ← childOf v1 d i
      let (c2, _) ← childOf v2 d i
      let x ← cmpI2 t c1 c2
      if x ≠ 0 then pure x else cmpFlds2 r d v1 v2 n (i + 1)
    else some 0
end

/-- `compare_datum2`, /repo/src/datum.c:286-289. The type may be the NULL pointer. -/
def compareDatum2 (v1 v2 : Datum) (d : Option Dti) : Option Int :=
  match d with
  | some d => cmpI2 d v1 v2
  | none => cmpNull v1 v2 none

/-! ### tuples -/

/-- The datum at a position, NULL if it cannot be read, /repo/src/tuple.c:555-557. -/
def elemOrNull (d : Dti) (m : Bytes) (pa : List Nat) : Option Datum := do
  pure ((← d.getElem m pa).getD .null)

/-- `compare_elements_of_tuple`, /repo/src/tuple.c:550-572. `same` tells whether the two types are
the same pointer. -/
def compareElems (same : Bool) (m1 : Bytes) (d1 : Dti) (p1 : List Nat) (m2 : Bytes) (d2 : Dti) (p2 : List Nat) :
    Option Int := do
  let v1 ← d1.elemOrNull m1 p1
  let v2 ← d2.elemOrNull m2 p2
  if same then compareDatum2 v1 v2 (d2.typeAt p2)
  else compareDatum v1 (d1.typeAt p1) v2 (d2.typeAt p2)

/-- The loop shared by all comparisons of several elements, /repo/src/tuple.c:580-592, 613-625,
648-660, 665-677: the comparisons, in order, with the direction of each. -/
def cmpMany : List (Option Int × Int) → Option Int
  | [] => some 0
  | (x, dir) :: r => do
    let c ← x
    if c = -2 then pure (-2)
    else
      let c := c * dir
      if c = 0 then cmpMany r else pure c

/-- One compared position: in the first tuple, in the second tuple, whether their types are the same
pointer, and the direction. -/
structure CmpPos where
  p1 : List Nat
  p2 : List Nat
  same : Bool := false
  dir : Int := 1

/-- `compare_tuples` behind its test for the same type and positions, /repo/src/tuple.c:574-593.
(`element_ids == NULL` stands for the positions [0], [1], …; `cmp_dir == NULL` for the direction
1.) -/
def compareTuples (m1 : Bytes) (d1 : Dti) (m2 : Bytes) (d2 : Dti) (ps : List CmpPos) : Option Int :=
  cmpMany (ps.map (fun p => (compareElems p.same m1 d1 p.p1 m2 d2 p.p2, p.dir)))

/-- `compare_elements_of_tuple2`, /repo/src/tuple.c:628-644. -/
def compareElems2 (m1 m2 : Bytes) (d : Dti) (p : List Nat) : Option Int := do
  let v1 ← d.elemOrNull m1 p
  let v2 ← d.elemOrNull m2 p
  compareDatum2 v1 v2 (d.typeAt p)

/-- `compare_tuples2`, /repo/src/tuple.c:646-661; also `compare_tuples` if both types and both
position arrays are the same pointers. -/
def compareTuples2 (m1 m2 : Bytes) (d : Dti) (ps : List (List Nat × Int)) : Option Int :=
  cmpMany (ps.map (fun p => (compareElems2 m1 m2 d p.1, p.2)))

/-- `compare_element_with_datum`, /repo/src/tuple.c:595-609. -/
def compareElemDatum (same : Bool) (m1 : Bytes) (d1 : Dti) (p1 : List Nat) (v2 : Datum) (t2 : Dti) : Option Int := do
  let v1 ← d1.elemOrNull m1 p1
  if same then compareDatum2 v1 v2 (some t2)
  else compareDatum v1 (d1.typeAt p1) v2 (some t2)

/-- `compare_tuple_with_datum`, /repo/src/tuple.c:611-626: positions, whether the types are the same
pointer, data, their types and the directions. -/
def compareTupleDatum (m1 : Bytes) (d1 : Dti) (ps : List (List Nat × Bool × Datum × Dti × Int)) : Option Int :=
  cmpMany (ps.map (fun p => (compareElemDatum p.2.1 m1 d1 p.1 p.2.2.1 p.2.2.2.1, p.2.2.2.2)))

/-- `compare_datums3`, /repo/src/tuple.c:663-678. -/
def compareDatums3 (xs : List (Datum × Datum × Dti × Int)) : Option Int :=
  cmpMany (xs.map (fun x => (compareDatum2 x.1 x.2.1 (some x.2.2.1), x.2.2.2)))

/-! ### hashing -/

section
variable {σ : Type} (upd : σ → UInt8 → σ)

/-- `tuple_hash_bytes`, /repo/src/tuple_hasher.c:9-14, with the state of the hasher made explicit.
`tuple_hash_byte`, /repo/src/tuple_hasher.c:3-7, is `upd` itself. -/
def hashBytes (h : σ) (b : Bytes) : σ := b.foldl upd h

/-- The bytes fed for a bit field, least significant first, one byte per bit,
/repo/src/datum.c:296-304. -/
def bitBytes (n size : Nat) : Bytes := (List.range size).map (fun i => if n.testBit i then 1 else 0)

/-- The loop over the elements of an array, /repo/src/datum.c:320-328: from index `i` on, `k` more.
An element that cannot be read is skipped. -/
def hashLoop (f : σ → Dti → Datum → Option σ) (d : Dti) (v : Datum) : Nat → Nat → σ → Option σ
  | 0, _, h => some h
  | k + 1, i, h => do
    match ← contOf v d i with
    | none => hashLoop f d v k (i + 1) h
    | some (c, t) =>
      let h ← if c.isNull then some h else do f h (← t) c
      hashLoop f d v k (i + 1) h

mutual
/-- `hash_datum`, /repo/src/datum.c:291-330. The buffer for the serialised number, `sizeof(datum)`
bytes, is modelled with 33 bytes; its old contents do not matter. -/
def hashDatum (h : σ) : Dti → Datum → Option σ
  | .prim .bitField hd, v => if v.isNull then some h else do
      pure (hashBytes upd h (bitBytes (← v.asUint) hd.size))
  | .prim k hd, v => if v.isNull then some h else do
      let (m, _) ← setDatum (.prim k hd) (List.replicate 33 0) false 0 v
      let n ← getSize (.prim k hd) m
      pure (hashBytes upd h (← load m 0 n))
  | .str _ _, v => if v.isNull then some h else do
      pure (hashBytes upd h (← v.asBytes))
  | .tup hd fs, v => if v.isNull then some h else do
      hashFlds h fs (.tup hd fs) v (← countOf v (.tup hd fs)) 0
  | .arr hd c, v => if v.isNull then some h else do
      hashLoop (fun h _ x => hashDatum h c x) (.arr hd c) v (← countOf v (.arr hd c)) 0 h
/-- The loop over the fields of a tuple, /repo/src/datum.c:320-328. -/
def hashFlds (h : σ) : List (Fld × Dti) → Dti → Datum → Nat → Nat → Option σ
  | [], _, _, n, i => if i < n then none else some h
  | (_, t) :: r, d, v, n, i =>
    if i < n then do
      match ← contOf v d i with
      | none => hashFlds h r d v n (i + 1)
      | some (c, _) =>
        let h ← if c.isNull then some h else hashDatum h t c
        hashFlds h r d v n (i + 1)
    else some h
end

/-- `hash_containee_in_container`, /repo/src/data_type_info.c:1479-1505, for an index that was found
in bounds by the caller or not; `f` is `hash_data_for_type_info` on the type and memory of the
containee. -/
def hashCont (f : σ → Dti → Bytes → Option σ) (h : σ) (d : Dti) (m : Bytes) (i : Nat) : Option σ :=
  if !d.isCont then some h
  else do
    if i ≥ (← d.getCount m) then pure h
    else do
      let p ← d.posInfo m i
      if ← d.isNullAt m p then pure h
      else do
        let o ← ← d.ptrAt m p
        if p.ty.isBit then do
          pure (hashBytes upd h (bitBytes (← getBits m d.offBitmap p.off p.ty.hdr.size) p.ty.hdr.size))
        else f h p.ty (m.drop o)

/-- The loop of `hash_data_for_type_info` over an ARRAY, BINARY or STRING (`text`), which ends at the
first 0 of a STRING, /repo/src/data_type_info.c:1458-1474. -/
def hashDataLoop (f : σ → Dti → Bytes → Option σ) (text : Bool) (d : Dti) (m : Bytes) :
    Nat → Nat → σ → Option σ
  | 0, _, h => some h
  | k + 1, i, h => do
    let stop ← if text then do
        let x ← ← d.getContUnsafe m i
        pure (decide ((← x.asUint) = 0))
      else some false
    if stop then pure h
    else do
      let h ← hashCont upd f h d m i
      hashDataLoop f text d m k (i + 1) h

/-- `hash_data_for_type_info` on a type that is not a container,
/repo/src/data_type_info.c:1451-1456. -/
def hashPrim (h : σ) (d : Dti) (m : Bytes) : Option σ :=
  if d.isBit then some h else do pure (hashBytes upd h (← load m 0 d.hdr.size))

mutual
/-- `hash_data_for_type_info`, /repo/src/data_type_info.c:1449-1476. (The loop bound, re-read by the C
code in every iteration, is read once: nothing is written.) -/
def hashData (h : σ) : Dti → Bytes → Option σ
  | .prim k hd, m => hashPrim upd h (.prim k hd) m
  | .str bin hd, m => do
      hashDataLoop upd (fun h t c => hashPrim upd h t c) (!bin) (.str bin hd) m (← getCount (.str bin hd) m) 0 h
  | .tup hd fs, m => do hashDataFlds h fs (.tup hd fs) m (← getCount (.tup hd fs) m) 0
  | .arr hd c, m => do
      hashDataLoop upd (fun h _ x => hashData h c x) false (.arr hd c) m (← getCount (.arr hd c) m) 0 h
/-- The same loop over the fields of a TUPLE. -/
def hashDataFlds (h : σ) : List (Fld × Dti) → Dti → Bytes → Nat → Nat → Option σ
  | [], _, _, n, i => if i < n then none else some h
  | (_, t) :: r, d, m, n, i =>
    if i < n then do
      let h ← hashCont upd (fun h _ x => hashData h t x) h d m i
      hashDataFlds h r d m n (i + 1)
    else some h
end

/-- `hash_element_within_tuple`, /repo/src/tuple.c:680-693. -/
def hashElem (h : σ) (m : Bytes) (d : Dti) (pa : List Nat) : Option σ :=
  match d.typeAt pa with
  | none => some h
  | some t => do
    match ← d.getElem m pa with
    | none => pure h
    | some v => hashDatum upd h t v

/-- `hash_tuple`, /repo/src/tuple.c:695-708 (`element_ids == NULL` stands for [0], [1], …). -/
def hashTuple (m : Bytes) (d : Dti) : List (List Nat) → σ → Option σ
  | [], h => some h
  | p :: r, h => do
    let h ← hashElem upd h m d p
    hashTuple m d r h

end
end Dti
end TS
