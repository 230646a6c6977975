import Verif.Copy
/-
Copying an element of a tuple to another element of the same tuple, /repo/src/tuple.c. The datum
that is read points into the tuple that is written: here every read through it is a read of the
tuple as it is at that moment. (In Copy.lean the source is memory that stays as it is, as
/repo/inc/tuplestore/tuple.h:37 demands of the caller.)
-/
namespace TS

/-- What the caller's `datum` holds after an element of the tuple was read,
/repo/inc/tuplestore/data_type_info.h:761-837: a number or NULL, `string_value` (as an offset into
the tuple) with `string_size`, or `tuple_value`/`array_value` (as an offset). -/
inductive Loc where
  | val (v : Datum)
  | bytes (a n : Nat)
  | ptr (a : Nat)

/-- The datum as it reads while the tuple is `m`. -/
def Loc.den (m : Bytes) : Loc → Option Datum
  | .val v => some v
  | .bytes a n => do pure (.bytes (← load m a n))
  | .ptr a => some (.ptr (m.drop a))

namespace Dti

/-- `get_datum_for_type_info`, /repo/inc/tuplestore/data_type_info.h:761-837, for the datum at offset
`o` of the tuple `m`. -/
def getDatumLoc (d : Dti) (m : Bytes) (o : Nat) : Option (Option Loc) :=
  match d with
  | .prim k h => do
    match ← getDatum (.prim k h) (m.drop o) with
    | none => pure none
    | some v => pure (some (.val v))
  | .str bin h => do
    let n ← getCount (.str bin h) (m.drop o)
    let b ← load m (o + offBitmap (.str bin h)) n
    pure (some (.bytes (o + offBitmap (.str bin h)) (if bin then n else (strn b).length)))
  | .tup .. | .arr .. => some (some (.ptr o))

/-- `get_datum_to_containee_from_container`, /repo/inc/tuplestore/data_type_info.h:839-877, for the
container at offset `o` of the tuple. -/
def getContLoc (d : Dti) (m : Bytes) (o i : Nat) : Option (Option Loc) :=
  if !d.isCont then some none
  else do
    if i ≥ (← d.getCount (m.drop o)) then pure none
    else do
      let p ← d.posInfo (m.drop o) i
      match ← d.ptrAt (m.drop o) p with
      | none => pure (some (.val .null))
      | some a =>
        if p.ty.isBit then
          pure (some (.val (.uint (← getBits (m.drop o) a p.off p.ty.hdr.size))))
        else p.ty.getDatumLoc m (o + a)

/-- `get_value_from_element_from_tuple`, /repo/src/tuple.c:12-56. -/
def getElemLoc (d : Dti) (m : Bytes) (o : Nat) : List Nat → Option (Option Loc)
  | [] => d.getDatumLoc m o
  | [i] => d.getContLoc m o i
  | i :: j :: pa =>
    if !d.isCont then some none
    else do
      if i ≥ (← d.getCount (m.drop o)) then pure none
      else do
        let p ← d.posInfo (m.drop o) i
        match ← d.ptrAt (m.drop o) p with
        | none => pure (some (.val .null))
        | some a => getElemLoc p.ty m (o + a) (j :: pa)

/-- Runs a function on the tuple from offset `o` on. -/
def lift (m : Bytes) (o : Nat) (f : Bytes → Option Bytes) : Option Bytes := do
  pure (m.take o ++ (← f (m.drop o)))

/-- `set_datum_for_type_info`, /repo/inc/tuplestore/data_type_info.h:1097-1257, for the datum at
offset `o` of the tuple `m`, with a `uval` that points into the tuple. Everything is read before
anything is written, except by a variable sized STRING or BINARY: there the count is written
(lines 1205, 1218) before the characters are read (lines 1206, 1219). -/
def setDatumLoc (d : Dti) (m : Bytes) (o : Nat) (valid : Bool) (inc : Nat) (v : Loc) :
    Option (Bytes × Bool) :=
  match d, v with
  | .str bin h, .bytes a n =>
    if h.isVar then do
      let b ← load m a n
      let k := if bin then n else (strn b).length
      let old ← oldSize (.str bin h) (m.drop o) valid
      let new ← u32 (vsz h.maxSize + k)
      if !fits h.maxSize old new inc then pure (m, false)
      else do
        let m ← lift m o (fun c => storeVal c h.maxSize 0 k)
        let b ← load m a k
        let m ← lift m o (fun c => store c (vsz h.maxSize) b)
        pure (m, true)
    else do
      let b ← load m a n
      atOff m o (fun c => setDatum (.str bin h) c valid inc (.bytes b))
  | d, v => do
    let v ← v.den m
    atOff m o (fun c => d.setDatum c valid inc v)

/-- `set_datum_to_containee_in_container_CONTAINITY_UNSAFE` once the position is known,
/repo/inc/tuplestore/data_type_info.h:1297-1363, for the container at offset `o` of the tuple `m`
and a datum that points into the tuple: it is not NULL, and no bit field is set to it. -/
def setAtLoc (d : Dti) (m : Bytes) (o i : Nat) (p : PosInfo) (inc : Nat) (v : Loc) : Option (Bytes × Bool) :=
  if !p.ty.isVar then do
    let m ← if p.ty.needsValid then lift m o (fun c => setBit c d.offBitmap p.vbit) else some m
    if p.ty.isBit then none
    else do
      let a ← ← d.ptrAt (m.drop o) p
      p.ty.setDatumLoc m (o + a) true inc v
  else do
    let (m, _) ← atOff m o (fun c => d.moveEnd c i p)
    let s ← d.getSize (m.drop o)
    let inc := min inc (← sub32 d.hdr.maxSize s)
    let a? ← d.ptrAt (m.drop o) p
    let a := a?.getD s
    let cs ← match a? with
      | none => some 0
      | some a => p.ty.getSize ((m.drop o).drop a)
    let (m, r) ← p.ty.setDatumLoc m (o + a) a?.isSome inc v
    let m ← if r && a?.isNone then lift m o (fun c => storeVal c d.hdr.maxSize p.off s) else some m
    let m ← if r && d.hasSizeP then do
        let ns ← p.ty.getSize ((m.drop o).drop a)
        let z ← u32 ((← sub32 s cs) + ns)
        lift m o (fun c => storeVal c d.hdr.maxSize 0 z)
      else some m
    pure (m, r)

/-- `set_datum_to_containee_in_container`, /repo/inc/tuplestore/data_type_info.h:1365-1376. -/
def setContLoc (d : Dti) (m : Bytes) (o i inc : Nat) (v : Loc) : Option (Bytes × Bool) :=
  if !d.isCont then some (m, false)
  else do
    if i ≥ (← d.getCount (m.drop o)) then pure (m, false)
    else d.setAtLoc m o i (← d.posInfo (m.drop o) i) inc v

/-- `set_element_in_tuple_INTERNAL`, /repo/src/tuple.c:209-272. -/
def setElemILoc (d : Dti) (m : Bytes) (o inc : Nat) (v : Loc) (iv : Bool) :
    List Nat → Option (Bytes × Bool)
  | [] => d.setDatumLoc m o true inc v
  | [i] => d.setContLoc m o i inc v
  | i :: j :: pa =>
    if !d.isCont then some (m, false)
    else do
      if i ≥ (← d.getCount (m.drop o)) then pure (m, false)
      else do
        let inc ← if d.isVar then do pure (min inc (← sub32 d.hdr.maxSize (← d.getSize (m.drop o)))) else some inc
        let p ← d.posInfo (m.drop o) i
        let (m, _) ← if iv then atOff m o (fun c => d.moveEnd c i p) else some (m, false)
        match ← d.ptrAt (m.drop o) p with
        | none => pure (m, false)
        | some a =>
          if iv then do
            let s ← d.getSize (m.drop o)
            let cs ← d.sizeAt (m.drop o) p
            let (m, r) ← setElemILoc p.ty m (o + a) inc v iv (j :: pa)
            if r then do
              let ns ← d.sizeAt (m.drop o) p
              let z ← u32 ((← sub32 s cs) + ns)
              let m ← lift m o (fun c => d.overwriteSize c z)
              pure (m, r)
            else pure (m, r)
          else setElemILoc p.ty m (o + a) inc v iv (j :: pa)

/-- `set_element_in_tuple`, /repo/src/tuple.c:275-285, with what an element of the same tuple was
read as. -/
def setElemLoc (d : Dti) (m : Bytes) (pa : List Nat) (v : Loc) (inc : Nat) : Option (Bytes × Bool) :=
  match v with
  | .val v => d.setElem m pa v inc
  | v =>
    match d.typeAt pa with
    | none => some (m, false)
    | some t => d.setElemILoc m 0 inc v t.isVar pa

/-- `set_element_in_tuple_from_tuple`, /repo/src/tuple.c:287-312, with `tupl_in == tupl`. (Numbers
are read into the datum; it does not point to them.) -/
def setFromSelf (cv : Conv) (d : Dti) (m : Bytes) (pa pa2 : List Nat) (inc : Nat) : Option (Bytes × Bool) := do
  match ← d.getElemLoc m 0 pa2 with
  | none => pure (m, false)
  | some v =>
    match d.typeAt pa2 with
    | none => pure (m, false)
    | some t2 =>
      match d.typeAt pa with
      | none => pure (m, false)
      | some t =>
        if ← ident t t2 then d.setElemLoc m pa v inc
        else if t.isNum && t2.isNum then do
          match ← typeCast cv .empty t (← v.den m) t2 with
          | (_, false) => pure (m, false)
          | (v', true) => d.setElem m pa v' inc
        else if t.isStr && t2.isStr then d.setElemLoc m pa v inc
        else pure (m, false)

end Dti
end TS
