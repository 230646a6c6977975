import Verif.Numeral
import Verif.TypeSer
import Verif.Container
/-
Model of copying an element from one tuple to another, /repo/src/tuple.c.
-/
namespace TS
namespace Dti

/-- `dti->type == STRING || dti->type == BINARY` -/
def isStr : Dti → Bool
  | .str .. => true
  | _ => false

/-- `set_element_in_tuple_from_tuple`, /repo/src/tuple.c:287-312. The two tuples do not overlap: the
datum that is read points into the source, which stays as it is. `datum uval_in_settable = {}` is
the empty datum. -/
def setFromTuple (cv : Conv) (d : Dti) (m : Bytes) (pa : List Nat) (d2 : Dti) (m2 : Bytes) (pa2 : List Nat) (inc : Nat) :
    Option (Bytes × Bool) := do
  match ← d2.getElem m2 pa2 with
  | none => pure (m, false)
  | some v =>
    match d2.typeAt pa2 with
    | none => pure (m, false)
    | some t2 =>
      match d.typeAt pa with
      | none => pure (m, false)
      | some t =>
        if ← ident t t2 then d.setElem m pa v inc
        else if t.isNum && t2.isNum then do
          match ← typeCast cv .empty t v t2 with
          | (_, false) => pure (m, false)
          | (v', true) => d.setElem m pa v' inc
        else if t.isStr && t2.isStr then d.setElem m pa v inc
        else pure (m, false)

end Dti
end TS
