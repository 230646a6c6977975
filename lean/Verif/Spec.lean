import Verif.SizeDef
/-
Independent specification of a page of tuples: an ordinary list of optional byte strings.
Nothing in this file mentions offsets, bitmaps, counters or bytes of a page.
-/
namespace TS

/-- Logical contents of a page: `none` is a tomb stone. -/
abbrev Slots := List (Option Bytes)

/-- Number of bytes of tuple data in a slot. -/
def dataLen : Option Bytes → Nat
  | none => 0
  | some t => t.length

/-- Total number of bytes of tuple data. -/
def liveSum (s : Slots) : Nat := (s.map dataLen).sum

/-- Number of tomb stones. -/
def tombs (s : Slots) : Nat := s.countP (·.isNone)

/-- Number of tomb stones at the end of the page. -/
def trailing (s : Slots) : Nat := (s.reverse.takeWhile (·.isNone)).length

/-- The page without its trailing tomb stones. -/
def dropTrailing (s : Slots) : Slots := (s.reverse.dropWhile (·.isNone)).reverse

/-- The tuple found at index `i`, if any (out of range and tomb stone both give nothing). -/
def lookup (s : Slots) (i : Nat) : Option Bytes := (s[i]?).join

/-- The page with slots `i` and `j` exchanged. -/
def swapSlots (s : Slots) (i j : Nat) : Slots :=
  match s[i]?, s[j]? with
  | some a, some b => (s.set i b).set j a
  | _, _ => s

end TS
