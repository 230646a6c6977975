import Verif.Bytes
/-
Model of `tuple_size_def` (/repo/inc/tuplestore/tuple_def.h, /repo/src/tuple_def.c).
-/
namespace TS

/-- `struct tuple_size_def`, /repo/inc/tuplestore/tuple_def.h:8-40. The two C unions
(`size`/`min_size`, `containee_size`/`containee_bit_field_size`) are single fields. -/
structure SizeDef where
  /-- `is_variable_sized` -/
  isVar : Bool
  /-- `size` (fixed) / `min_size` (variable) -/
  size : Nat
  /-- `max_size` -/
  maxSize : Nat
  /-- `has_size_in_prefix` -/
  hasSize : Bool
  /-- `has_element_count_in_prefix` -/
  hasCount : Bool
  /-- `does_containee_need_is_valid_bit_in_prefix` -/
  contValid : Bool
  /-- `is_containee_bit_field` -/
  contIsBit : Bool
  /-- `containee_size` / `containee_bit_field_size` -/
  contSize : Nat
deriving DecidableEq, Repr

/-- cutlery `bitmap_size_in_bytes`: bytes needed for `n` bits (external library). -/
def bitmapBytes (n : Nat) : Nat := (n + 7) / 8

/-- `get_tuple_size_using_tuple_size_def`, /repo/src/tuple_def.c:68-92. `t` is the memory from
the tuple pointer onward. -/
def tupleSize (d : SizeDef) (t : Bytes) : Option Nat :=
  if d.isVar = false then some d.size
  else if d.hasSize then do
    let s ← loadVal t d.maxSize 0
    pure (if s = 0 then d.maxSize else s)
  else do
    let n ← loadVal t d.maxSize 0
    if d.contIsBit then
      u32 (vsz d.maxSize + bitmapBytes (n * (d.contValid.toNat + d.contSize)))
    else
      u32 (vsz d.maxSize + bitmapBytes (n * d.contValid.toNat) + n * d.contSize)

/-- `get_minimum_tuple_size_using_tuple_size_def`, /repo/src/tuple_def.c:139-145, which
`get_minimum_tuple_size`, /repo/src/tuple_def.c:155-158, calls. -/
def minTupleSize (d : SizeDef) : Nat := d.size

/-- `get_maximum_tuple_size_using_tuple_size_def`, /repo/src/tuple_def.c:147-153, which
`get_maximum_tuple_size`, /repo/src/tuple_def.c:160-163, calls. -/
def maxTupleSize (d : SizeDef) : Nat := if d.isVar then d.maxSize else d.size

/-- Specification: `t` is exactly one tuple of this definition: the size the library computes
from its prefix is the length of the byte string, which is at least the minimum size and
smaller than 2GB (README limit). -/
structure WellFormed (d : SizeDef) (t : Bytes) : Prop where
  size : tupleSize d t = some t.length
  min : minTupleSize d ≤ t.length
  lt : t.length < 2147483648

theorem load_append {t r : Bytes} {o l : Nat} {x : Bytes} (h : load t o l = some x) :
    load (t ++ r) o l = some x := by
  unfold load at *
  split at h
  · rename_i hl
    rw [if_pos (by simp; omega)]
    rw [← h]
    congr 1
    apply rd_ext
    intro i hi
    rw [List.getElem?_append_left (by omega)]
  · cases h

theorem loadVal_append {t r : Bytes} {ps o v : Nat} (h : loadVal t ps o = some v) :
    loadVal (t ++ r) ps o = some v := by
  unfold loadVal at *
  cases hx : load t o (vsz ps) with
  | none => simp [hx] at h
  | some x => rw [load_append hx]; simpa [hx] using h

/-- The size of a tuple only depends on its own bytes, not on what follows it in memory. -/
theorem tupleSize_append {d : SizeDef} {t r : Bytes} {n : Nat} (h : tupleSize d t = some n) :
    tupleSize d (t ++ r) = some n := by
  unfold tupleSize at *
  split
  · rename_i hv; rw [if_pos hv] at h; exact h
  · rename_i hv; rw [if_neg hv] at h
    cases hl : loadVal t d.maxSize 0 with
    | none =>
      rw [hl] at h
      split at h <;> cases h
    | some x =>
      rw [loadVal_append hl]
      rw [hl] at h
      exact h

theorem drop_eq_append {m : Bytes} {o l : Nat} : m.drop o = rd m o l ++ m.drop (o + l) := by
  have h := List.take_append_drop l (m.drop o)
  rw [List.drop_drop] at h
  exact h.symm

/-- The size read at a place of memory that holds tuple `t` is the length of `t`. -/
theorem tupleSize_at {d : SizeDef} {m t : Bytes} {o : Nat} (hw : WellFormed d t)
    (hr : rd m o t.length = t) : tupleSize d (m.drop o) = some t.length := by
  rw [drop_eq_append (l := t.length), hr]
  exact tupleSize_append hw.size

/-- Variable sized tuples are never empty: they carry their size or element count. -/
theorem WellFormed.pos {d : SizeDef} {t : Bytes} (hv : d.isVar = true) (hw : WellFormed d t) :
    1 ≤ t.length := by
  rcases t with _ | ⟨a, t⟩
  · have := hw.size
    have hp := vsz_pos d.maxSize
    have hl : loadVal ([] : Bytes) d.maxSize 0 = none := by
      simp [loadVal, load]; omega
    simp [tupleSize, hv, hl] at this
  · simp

end TS
