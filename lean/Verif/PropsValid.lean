import Verif.ValidRead
/-
C81. Tuples read from bytes of unknown origin.
-/
namespace TS
namespace Props
open Dti

/-- C81. Any bytes are a tuple of a type of fixed size, if there are enough of them: reading and writing its
elements needs no check of what the bytes are. -/
theorem C81_fixed {d : Dti} {m : Bytes} (hu : Usable d) (hv : d.isVar = false) (hb : d.isBit = false)
    (hl : d.hdr.size ≤ m.length) : IsTuple d m d.hdr.size :=
  ⟨hl, fixed_enc d _ hu.ok hv hb (by simp; omega)⟩

/-- C81. For any type there is a check that accepts exactly the tuples: it compares the words in the
bytes with each other and with the number of bytes, recursively. -/
theorem C81_check {d : Dti} {m : Bytes} {S : Nat} (hu : Usable d) :
    IsTuple d m S ↔ S ≤ m.length ∧ check d (m.take S) = true := by
  unfold IsTuple
  rw [check_iff d hu.ok]

/-- C81. Where it is not known how long the tuple is, the size that the bytes announce is the one to check. -/
theorem C81_announced {d : Dti} {m : Bytes} (hu : Usable d) :
    (∃ S, IsTuple d m S) ↔ ∃ S, d.getSize m = some S ∧ S ≤ m.length ∧ check d (m.take S) = true := by
  constructor
  · intro ⟨S, h⟩
    have := (C81_check hu).mp h
    exact ⟨S, (h.size hu.ok).1, this.1, this.2⟩
  · intro ⟨S, _, h1, h2⟩
    exact ⟨S, (C81_check hu).mpr ⟨h1, h2⟩⟩

/-- C81. For reading it is enough that the fixed part of every container that the offsets lead to lies within the memory:
then reading the element at any position, existing or not, stays within the memory. -/
theorem C81_read {d : Dti} {m : Bytes} (hu : Usable d) (hs : safe d m = true) (pa : List Nat) :
    ∃ r, d.getElem m pa = some r :=
  Option.isSome_iff_exists.mp (safe_get pa hu.ok hs)

/-- C81. Every tuple passes the weaker check, whatever lies behind it. -/
theorem C81_weaker {d : Dti} {m : Bytes} {S : Nat} (hu : Usable d) (hb : d.isBit = false) (h : IsTuple d m S) :
    safe d m = true := by
  obtain ⟨hS, v, e⟩ := h
  have := safe_append d hu.ok _ (m.drop S) (safe_enc d hu.ok hb _ _ e)
  rwa [List.take_append_drop] at this

/-- Two strings. -/
def exPair : Dti := .tup { count := 2, maxSize := 200 }
  [({}, .str false { varCount := true, maxSize := 50 }), ({}, .str false { varCount := true, maxSize := 50 })]

def exPairF : Dti := .tup { isFinal := true, isVar := true, count := 2, maxSize := 200, size := 3 }
  [({ off := 1 }, .str false { isFinal := true, isVar := true, varCount := true, maxSize := 50, size := 1 }),
   ({ off := 2 }, .str false { isFinal := true, isVar := true, varCount := true, maxSize := 50, size := 1 })]

theorem exPairF_usable : Usable exPairF :=
  ⟨exPair, by
    refine .tup _ _ rfl rfl ?_
    intro f t h
    simp only [List.mem_cons, List.not_mem_nil, or_false] at h
    rcases h with h | h <;> cases h <;> exact .str _ _ rfl,
    rfl, by
    refine .tup _ _ ?_ (by intro _; decide) (by decide) (by decide)
    intro f t h
    simp only [List.mem_cons, List.not_mem_nil, or_false] at h
    rcases h with h | h <;> cases h <;> exact .str _ _ (by intro _; decide) (by intro h; cases h)⟩

/-- Both orders of the two strings are tuples. -/
example : (∃ S, IsTuple exPairF ([7, 3, 5, 1, 97, 1, 98] ++ [9, 9]) S) ∧
    (∃ S, IsTuple exPairF [7, 5, 3, 1, 97, 1, 98] S) :=
  ⟨(C81_announced exPairF_usable).mpr ⟨7, by decide +kernel, by decide, by decide +kernel⟩,
   (C81_announced exPairF_usable).mpr ⟨7, by decide +kernel, by decide, by decide +kernel⟩⟩

/-- Two offsets to the same string: not a tuple, but safe to read. Setting the first element changes the second, too. -/
example : ¬ (∃ S, IsTuple exPairF [5, 3, 3, 1, 97] S) ∧ (∀ pa, ∃ r, exPairF.getElem [5, 3, 3, 1, 97] pa = some r) ∧
    exPairF.setElem [5, 3, 3, 1, 97] [0] (.bytes [98]) 0 = some ([5, 3, 3, 1, 98], true) ∧
    exPairF.getElem [5, 3, 3, 1, 98] [1] = some (some (.bytes [98])) := by
  refine ⟨?_, C81_read exPairF_usable (by decide +kernel), by decide +kernel, by decide +kernel⟩
  intro h
  obtain ⟨S, h1, _, h3⟩ := (C81_announced exPairF_usable).mp h
  have : exPairF.getSize [5, 3, 3, 1, 97] = some 5 := by decide +kernel
  rw [this] at h1; cases h1
  revert h3; decide +kernel

/-- An offset behind the end of the tuple, but not of the memory: safe to read, but to set the element to NULL the number of bytes to rotate
is computed as 5 - 8 (/repo/inc/tuplestore/data_type_info.h:901). -/
example : safe exPairF [5, 8, 0, 0, 0, 0, 0, 0, 1, 97] = true ∧
    exPairF.getElem [5, 8, 0, 0, 0, 0, 0, 0, 1, 97] [0] = some (some (.bytes [97])) ∧
    exPairF.setElem [5, 8, 0, 0, 0, 0, 0, 0, 1, 97] [0] .null 0 = none := by decide +kernel

/-- An offset behind the memory, and a string that is longer than the memory: reading them leaves the memory. -/
example : exPairF.getElem [5, 3, 60, 1, 97] [1] = none ∧ exPairF.getElem [5, 3, 0, 9, 97] [0] = none ∧
    safe exPairF [5, 3, 60, 1, 97] = false ∧ safe exPairF [5, 3, 0, 9, 97] = false := by decide +kernel

/-- Three bytes make any tuple of a nullable byte, a bit field and another byte. -/
example (x y z : UInt8) : ∃ d, Usable d ∧ d.isVar = false ∧ d.isBit = false ∧ d.hdr.size = 3 ∧ IsTuple d [x, y, z] 3 := by
  have hu : Usable (.tup { isFinal := true, count := 3, size := 3, bits := 6 }
      [({ off := 1 }, .prim .uint { isFinal := true, nullable := true, size := 1 }),
       ({ off := 1 }, .prim .bitField { isFinal := true, size := 5 }),
       ({ off := 2 }, .prim .int { isFinal := true, size := 1 })]) := by
    refine ⟨.tup { count := 3 } [({}, .prim .uint { nullable := true, size := 1 }), ({}, .prim .bitField { size := 5 }),
      ({}, .prim .int { size := 1 })], ?_, by rfl, ?_⟩
    · refine .tup _ _ rfl rfl ?_
      intro f t h
      simp only [List.mem_cons, List.not_mem_nil, or_false] at h
      rcases h with h | h | h <;> cases h <;> exact .prim _ _ rfl
    · refine .tup _ _ ?_ (by intro h; cases h) (by decide) (by decide)
      intro f t h
      simp only [List.mem_cons, List.not_mem_nil, or_false] at h
      rcases h with h | h | h <;> cases h <;> exact .prim _ _
  exact ⟨_, hu, rfl, rfl, rfl, C81_fixed hu rfl rfl (Nat.le_refl 3)⟩

end Props
end TS
