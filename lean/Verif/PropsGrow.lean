import Verif.GrowFits
import Verif.PropsFits
/-
Property C40 in terms of the sizes one can read: when a container can be expanded, and what
`get_max_size_increment_allowed_for_element_in_tuple` returns.
-/
namespace TS
namespace Props
open Dti

/-- The tuple and every container on the way to `pa`, the one at `pa` included, has room for `g`
bytes more. -/
def HasRoom (d : Dti) (m : Bytes) (pa : List Nat) (g : Nat) : Prop :=
  ∀ q u s, q <+: pa → d.typeAt q = some u → Takes d m q u s → s + g ≤ u.hdr.maxSize

theorem spare_iff {d t : Dti} {m : Bytes} {S g : Nat} {pa : List Nat} {val : Val} (hd : TyOk d)
    (hS : S ≤ m.length) (he : Enc d (m.take S) val) (ht : d.typeAt pa = some t) (htv : t.isVar = true) :
    Spare d val pa g ↔ HasRoom d m pa g := by
  unfold Spare HasRoom
  constructor
  · intro h q u s h1 h2 h3
    obtain ⟨z, z1, z2⟩ := (takes_iff hd hS he h2 (prefix_var hd ht htv h1 h2)).mp h3
    exact h q u z s h1 h2 z1 z2
  · intro h q u z s h1 h2 h3 h4
    exact h q u s h1 h2 ((takes_iff hd hS he h2 (prefix_var hd ht htv h1 h2)).mpr ⟨z, h3, h4⟩)

/-- C40. `get_max_size_increment_allowed_for_element_in_tuple` of a variable sized element that is there
and not NULL returns the largest number of bytes, up to the limit given, by which the element may
grow without any of the containers around it, or itself, exceeding its maximum size. -/
theorem C40_max_increment {d t : Dti} {m : Bytes} {S inc : Nat} {pa : List Nat} (hu : Usable d) (htup : IsTuple d m S)
    (ht : d.typeAt pa = some t) (htv : t.isVar = true) (h1 : d.getElem m pa ≠ some none)
    (h2 : d.getElem m pa ≠ some (some .null)) :
    ∃ k, d.maxInc m inc pa = some k ∧ ∀ g, g ≤ k ↔ g ≤ inc ∧ HasRoom d m pa g := by
  have hd := hu.ok
  obtain ⟨hS, val, he⟩ := htup
  have htk := (typeAt_ok pa hd ht).1
  have htc : t.isCont = true := by
    cases htk with
    | prim => simp_all [isVar, hdr]
    | _ => rfl
  obtain ⟨vs, hvs⟩ := (node_iff_read hd hS he ht htc).mpr ⟨h1, h2⟩
  obtain ⟨k, k1, k2⟩ := maxInc_iff pa (inc := inc) hd hS he ht htv hvs
  refine ⟨k, k1, fun g => ?_⟩
  rw [k2, spare_iff hd hS he ht htv]

/-- The array takes 2 of its 300 bytes. -/
example : Usable exFinal ∧ IsTuple exFinal exMemA 13 ∧ exFinal.maxInc exMemA 1000 [3] = some 298 ∧
    exFinal.getElem exMemA [3] ≠ some none ∧ exFinal.getElem exMemA [3] ≠ some (some .null) := by
  refine ⟨exFinal_usable, exMemA_tuple, by decide +kernel, ?_, ?_⟩ <;> decide +kernel

/-- C40. Expanding succeeds exactly if the element is there, is not NULL and has a variable number of
elements, the index is at most their number, and what the fixed part of the container grows by is at
most the increment allowed and fits the container and everything around it. -/
theorem C40_expand_room {d : Dti} {m : Bytes} {S : Nat} {pa : List Nat} {index slots inc : Nat}
    (ha : GrowArgs d m S pa slots inc) :
    (∃ m', d.expandElem m pa index slots inc = some (m', true)) ↔
      ∃ t n, d.typeAt pa = some t ∧ t.isVarCount = true ∧ d.elemCount m pa = some n ∧
        d.getElem m pa ≠ some none ∧ d.getElem m pa ≠ some (some .null) ∧ index ≤ n ∧
        fixedEnd t (n + slots) - fixedEnd t n ≤ inc ∧ HasRoom d m pa (fixedEnd t (n + slots) - fixedEnd t n) := by
  have hd := ha.usable.ok
  have hiff := C40_expand_iff (index := index) ha
  have hq : (∃ m', d.expandElem m pa index slots inc = some (m', true)) ↔ d.canExpandElem m pa index slots inc = some true := by
    obtain ⟨hS, val, he⟩ := ha.tuple
    obtain ⟨m', q, S', val', k1, k2, _⟩ := expandElem_main (index := index) ha he
    rw [k1, k2]
    simp
  rw [hq, hiff]
  constructor
  · intro ⟨t, n, k, h1, h2, h3, h4, h5, h6, h7, h8⟩
    have htv := (varCount_cont (typeAt_ok pa hd h1).1 h2).2.1
    obtain ⟨k', k1, k2⟩ := C40_max_increment (inc := 4294967295) ha.usable ha.tuple h1 htv h4 h5
    rw [k1] at h6
    cases h6
    exact ⟨t, n, h1, h2, h3, h4, h5, h7, by omega, ((k2 _).mp (by omega)).2⟩
  · intro ⟨t, n, h1, h2, h3, h4, h5, h6, h7, h8⟩
    have htv := (varCount_cont (typeAt_ok pa hd h1).1 h2).2.1
    obtain ⟨k', k1, k2⟩ := C40_max_increment (inc := 4294967295) ha.usable ha.tuple h1 htv h4 h5
    have hl := (ha.limit t n h1 h2 h3).1
    unfold lim at hl
    have := (k2 _).mpr ⟨by omega, h8⟩
    exact ⟨t, n, k', h1, h2, h3, h4, h5, k1, h6, by omega⟩

example : GrowArgs exFinal exMemA 13 [3] 2 20 ∧ (∃ m', exFinal.expandElem exMemA [3] 0 2 20 = some (m', true)) ∧
    exFinal.expandElem exMemA [3] 0 2 4 = some (exMemA, false) :=
  ⟨exMemA_grow, ⟨exMemB, by decide +kernel⟩, by decide +kernel⟩

end Props
end TS
