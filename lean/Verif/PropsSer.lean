import Verif.TypeIdent
import Verif.TypeTrunc
import Verif.PropsType
/-
Properties C31-C33 of the serialisation and the comparison of types.
-/
namespace TS
namespace Props
open Dti

/-- Two types are interchangeable: every function that reads or edits tuples gives the same result
with either, on every memory. In particular they agree on sizes and on the place of everything. -/
structure Interchangeable (d e : Dti) : Prop where
  size : ∀ m, d.getSize m = e.getSize m
  count : ∀ m, d.getCount m = e.getCount m
  initMin : ∀ m, d.initMin m = e.initMin m
  isMin : ∀ m, d.isMin m = e.isMin m
  get : ∀ m pa, d.getElem m pa = e.getElem m pa
  counts : ∀ m pa, d.elemCount m pa = e.elemCount m pa
  canSet : ∀ m inc v pa, d.canSetElem m inc v pa = e.canSetElem m inc v pa
  set : ∀ m pa v inc, d.setElem m pa v inc = e.setElem m pa v inc
  maxInc : ∀ m inc pa, d.maxInc m inc pa = e.maxInc m inc pa
  canExpand : ∀ m pa i n inc, d.canExpandElem m pa i n inc = e.canExpandElem m pa i n inc
  expand : ∀ m pa i n inc, d.expandElem m pa i n inc = e.expandElem m pa i n inc
  canDiscard : ∀ m pa i n, d.canDiscardElem m pa i n = e.canDiscardElem m pa i n
  discard : ∀ m pa i n, d.discardElem m pa i n = e.discardElem m pa i n

theorem interchangeable_of_same {kn : Bool} {d e : Dti} (h : SameTy kn d e) (hv : VarUp d) : Interchangeable d e where
  size := h.getSize
  count := h.getCount
  initMin := initMin_same h
  isMin := isMin_same h
  get := fun m pa => getElem_congr pa h hv m
  counts := fun m pa => elemCount_same pa h hv m
  canSet := fun m inc v pa => canSetElem_same v pa h hv m inc
  set := fun m pa v inc => setElem_same h hv m pa v inc
  maxInc := fun m inc pa => maxInc_same pa h hv m inc
  canExpand := fun m pa i n inc => canExpandElem_same h hv m pa i n inc
  expand := fun m pa i n inc => expandElem_same h hv m pa i n inc
  canDiscard := fun m pa i n => canDiscardElem_same h hv m pa i n
  discard := fun m pa i n => discardElem_same h hv m pa i n

mutual
/-- All names in a type, as C strings: its own and, for a tuple, those of its fields. -/
def names : Dti → List Bytes
  | .prim _ h => [cname h.name]
  | .str _ h => [cname h.name]
  | .tup h fs => cname h.name :: namesAll fs
  | .arr h c => cname h.name :: names c
def namesAll : List (Fld × Dti) → List Bytes
  | [] => []
  | (f, t) :: r => cname f.name :: (names t ++ namesAll r)
end

mutual
theorem names_norm : ∀ d, names (norm true d) = names d
  | .prim _ _ => by simp [norm, names, nHdr, cname_cname]
  | .str _ _ => by simp [norm, names, nHdr, cname_cname]
  | .tup _ fs => by simp [norm, names, nHdr, cname_cname, namesAll_norm fs]
  | .arr _ c => by simp [norm, names, nHdr, cname_cname, names_norm c]
theorem namesAll_norm : ∀ fs, namesAll (normAll true fs) = namesAll fs
  | [] => rfl
  | (f, t) :: r => by simp [normAll, namesAll, nFld, cname_cname, names_norm t, namesAll_norm r]
end

mutual
theorem norm_drop_names : ∀ d e, norm true d = norm true e → norm false d = norm false e
  | .prim _ _, e, h => by cases e <;> first | exact h | simp [norm] at h
  | .str _ _, e, h => by cases e <;> first | exact h | simp [norm] at h
  | .tup _ fs, e, h => by
    cases e with
    | tup g gs =>
      simp only [norm, Dti.tup.injEq] at h ⊢
      exact ⟨h.1, normAll_drop_names fs gs h.2⟩
    | _ => simp [norm] at h
  | .arr _ c, e, h => by
    cases e with
    | arr g c2 =>
      simp only [norm, Dti.arr.injEq] at h ⊢
      exact ⟨h.1, norm_drop_names c c2 h.2⟩
    | _ => simp [norm] at h
theorem normAll_drop_names : ∀ fs gs, normAll true fs = normAll true gs → normAll false fs = normAll false gs
  | [], gs, h => by cases gs <;> simp_all [normAll]
  | (f, t) :: r, gs, h => by
    cases gs with
    | nil => simp [normAll] at h
    | cons p s =>
      obtain ⟨g, u⟩ := p
      simp only [normAll, List.cons.injEq, Prod.mk.injEq] at h ⊢
      refine ⟨⟨?_, norm_drop_names t u h.1.2⟩, normAll_drop_names r s h.2⟩
      have := h.1.1
      simp only [nFld, Fld.mk.injEq] at this ⊢
      exact ⟨rfl, this.2⟩
end

/-- C31. Every finalised type is read back by `deserialize_type_info` from the bytes
`serialize_type_info` writes for it, whatever follows them: no byte outside is read, the result can
be finalised, has the same names, treats all data alike and serialises to the same bytes. As long as
no type name fills its 64 bytes, `are_identical_type_info` says so too. The number of bytes is what
`get_byte_count_for_serialized_type_info` announces. -/
theorem C31_serialisation_round_trips {d d' : Dti} {rest : Bytes} (hr : Raw d) (hf : finalize d = some d') (hu : U32 d')
    (hl : (ser d' ++ rest).length < 4294967296) :
    byteCount d' = some (ser d').length ∧
    ∃ e e', deser (ser d' ++ rest) = some (some e) ∧ finalize e = some e' ∧ names e' = names d' ∧
      Interchangeable e' d' ∧ ser e' = ser d' ∧ (ShortNames d' → ident d' e' = some true) := by
  have hm := raw_finalize d d' hr hf
  have hlen : (ser d').length ≤ (ser d' ++ rest).length := by simp
  constructor
  · unfold byteCount
    rw [bytesOf_eq d' hm.done]
    simp only [Option.map_some, Option.some.injEq]
    unfold w32; omega
  · obtain ⟨e, he, e', he', hn⟩ := deserF_ser hm hu ((ser d' ++ rest).length + 1) rest (by omega) hl
    have hi : Interchangeable d' e' := interchangeable_of_same (kn := true) hn.symm hm.varUp
    have hi : Interchangeable e' d' := by constructor <;> (intros; first | exact (hi.size _).symm | exact (hi.count _).symm | exact (hi.initMin _).symm | exact (hi.isMin _).symm | exact (hi.get _ _).symm | exact (hi.counts _ _).symm | exact (hi.canSet _ _ _ _).symm | exact (hi.set _ _ _ _).symm | exact (hi.maxInc _ _ _).symm | exact (hi.canExpand _ _ _ _ _).symm | exact (hi.expand _ _ _ _ _).symm | exact (hi.canDiscard _ _ _ _).symm | exact (hi.discard _ _ _ _).symm)
    refine ⟨e, e', he, he', ?_, hi, ?_, ?_⟩
    · rw [← names_norm, hn, names_norm]
    · rw [← ser_norm, hn, ser_norm]
    · intro hs; exact ident_of_norm d' e' (norm_drop_names _ _ hn.symm) hs

theorem exType_raw : Raw exType := by
  refine .tup _ _ rfl rfl ?_
  intro f t h
  simp at h
  rcases h with ⟨_, rfl⟩ | ⟨_, rfl⟩ | ⟨_, rfl⟩ | ⟨_, rfl⟩
  · exact .prim _ _ rfl
  · exact .prim _ _ rfl
  · exact .str _ _ rfl
  · exact .arr _ _ rfl (.prim _ _ rfl)

/-- A type with names: a fixed size tuple named "pt" of fields "x" and "y", a float and an array of
three nullable bit fields, inside of an array of variable length. -/
def exNamed : Dti := .arr { varCount := true, maxSize := 1000, name := [112, 115] }
  (.tup { count := 2, name := [112, 116], nullable := true }
    [({ name := [120] }, .prim .float { size := 8 }),
     ({ name := [121] }, .arr { count := 3 } (.prim .bitField { nullable := true, size := 7 }))])

theorem exNamed_raw : Raw exNamed := by
  refine .arr _ _ rfl (.tup _ _ rfl rfl ?_)
  intro f t h
  simp at h
  rcases h with ⟨_, rfl⟩ | ⟨_, rfl⟩
  · exact .prim _ _ rfl
  · exact .arr _ _ rfl (.prim _ _ rfl)

example : Raw exType ∧ finalize exType = some exFinal ∧ U32 exFinal ∧ ShortNames exFinal ∧ (ser exFinal).length = 35 := by
  refine ⟨exType_raw, rfl, ?_, ?_, by decide +kernel⟩
  · simp [exFinal, U32, U32.U32All]
  · simp [exFinal, ShortNames, ShortNamesAll, cname, strn]

example : Raw exNamed ∧ ∃ d', finalize exNamed = some d' ∧ U32 d' ∧ ShortNames d' ∧
    names d' = [[112, 115], [112, 116], [120], [], [121], [], []] ∧
    ser d' = [132, 232, 3, 0, 0, 112, 115, 0, 126, 2, 0, 0, 0, 112, 116, 0, 120, 0, 10, 0, 121, 0,
      130, 3, 0, 0, 0, 0, 0, 7, 0] := by
  refine ⟨exNamed_raw, _, rfl, ?_, ?_, by decide +kernel, by decide +kernel⟩
  · simp [U32, U32.U32All]
  · simp [ShortNames, ShortNamesAll, cname, strn]

/-- C32. `deserialize_type_info` reads nothing outside of its data, whatever the data, as long as no
byte of it is the code of a tuple type. (It may well reject the data.) -/
theorem C32_no_over_read_without_tuples (m : Bytes) (hl : m.length < 4294967296)
    (hm : ∀ x ∈ m, x ≠ 126 ∧ x ≠ 127 ∧ x ≠ 128) : ∃ r, deser m = some r := by
  refine deserF_safe _ m hl (fun x hx => ?_)
  obtain ⟨h1, h2, h3⟩ := hm x hx
  refine ⟨fun h => h1 ?_, fun h => h2 ?_, fun h => h3 ?_⟩ <;> exact UInt8.toNat_inj.mp h

example : ∃ m : Bytes, m.length = 14 ∧ (∀ x ∈ m, x ≠ 126 ∧ x ≠ 127 ∧ x ≠ 128) ∧ (deser m).isSome = true ∧
    ((deser m).map (fun r => r.map isCont)) = some (some true) :=
  ⟨[131, 1, 0, 0, 0, 44, 1, 0, 0, 0, 2, 4, 0, 0], rfl, by decide, by decide +kernel, by decide +kernel⟩

/-- C32. A serialised type that is cut off anywhere is rejected, and nothing behind the cut is read. -/
theorem C32_truncated_rejected {d d' : Dti} {k : Nat} (hr : Raw d) (hf : finalize d = some d') (hu : U32 d')
    (hl : (ser d').length < 4294967296) (hk : k < (ser d').length) : deser ((ser d').take k) = some none := by
  have hm := raw_finalize d d' hr hf
  unfold deser
  have hlen : ((ser d').take k).length = k := by simp; omega
  rw [hlen]
  exact deserF_trunc hm hu _ k (by omega) hk hl

example : ∀ k < 35, ((deser ((ser exFinal).take k)).map Option.isNone) = some true := by
  intro k hk
  rw [C32_truncated_rejected exType_raw exType_finalize (by simp [exFinal, U32, U32.U32All]) (by decide +kernel)
    (show k < (ser exFinal).length by rw [show (ser exFinal).length = 35 by decide +kernel]; exact hk)]
  rfl

/-- C32 fails on arbitrary data: inside of a tuple type the codes 8 and 11 make
`deserialize_type_info` read behind its data. -/
theorem C32_over_read_code8 : deser [127, 2, 0, 0, 0, 0, 0, 8, 0] = none ∧ deser [127, 2, 0, 0, 0, 0, 0, 11, 0] = none := by
  constructor <;> decide +kernel

/-- C32 fails on arbitrary data: so does a tuple type marked as of a fixed size with a field of
variable size, inside of another tuple type. -/
theorem C32_over_read_marked_fixed :
    deser [127, 2, 0, 0, 0, 0, 0, 127, 1, 0, 0, 0, 0, 0, 122, 9, 0, 0, 0, 0] = none := by decide +kernel

/-- C32 fails on arbitrary data: a tuple type without fields inside of a tuple type makes
`deserialize_type_info` depend on memory that was never written. -/
theorem C32_indeterminate_empty_tuple : deser [127, 1, 0, 0, 0, 0, 0, 127, 0, 0, 0, 0, 0] = none := by decide +kernel

/-- `are_identical_type_info` is symmetric, faults included. -/
theorem C33_symmetric (d e : Dti) : ident d e = ident e d := ident_symm d e

example : ident exFinal (.str false {}) = some false ∧ ident (.str false {}) exFinal = some false := ⟨rfl, rfl⟩

/-- `are_identical_type_info` is reflexive, also for two copies of the same type, as long as no name
fills its 64 bytes. -/
theorem C33_reflexive {d : Dti} (hs : ShortNames d) : ident d d = some true := ident_of_norm d d rfl hs

example : ShortNames exFinal ∧ ident exFinal exFinal = some true := by
  have : ShortNames exFinal := by simp [exFinal, ShortNames, ShortNamesAll, cname, strn]
  exact ⟨this, C33_reflexive this⟩

/-- Two copies of a type whose name fills all 64 bytes are compared with `strcmp` beyond the end of
the names. -/
theorem C33_long_name_fault (d : Dti) (h : (cname d.hdr.name).length = 64) : ident d d = none := by
  have hn : sameName d.hdr.name d.hdr.name = none := by
    unfold sameName; rw [if_neg (by simp), if_neg (by omega)]
  cases d <;> simp only [hdr] at hn <;> simp [ident, hn]

example : (cname (Dti.prim .uint { size := 4, name := List.replicate 64 97 }).hdr.name).length = 64 := by decide +kernel

/-- C33. `are_identical_type_info` is transitive on finalised types. -/
theorem C33_transitive {d e f d0 e0 f0 : Dti} (hd : Raw d0) (he : Raw e0) (hf : Raw f0) (fd : finalize d0 = some d)
    (fe : finalize e0 = some e) (ff : finalize f0 = some f) (h1 : ident d e = some true) (h2 : ident e f = some true) :
    ident d f = some true := by
  have md := raw_finalize _ _ hd fd
  have me := raw_finalize _ _ he fe
  have mf := raw_finalize _ _ hf ff
  exact ident_of_norm d f ((ident_same md me h1).trans (ident_same me mf h2)) (ident_short md me h1)

/-- C33. Types that `are_identical_type_info` accepts can be exchanged for each other: every function
on tuples gives the same results for both, on all data. -/
theorem C33_identical_types_behave_alike {d e d0 e0 : Dti} (hd : Raw d0) (he : Raw e0) (fd : finalize d0 = some d)
    (fe : finalize e0 = some e) (h : ident d e = some true) : Interchangeable d e := by
  have md := raw_finalize _ _ hd fd
  have me := raw_finalize _ _ he fe
  exact interchangeable_of_same (kn := false) (ident_same md me h) md.varUp

/-- The same type with other names for the fields. -/
def exRenamed : Dti := .arr { varCount := true, maxSize := 1000, name := [112, 115, 0, 1] }
  (.tup { count := 2, name := [112, 116], nullable := true, maxSize := 77 }
    [({ name := [97] }, .prim .float { size := 8 }),
     ({ name := [98] }, .arr { count := 3 } (.prim .bitField { nullable := true, size := 7 }))])

example : ∃ d e, Raw exNamed ∧ Raw exRenamed ∧ finalize exNamed = some d ∧ finalize exRenamed = some e ∧
    ident d e = some true := by
  refine ⟨_, _, exNamed_raw, ?_, rfl, rfl, by decide +kernel⟩
  refine .arr _ _ rfl (.tup _ _ rfl rfl ?_)
  intro f t h
  simp at h
  rcases h with ⟨_, rfl⟩ | ⟨_, rfl⟩
  · exact .prim _ _ rfl
  · exact .arr _ _ rfl (.prim _ _ rfl)

end Props
end TS
