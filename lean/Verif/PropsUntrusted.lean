import Verif.Untrusted
import Verif.PropsSer
/-
C78: types that are read from bytes of unknown origin.
-/
namespace TS
namespace Props
open Dti

/-- C78. Whatever the bytes are, and whatever lies behind them, a type that `deserialize_type_info` returns is one
that a user could have built: nothing in it says that it is finalised unless `finalize_type_info` made it so, tuples have
as many fields as they say, and all numbers in it are 32 bit numbers. -/
theorem C78_built {m : Bytes} {n : Nat} {f : Nat} {t : Dti} (h : deserF f m n = some (some t)) : Built t ∧ Raw t ∧ U32 t := by
  obtain ⟨h1, h2⟩ := deserF_built f h
  exact ⟨h1, h1.raw, h2⟩

/-- C78. Hence, if the numbers in it are within the documented limits, it is accepted by `finalize_type_info` exactly
if it is sound, everything that is proved about finalised types holds of it, and it can be written and read again. -/
theorem C78_usable {m : Bytes} {t : Dti} (h : deser m = some (some t)) (hl : Limits t) :
    ((∃ t', finalize t = some t') ↔ Sound t) ∧
    ∀ t', finalize t = some t' → Usable t' ∧ ∀ rest : Bytes, (ser t' ++ rest).length < 4294967296 →
      byteCount t' = some (ser t').length ∧
      ∃ e e', deser (ser t' ++ rest) = some (some e) ∧ finalize e = some e' ∧ names e' = names t' ∧ Interchangeable e' t' := by
  obtain ⟨h1, h2, h3⟩ := C78_built h
  have hf := limits_fits t hl
  refine ⟨C62_finalize_iff h1 hf, fun t' ht => ⟨(C62_usable h1 hl).2 t' ht, fun rest hr => ?_⟩⟩
  obtain ⟨h4, e, e', h5, h6, h7, h8, _⟩ := C31_serialisation_round_trips h2 ht (u32_finalize _ _ ht h3) hr
  exact ⟨h4, e, e', h5, h6, h7, h8⟩

/-- C78. What follows a type that can be read has no influence on it. -/
theorem C78_more_data {m rest : Bytes} {t : Dti} (hl : (m ++ rest).length < 4294967296) (h : deser m = some (some t)) :
    deser (m ++ rest) = some (some t) := deser_ext hl h

/-- C78. The recursion of `deserialize_type_info` is never deeper than there are bytes: allowing for more depth than
`deser` does changes nothing. -/
theorem C78_depth {m : Bytes} {n k : Nat} (hl : m.length < 4294967296) :
    deserF (m.length + 1 + k) m n = deserF (m.length + 1) m n := deserF_depth _ hl (by omega) (by omega)

/-- C78. The one check that is missing. A reader that is `deserialize_type_info` except that it answers NULL for a
containee that `finalize_type_info` refuses or whose smallest size is no 32 bit number
* never reads outside of its data, whatever the data is;
* when it returns a type then `deserialize_type_info` returns the same type, and for a type that is of any use the
  bytes that the caller moves on by are all in the data;
* returns every type that `deserialize_type_info` returns, unless it is of no use;
* answers NULL where `deserialize_type_info` reads outside of its data. -/
theorem C78_check {m : Bytes} (hl : m.length < 4294967296) :
    ∃ r, deserC m = some r ∧
      (∀ t, r = some t → deser m = some (some t) ∧ ∀ t', finalize t = some t' → Fits32 t → (ser t').length ≤ m.length) ∧
      (∀ t t', deser m = some (some t) → finalize t = some t' → Fits32 t → r = some t) ∧
      (deser m = none → r = none) := by
  obtain ⟨r, h1, h2⟩ := deserC_within hl
  have hsub : ∀ t, r = some t → deser m = some (some t) := fun t ht =>
    checked_sub _ _ _ _ (show deserCF (m.length + 1) m m.length = some (some t) by rw [← ht]; exact h1) trivial
  refine ⟨r, h1, fun t ht => ⟨hsub t ht, fun t' => h2 t t' ht⟩, fun t t' ht hf hfit => ?_, fun hn => ?_⟩
  · have := checked_complete _ _ _ _ ht (usableb_iff.mpr ⟨⟨t', hf⟩, hfit⟩)
    have h3 : deserC m = some (some t) := this
    rw [h1] at h3
    exact Option.some.inj h3
  · cases r with
    | none => rfl
    | some t => rw [hsub t rfl] at hn; cases hn

/-- C78. So whenever `deserialize_type_info` returns a type that is of use, it is one that the reader with the check
returns too, and its bytes are all in the data. -/
theorem C78_accepted {m : Bytes} {t t' : Dti} (hl : m.length < 4294967296) (h : deser m = some (some t))
    (hf : finalize t = some t') (hfit : Fits32 t) : deserC m = some (some t) ∧ byteCount t' = some (ser t').length ∧ (ser t').length ≤ m.length := by
  obtain ⟨r, h1, h2, h3, _⟩ := C78_check hl
  have hr := h3 t t' h hf hfit
  subst hr
  have hlen := (h2 t rfl).2 t' hf hfit
  refine ⟨h1, ?_, hlen⟩
  unfold byteCount
  rw [bytesOf_eq t' (raw_finalize _ _ (C78_built h).2.1 hf).done]
  simp only [Option.map_some, Option.some.injEq]
  unfold w32; omega

theorem of_read {m : Bytes} {p : Dti → Bool}
    (h : (match deser m with
      | some (some t) => (match finalize t with | some t' => p t' | none => false)
      | _ => false) = true) : ∃ t t', deser m = some (some t) ∧ finalize t = some t' ∧ p t' = true := by
  cases h1 : deser m with
  | none => rw [h1] at h; cases h
  | some r =>
    cases r with
    | none => rw [h1] at h; cases h
    | some t =>
      rw [h1] at h
      dsimp only at h
      cases h2 : finalize t with
      | none => rw [h2] at h; cases h
      | some t' => rw [h2] at h; exact ⟨t, t', rfl, h2, h⟩

/-- C78. Data that is read without a fault may be read wrongly: a tuple that is marked as of variable size but has only
fields of fixed size is counted 4 bytes too short when the next field of the tuple around it is looked for. Here the second
field of the outer tuple, a nullable number (code 2), is not found: the field of the inner tuple (code 3) is read again. -/
theorem C78_misread : ∃ t t', deser [127, 2, 0, 0, 0, 0,   0, 128, 1, 0, 0, 0, 9, 0, 0, 0, 0, 0, 3, 1, 0,   0, 2, 1, 0] = some (some t) ∧
    finalize t = some t' ∧ ser t' = [127, 2, 0, 0, 0, 0,   0, 126, 1, 0, 0, 0, 0, 0, 3, 1, 0,   0, 3, 1, 0] := by
  obtain ⟨t, t', h1, h2, h3⟩ := of_read (m := [127, 2, 0, 0, 0, 0, 0, 128, 1, 0, 0, 0, 9, 0, 0, 0, 0, 0, 3, 1, 0, 0, 2, 1, 0])
    (p := fun t' => ser t' == [127, 2, 0, 0, 0, 0, 0, 126, 1, 0, 0, 0, 0, 0, 3, 1, 0, 0, 3, 1, 0]) (by decide +kernel)
  exact ⟨t, t', h1, h2, by simpa using h3⟩

/-- C78. The limits are not checked: these 9 bytes are read as an array of 2^31 numbers of 2 bytes each, which
`finalize_type_info` accepts as a type of fixed size 0. Its elements are not in its data. -/
theorem C78_wrapped : ∃ t t', deser [130, 0, 0, 0, 128, 0, 3, 2, 0] = some (some t) ∧ finalize t = some t' ∧
    t'.hdr.size = 0 ∧ t'.isVar = false ∧ Dti.getElem t' [] [0] = none := by
  obtain ⟨t, t', h1, h2, h3⟩ := of_read (m := [130, 0, 0, 0, 128, 0, 3, 2, 0])
    (p := fun t' => t'.hdr.size == 0 && !t'.isVar && (Dti.getElem t' [] [0]).isNone) (by decide +kernel)
  simp only [Bool.and_eq_true, beq_iff_eq, Bool.not_eq_true', Option.isNone_iff_eq_none] at h3
  exact ⟨t, t', h1, h2, h3.1.1, h3.1.2, h3.2⟩

/-- C78. That is why the check has to look at the sizes too: these 12 bytes are read as an array of 2^32 - 1 texts whose
size wraps to 0 and is accepted although no maximum size was given. The type counts as 16 bytes: whoever moves on by that
leaves the data. -/
theorem C78_overcounted : ∃ t t', deser [129, 255, 255, 255, 255, 0, 122, 9, 0, 0, 0, 0] = some (some t) ∧ finalize t = some t' ∧
    byteCount t' = some 16 ∧ ¬ Fits32 t := by
  obtain ⟨t, t', h1, h2, h3⟩ := of_read (m := [129, 255, 255, 255, 255, 0, 122, 9, 0, 0, 0, 0])
    (p := fun t' => byteCount t' == some 16) (by decide +kernel)
  have h4 : byteCount t' = some 16 := by simpa using h3
  refine ⟨t, t', h1, h2, h4, fun hf => ?_⟩
  obtain ⟨_, h5, h6⟩ := C78_accepted (by decide) h1 h2 hf
  rw [h4] at h5
  have := Option.some.inj h5
  simp only [List.length_cons, List.length_nil] at h6
  omega

/-- Bytes of a tuple of a text and an array, with other bytes behind. -/
example : ∃ t, deser (ser exFinal ++ [1, 2, 3]) = some (some t) ∧ Built t ∧ (∃ t', finalize t = some t' ∧ Fits32 t) ∧
    deserC (ser exFinal ++ [1, 2, 3]) = some (some t) ∧ (ser exFinal ++ [1, 2, 3]).length < 4294967296 := by
  obtain ⟨t, t', h1, h2, h3⟩ := of_read (m := ser exFinal ++ [1, 2, 3]) (p := fun t' => fits32b t') (by decide +kernel)
  have hl : (ser exFinal ++ [1, 2, 3]).length < 4294967296 := by decide +kernel
  have hf : Fits32 t := (same_finalize _ _ h2).fits.mp ((fits32b_iff _).mp h3)
  exact ⟨t, h1, (C78_built h1).1, ⟨t', h2, hf⟩, (C78_accepted hl h1 h2 hf).1, hl⟩

/-- Bytes on which `deserialize_type_info` reads outside of its data: the reader with the check answers NULL. -/
example : deser [127, 2, 0, 0, 0, 0, 0, 8, 0] = none ∧ deserC [127, 2, 0, 0, 0, 0, 0, 8, 0] = some none := by
  obtain ⟨r, h1, _, _, h4⟩ := C78_check (m := [127, 2, 0, 0, 0, 0, 0, 8, 0]) (by decide)
  have h5 := h4 C32_over_read_code8.1
  subst h5
  exact ⟨C32_over_read_code8.1, h1⟩

/-- A type read from bytes that is within the limits. -/
example : ∃ t, deser [132, 100, 0, 0, 0, 0, 3, 2, 0] = some (some t) ∧ Limits t ∧ Sound t ∧
    deser ([132, 100, 0, 0, 0, 0, 3, 2, 0] ++ [7]) = some (some t) := by
  have h : ∃ h g, deser [132, 100, 0, 0, 0, 0, 3, 2, 0] = some (some (.arr h (.prim .uint g))) ∧
      h.varCount = true ∧ h.maxSize = 100 ∧ g.size = 2 := by
    have h0 : (match deser [132, 100, 0, 0, 0, 0, 3, 2, 0] with
      | some (some (.arr h (.prim .uint g))) => h.varCount && h.maxSize == 100 && g.size == 2
      | _ => false) = true := by decide +kernel
    split at h0
    · rename_i h g he
      simp only [Bool.and_eq_true, beq_iff_eq] at h0
      exact ⟨h, g, he, h0.1.1, h0.1.2, h0.2⟩
    · cases h0
  obtain ⟨h, g, h1, h2, h3, h4⟩ := h
  have h5 : vsz 100 = 1 := by decide
  have hl : lim = 2147483648 := rfl
  refine ⟨_, h1, ?_, ?_, C78_more_data (by decide) h1⟩
  · simp [Limits, Least, Varies, h2, h3, h5, hl]
  · simp [Sound, Least, Varies, h2, h3, h4, h5]

end Props
end TS
