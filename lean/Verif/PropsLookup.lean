import Verif.Lookup
import Verif.PropsWalk
import Verif.PropsPage3
/-
Properties C58-C60: looking fields up by name, checking positions, page header helpers.
-/
namespace TS
namespace Props
open Dti

/-! ### C58 -/

/-- C58. Whatever NUL-terminated text is asked for in a tuple type whose field names have at most 63 characters,
`find_containee_using_field_name_in_tuple_type_info` returns the index of the first field of that name, and -1 if there
is none. -/
theorem C58_first_field {h : Hdr} {fs : List (Fld × Dti)} {q : Bytes} (hc : fs.length = h.count) (hq : (0 : UInt8) ∈ q)
    (hs : ∀ f, f ∈ fs → (cname f.1.name).length < 64) :
    ∃ r, findField (.tup h fs) q = some r ∧
      (∀ i, r = some i ↔ (∃ f, fs[i]? = some f ∧ cname f.1.name = strn q) ∧
        ∀ j f, j < i → fs[j]? = some f → cname f.1.name ≠ strn q) ∧
      (r = none ↔ ∀ f, f ∈ fs → cname f.1.name ≠ strn q) := by
  have hm : ∀ {l : Nat} {g : Fld × Dti}, fs[l]? = some g → l < h.count := by
    intro l g hg
    rw [← hc]
    exact (List.getElem?_eq_some_iff.mp hg).1
  have hmem : ∀ {g : Fld × Dti}, g ∈ fs → ∃ l : Nat, fs[l]? = some g := by
    intro g hg
    exact List.mem_iff_getElem?.mp hg
  simp only [findField]
  rcases findLoop_spec hq fs h.count 0 (by omega) with ⟨j, f, h1, h2, h3, h4, h5, h6⟩ | ⟨h1, h2⟩ | ⟨j, f, h1, h2, h3, h4, h5, h6, h7⟩
  · refine ⟨_, h1, ?_, ?_⟩
    · intro i
      constructor
      · intro h
        cases h
        exact ⟨⟨f, h4, h5⟩, fun l g hl => h6 l g (by omega) hl⟩
      · rintro ⟨⟨g, g1, g2⟩, g3⟩
        have a1 : ¬ j < i := fun hji => g3 j f hji h4 h5
        have a2 : ¬ i < j := fun hij => h6 i g (by omega) hij g1 g2
        rw [show j = i by omega]
    · refine ⟨fun h => by (cases h), fun h => absurd h5 (h f (List.mem_of_getElem? h4))⟩
  · refine ⟨_, h1, ?_, ?_⟩
    · intro i
      refine ⟨fun h => by (cases h), ?_⟩
      rintro ⟨⟨g, g1, g2⟩, _⟩
      exact absurd g2 (h2 i g (by omega) (by have := hm g1; omega) g1)
    · refine ⟨fun _ f hf => ?_, fun _ => rfl⟩
      obtain ⟨l, hl⟩ := hmem hf
      exact h2 l f (by omega) (by have := hm hl; omega) hl
  · exact absurd (hs f (List.mem_of_getElem? h4)) h5

/-- Two fields called "id" and one called "n". -/
def exFields : List (Fld × Dti) :=
  [({ name := [110] }, .prim .uint { size := 4 }), ({ name := [105, 100] }, .prim .uint { size := 4 }),
   ({ name := [105, 100, 0, 7] }, .prim .uint { size := 8 })]

example : exFields.length = ({ count := 3 } : Hdr).count ∧ (0 : UInt8) ∈ [105, 100, 0, 9] ∧
    (∀ f, f ∈ exFields → (cname f.1.name).length < 64) ∧
    findField (.tup { count := 3 } exFields) [105, 100, 0, 9] = some (some 1) ∧
    findField (.tup { count := 3 } exFields) [105, 0] = some none := by
  refine ⟨rfl, by decide, by decide +kernel, by decide +kernel, by decide +kernel⟩

/-- C58, limit. Without the bound on the names, `strcmp` reads behind the member `field_name` exactly if a field has a
name of 64 characters that is a prefix of the text asked for, and no field before it has the name asked for. -/
theorem C58_over_read {h : Hdr} {fs : List (Fld × Dti)} {q : Bytes} (hc : fs.length = h.count) (hq : (0 : UInt8) ∈ q) :
    findField (.tup h fs) q = none ↔ ∃ (j : Nat) (f : Fld × Dti), fs[j]? = some f ∧ (cname f.1.name).length = 64 ∧ cname f.1.name <+: strn q ∧
      ∀ (l : Nat) (g : Fld × Dti), l < j → fs[l]? = some g → cname g.1.name ≠ strn q := by
  have hlen : ∀ n : Bytes, (cname n).length ≤ 64 := by
    intro n
    have h1 : (cname n).length ≤ (n.take 64).length := (List.takeWhile_prefix _).length_le
    have h2 := List.length_take_le 64 n
    omega
  have hm : ∀ {l : Nat} {g : Fld × Dti}, fs[l]? = some g → l < h.count := by
    intro l g hg
    rw [← hc]
    exact (List.getElem?_eq_some_iff.mp hg).1
  -- a fault of the loop with an arbitrary number of iterations left
  have key : ∀ k i, i + k = fs.length → (∃ (j : Nat) (f : Fld × Dti), i ≤ j ∧ fs[j]? = some f ∧ (cname f.1.name).length = 64 ∧
      cname f.1.name <+: strn q ∧ ∀ (l : Nat) (g : Fld × Dti), i ≤ l → l < j → fs[l]? = some g → cname g.1.name ≠ strn q) →
      findLoop q fs k i = none := by
    intro k
    induction k with
    | zero =>
      rintro i hi ⟨j, f, h1, h2, _⟩
      have := (List.getElem?_eq_some_iff.mp h2).1
      omega
    | succ k ih =>
      rintro i hi ⟨j, f, h1, h2, h3, h4, h5⟩
      have hi' : i < fs.length := by omega
      have hf : fs[i]? = some fs[i] := List.getElem?_eq_getElem hi'
      have he := strEq_name fs[i].1.name hq
      rw [findLoop, hf]
      simp only [Option.bind_eq_bind, Option.bind_some]
      by_cases hji : j = i
      · subst hji
        rw [hf] at h2
        cases h2
        rw [he, if_neg (by omega), if_pos h4, Option.bind_none]
      · have hne := h5 i fs[i] (by omega) (by omega) hf
        have hrec := ih (i + 1) (by omega) ⟨j, f, by omega, h2, h3, h4, fun l g a b => h5 l g (by omega) b⟩
        rw [he]
        split
        · rw [Option.bind_some, decide_eq_false (fun h => hne h.symm)]
          simpa using hrec
        · split
          · rfl
          · simpa using hrec
  constructor
  · intro hn
    simp only [findField] at hn
    rcases findLoop_spec hq fs h.count 0 (by omega) with ⟨j, f, h1, _⟩ | ⟨h1, h2⟩ | ⟨j, f, h1, h2, h3, h4, h5, h6, h7⟩
    · rw [hn] at h1; cases h1
    · rw [hn] at h1; cases h1
    · refine ⟨j, f, h4, ?_, h6, fun l g hl => h7 l g (by omega) hl⟩
      have := hlen f.1.name
      omega
  · rintro ⟨j, f, h2, h3, h4, h5⟩
    simp only [findField]
    refine key h.count 0 (by omega) ⟨j, f, by omega, h2, h3, h4, fun l g _ b => h5 l g b⟩

/-- A field with a name of 64 characters, asked for by just that name. -/
example : (cname (List.replicate 64 97)).length = 64 ∧
    findField (.tup { count := 1 } [({ name := List.replicate 64 97 }, .prim .uint { size := 4 })]) (List.replicate 64 97 ++ [0]) = none := by
  decide +kernel

/-- C58. Types that are not tuples have no fields. -/
theorem C58_not_a_tuple {d : Dti} (q : Bytes) (h : ∀ hd fs, d ≠ .tup hd fs) : findField d q = some none := by
  cases d with
  | tup hd fs => exact absurd rfl (h hd fs)
  | prim => rfl
  | str => rfl
  | arr => rfl

example : ∀ hd fs, (Dti.arr {} (.prim .uint { size := 4 })) ≠ .tup hd fs := by
  intro hd fs h; cases h

/-! ### C59 -/

/-- The position exists in a value of the type, for variable element counts in some value of the type. -/
def TypeHas : Dti → List Nat → Prop
  | _, [] => True
  | .prim .., _ :: _ => False
  | .str _ h, i :: pa => (h.varCount = true ∨ i < h.count) ∧ pa = []
  | .tup _ fs, i :: pa => ∃ f, fs[i]? = some f ∧ TypeHas f.2 pa
  | .arr h c, i :: pa => (h.varCount = true ∨ i < h.count) ∧ TypeHas c pa

theorem typeAt_prim (k : PKind) (h : Hdr) (pa : List Nat) : (∃ t, (Dti.prim k h).typeAt pa = some t) ↔ pa = [] := by
  cases pa with
  | nil => simp [typeAt]
  | cons i pa => simp [typeAt, tyAtNoData, isCont]

theorem typeHas_iff : ∀ (pa : List Nat) {d : Dti}, TyOk d → ((∃ t, d.typeAt pa = some t) ↔ TypeHas d pa)
  | [], d, _ => by simp [typeAt, TypeHas]
  | i :: pa, d, hd => by
    cases hd with
    | prim k h => simp [typeAt, tyAtNoData, isCont, TypeHas]
    | str b h h1 h2 h3 h4 =>
      simp only [typeAt, tyAtNoData, isCont, isVarCount, tyAt, hdr, TypeHas, h2]
      by_cases hv : h.varCount = true
      · simp only [hv, Bool.not_true, Bool.false_and, Bool.false_eq_true, if_false, Option.bind_eq_bind, Option.bind_some, true_or, true_and]
        unfold u8
        exact typeAt_prim _ _ pa
      · have hv' : h.varCount = false := by simpa using hv
        by_cases hi : i < h.count
        · have := typeAt_prim .uint { isStatic := true, isFinal := true, size := 1 } pa
          simp [hv', hi, show ¬ h.count ≤ i by omega, u8, this]
        · simp [hv', hi, show i ≥ h.count by omega]
    | tup h fs h1 h2 h3 h4 =>
      simp only [typeAt, tyAtNoData, isCont, isVarCount, tyAt, hdr, TypeHas]
      by_cases hi : i < h.count
      · have hf : fs[i]? = some (fs[i]'(by omega)) := List.getElem?_eq_getElem (by omega)
        have ih := typeHas_iff pa (h3 (fs[i]'(by omega)).1 (fs[i]'(by omega)).2 (List.getElem_mem _))
        simp [show ¬ h.count ≤ i by omega, hf, ih]
      · have hf : fs[i]? = none := List.getElem?_eq_none (by omega)
        simp [show h.count ≤ i by omega, hf]
    | arr h c h1 h2 h3 h4 h5 =>
      have ih := typeHas_iff pa h2
      simp only [typeAt, tyAtNoData, isCont, isVarCount, tyAt, hdr, TypeHas]
      by_cases hv : h.varCount = true
      · simp [hv, h3, ih]
      · have hv' : h.varCount = false := by simpa using hv
        by_cases hi : i < h.count
        · simp [hv', hi, show ¬ h.count ≤ i by omega, ih]
        · simp [hv', hi, show h.count ≤ i by omega]

/-- C59. `are_all_positions_accessible_for_tuple_def` returns 1 exactly if each of the first `n` positions given (the
first `n` elements of the tuple, if none are given) exists in the type. -/
theorem C59_tuple_def {d : Dti} (hd : Usable d) {ids : Option (List (List Nat))} {n : Nat} (hn : ∀ l, ids = some l → n ≤ l.length) :
    ∃ b, d.allDef ids n = some b ∧
      (b = true ↔ match ids with
        | none => ∀ i, i < n → TypeHas d [i]
        | some l => ∀ pa, pa ∈ l.take n → TypeHas d pa) := by
  obtain ⟨b, h1, h2⟩ := allDefLoop_spec d ids n 0 (fun l h => by have := hn l h; omega)
  refine ⟨b, h1, h2.trans ?_⟩
  cases ids with
  | none =>
    simp only [posAt]
    constructor
    · intro h i hi
      exact (typeHas_iff _ hd.ok).mp (h i [i] (by omega) (by omega) rfl)
    · intro h j pa _ hj hp
      cases hp
      exact (typeHas_iff _ hd.ok).mpr (h j (by omega))
  | some l =>
    have := hn l rfl
    simp only [posAt]
    constructor
    · intro h pa hp
      obtain ⟨i, hi⟩ := List.mem_iff_getElem?.mp hp
      rw [List.getElem?_take] at hi
      split at hi
      · exact (typeHas_iff _ hd.ok).mp (h i pa (by omega) (by omega) hi)
      · cases hi
    · intro h j pa _ hj hp
      refine (typeHas_iff _ hd.ok).mpr (h pa (List.mem_iff_getElem?.mpr ⟨j, ?_⟩))
      rw [List.getElem?_take, if_pos (by omega)]
      exact hp

/-- C59. `are_all_positions_accessible_for_tuple` on a tuple of value `val` returns 1 exactly if each of the first `n`
positions is in `val`, which includes all positions below a NULL. -/
theorem C59_tuple {d : Dti} (hd : Usable d) {m : Bytes} {S : Nat} {val : Val} (hS : S ≤ m.length) (he : Enc d (m.take S) val)
    {ids : Option (List (List Nat))} {n : Nat} (hn : ∀ l, ids = some l → n ≤ l.length) :
    ∃ b, d.allTup m ids n = some b ∧
      (b = true ↔ match ids with
        | none => ∀ i, i < n → ∃ y, val.at' [i] = some y
        | some l => ∀ pa, pa ∈ l.take n → ∃ y, val.at' pa = some y) := by
  have hg : ∀ pa, ∃ r, d.getElem m pa = some r := by
    intro pa
    have := getElem_ok pa hd.ok hS he
    unfold GetOk at this
    split at this
    · exact ⟨_, this⟩
    · rcases this with ⟨_, h⟩ | ⟨_, _, _, h, _⟩ <;> exact ⟨_, h⟩
  obtain ⟨b, h1, h2⟩ := allTupLoop_spec d m ids n 0 (fun l h => by have := hn l h; omega) hg
  refine ⟨b, h1, h2.trans ?_⟩
  cases ids with
  | none =>
    simp only [posAt]
    constructor
    · intro h i hi
      exact (at_some_iff hd.ok hS he).mpr (h i [i] (by omega) (by omega) rfl)
    · intro h j pa _ hj hp
      cases hp
      exact (at_some_iff hd.ok hS he).mp (h j (by omega))
  | some l =>
    have := hn l rfl
    simp only [posAt]
    constructor
    · intro h pa hp
      obtain ⟨i, hi⟩ := List.mem_iff_getElem?.mp hp
      rw [List.getElem?_take] at hi
      split at hi
      · exact (at_some_iff hd.ok hS he).mpr (h i pa (by omega) (by omega) hi)
      · cases hi
    · intro h j pa _ hj hp
      refine (at_some_iff hd.ok hS he).mp (h pa (List.mem_iff_getElem?.mpr ⟨j, ?_⟩))
      rw [List.getElem?_take, if_pos (by omega)]
      exact hp

example : Usable exFinal ∧ IsTuple exFinal exMem 11 ∧ exFinal.allDef (some [[0], [2, 7], [3, 1]]) 3 = some true ∧
    exFinal.allDef (some [[0], [4], [3, 1]]) 3 = some false ∧ exFinal.allDef none 4 = some true ∧ exFinal.allDef none 5 = some false ∧
    exFinal.allTup exMem (some [[0], [2], []]) 3 = some true ∧ exFinal.allTup exMem none 5 = some false :=
  ⟨exFinal_usable, exMem_tuple, by decide +kernel, by decide +kernel, by decide +kernel, by decide +kernel, by decide +kernel,
    by decide +kernel⟩

/-- C59. A position at which a tuple has a value other than NULL exists in the type. -/
theorem C59_value_has_type {d : Dti} (hd : Usable d) {m : Bytes} {S : Nat} (ht : IsTuple d m S) {pa : List Nat} {v : Datum}
    (hg : d.getElem m pa = some (some v)) (hv : v ≠ .null) : TypeHas d pa := by
  obtain ⟨hS, val, he⟩ := ht
  have h := getElem_ok pa hd.ok hS he
  unfold GetOk at h
  split at h
  · rw [h] at hg; cases hg
  · rcases h with ⟨_, h⟩ | ⟨t, dt, h, _⟩
    · rw [hg] at h; cases h; exact absurd rfl hv
    · exact (typeHas_iff pa hd.ok).mp ⟨t, h⟩

example : IsTuple exFinal exMem 11 ∧ exFinal.getElem exMem [] = some (some (.ptr exMem)) :=
  ⟨exMem_tuple, by decide +kernel⟩

/-- C59, limit. Neither check implies the other. Below a NULL the tuple check accepts positions that no value of the type
has, and the type check accepts elements that an array with a variable element count happens not to have. -/
theorem C59_independent : (∃ d m S ids, Usable d ∧ IsTuple d m S ∧
      d.allTup m (some ids) ids.length = some true ∧ d.allDef (some ids) ids.length = some false) ∧
    (∃ d m S ids, Usable d ∧ IsTuple d m S ∧
      d.allTup m (some ids) ids.length = some false ∧ d.allDef (some ids) ids.length = some true) := by
  have hu : Usable (.str true { isFinal := true, isVar := true, varCount := true, maxSize := 200, size := 1 }) :=
    ⟨.str true { varCount := true, maxSize := 200 }, .str _ _ rfl, rfl, .str _ _ (fun _ => by decide) (fun h => by cases h)⟩
  refine ⟨⟨exFinal, exMem, 11, [[1, 8, 9]], exFinal_usable, exMem_tuple, by decide +kernel, by decide +kernel⟩,
    ⟨_, [0], 1, [[0]], hu, ⟨by decide, min_enc hu.ok rfl⟩, by decide +kernel, by decide +kernel⟩⟩

/-! ### C60 -/

/-- C60. A page header of at most `page_size` minus the width of a value fits: `init_page_header` returns 1, the page has a
zeroed header of the size asked for, `get_end_of_page_header` points behind it, and the rest of the page is as it was. -/
theorem C60_fits {ps h : Nat} {pg0 : Bytes} (hl : pg0.length = ps) (hps : ps < 4294967296) (hfit : vsz ps + h ≤ ps) :
    canHdrFit h ps = true ∧ ∃ pg, initHdr pg0 ps h = some (pg, true) ∧ pg.length = ps ∧
      Api.headerSize pg ps = some h ∧ Api.readHeader pg ps = some (List.replicate h 0) ∧
      endHdr pg ps = some (vsz ps + h) ∧ pg.drop (vsz ps + h) = pg0.drop (vsz ps + h) := by
  have hsp : hdrSpace h ps = vsz ps + h := Nat.mod_eq_of_lt (by omega)
  have hN := vsz_pos ps
  have hle := leEnc_length (vsz ps) h
  have e1 : storeVal pg0 ps 0 h = some (leEnc (vsz ps) h ++ pg0.drop (vsz ps)) := by
    unfold storeVal
    rw [store_eq (by omega), wr, List.take_of_length_le (by simp; omega)]
    simp
  have e2 : zeroIn (leEnc (vsz ps) h ++ pg0.drop (vsz ps)) (vsz ps) h =
      some (leEnc (vsz ps) h ++ (List.replicate h 0 ++ pg0.drop (vsz ps + h))) := by
    unfold zeroIn
    rw [store_eq (by simp; omega), wr, List.take_of_length_le (by simp; omega)]
    rw [List.take_append_of_le_length (by omega), List.take_of_length_le (by omega), List.drop_append,
      List.drop_of_length_le (by simp)]
    simp [Nat.add_comm]
  have hlen : (leEnc (vsz ps) h ++ (List.replicate h 0 ++ pg0.drop (vsz ps + h))).length = ps := by
    simp; omega
  have hld : hdrSize (leEnc (vsz ps) h ++ (List.replicate h 0 ++ pg0.drop (vsz ps + h))) ps = some h := by
    unfold hdrSize loadVal
    rw [load_eq (by omega), rd, List.drop_zero, List.take_append_of_le_length (by omega), List.take_of_length_le (by omega)]
    have := le_pow_vsz hps
    rw [Option.map_some, leDec_leEnc, Nat.mod_eq_of_lt (by omega)]
  refine ⟨by simp [canHdrFit, hsp, hfit], _, ?_, hlen, hld, ?_, ?_, ?_⟩
  · simp [initHdr, hsp, show ¬ ps < vsz ps + h by omega, e1, e2]
  · simp only [Api.readHeader, Api.headerSize, hld, Option.bind_eq_bind, Option.bind_some]
    rw [load_eq (by omega)]
    simp [rd]
  · simp only [endHdr, offEndHdr, hld, Option.bind_eq_bind, Option.bind_some]
    exact u32_eq (by omega)
  · simp [List.drop_append, List.drop_of_length_le]

/-- C60. A larger header, of a size that does not make the sum wrap around, does not fit, and `init_page_header` leaves the page alone. -/
theorem C60_does_not_fit {ps h : Nat} (pg0 : Bytes) (hbig : ps < vsz ps + h) (hw : vsz ps + h < 4294967296) :
    canHdrFit h ps = false ∧ initHdr pg0 ps h = some (pg0, false) := by
  have hsp : hdrSpace h ps = vsz ps + h := Nat.mod_eq_of_lt hw
  exact ⟨by simp [canHdrFit, hsp, hbig], by simp [initHdr, hsp, hbig]⟩

example : ([1, 2, 3, 4, 5] : Bytes).length = 5 ∧ vsz 5 + 2 ≤ 5 ∧ canHdrFit 2 5 = true ∧ initHdr [1, 2, 3, 4, 5] 5 2 = some ([2, 0, 0, 4, 5], true) ∧
    5 < vsz 5 + 5 ∧ initHdr [1, 2, 3, 4, 5] 5 5 = some ([1, 2, 3, 4, 5], false) := by decide +kernel

/-- C60, limit. Header sizes from 2^32 minus the width of a value on wrap around: they are declared to fit on every page, and
`init_page_header` writes outside of the page. -/
theorem C60_wraps {ps h : Nat} {pg0 : Bytes} (hl : pg0.length = ps) (h0 : 0 < ps) (hps : ps < 4294967296) (hh : h < 4294967296)
    (hw : 4294967296 ≤ vsz ps + h) : canHdrFit h ps = true ∧ initHdr pg0 ps h = none := by
  have hv : vsz ps ≤ 4 := by unfold vsz; omega
  have hsp : hdrSpace h ps ≤ ps := by
    unfold hdrSpace
    have : (vsz ps + h) % 4294967296 = vsz ps + h - 4294967296 := by
      rw [Nat.mod_eq_sub_mod hw, Nat.mod_eq_of_lt (by omega)]
    rw [this]
    by_cases h1 : ps ≤ 256
    · have : vsz ps = 1 := by unfold vsz; rw [if_pos (by omega), if_pos (by omega), if_pos (by omega)]
      omega
    · omega
  refine ⟨by simp [canHdrFit, hsp], ?_⟩
  have e2 : ∀ x : Bytes, x.length = ps → zeroIn x (vsz ps) h = none := by
    intro x hx
    unfold zeroIn store
    rw [if_neg]
    simp
    omega
  simp only [initHdr, if_neg (show ¬ ps < hdrSpace h ps by omega), Option.bind_eq_bind]
  cases hs : storeVal pg0 ps 0 h with
  | none => rfl
  | some x =>
    have hx := (storeVal_some hs).1
    have : x.length = ps := by rw [hx, wr_length]; exact hl
    rw [Option.bind_some, e2 x this, Option.bind_none]

example : 0 < 4096 ∧ 4294967296 ≤ vsz 4096 + 4294967295 := by decide +kernel

end Props
end TS
