import Verif.ApiEdit
/-
Every public page function refines the specification, whatever the layout.
-/
namespace TS

variable {ps h : Nat} {d : SizeDef} {pg : Bytes} {s : Slots}

/-- All tuples of a logical page are well formed. -/
def AllWF (d : SizeDef) (s : Slots) : Prop := ∀ x ∈ s, ExtOk d x

theorem AllWF.get (hs : AllWF d s) {i : Nat} {t : Bytes} (hi : s[i]? = some (some t)) :
    WellFormed d t := hs (some t) (List.mem_of_getElem? hi) t rfl

theorem AllWF.sub (hs : AllWF d s) {s' : Slots} (h' : ∀ x ∈ s', x ∈ s) : AllWF d s' :=
  fun x hx => hs x (h' x hx)

theorem AllWF.add (hs : AllWF d s) {s' : Slots} {e : Option Bytes} (he : ExtOk d e)
    (h' : ∀ x ∈ s', x ∈ s ∨ x = e) : AllWF d s' := by
  intro x hx
  rcases h' x hx with h1 | rfl
  · exact hs x h1
  · exact he

/-- The page represents the logical page in the layout the size definition selects. -/
def PRep (ps h : Nat) (d : SizeDef) (pg : Bytes) (s : Slots) : Prop :=
  Slotted.Rep ps h d pg s ∨ (Fixed.Rep ps h d pg s ∧ AllWF d s)

theorem PRep.len (r : PRep ps h d pg s) : pg.length = ps := by
  rcases r with r | ⟨r, -⟩
  · exact r.base.len
  · exact r.base.len

theorem PRep.base0 (r : PRep ps h d pg s) : Base ps h 0 pg := by
  rcases r with r | ⟨r, -⟩
  · exact r.base.mono (by omega)
  · exact r.base.mono (by omega)

theorem PRep.wf (r : PRep ps h d pg s) : AllWF d s := by
  rcases r with r | ⟨-, r⟩
  · intro x hx t ht
    subst ht
    obtain ⟨i, hi⟩ := List.mem_iff_getElem?.mp hx
    exact (r.lay.live i t hi).2.2.2
  · exact r

theorem slotted_var (r : Slotted.Rep ps h d pg s) : Api.slotted d = true := r.var
theorem slotted_fix (r : Fixed.Rep ps h d pg s) : Api.slotted d = false := r.fixed

/-! ### Queries -/

theorem PRep.tupleCount (r : PRep ps h d pg s) : Api.tupleCount pg ps d = some s.length := by
  rcases r with r | ⟨r, -⟩
  · simp [Api.tupleCount, slotted_var r, r.tupleCount]
  · simp [Api.tupleCount, slotted_fix r, r.tupleCount]

theorem PRep.tombCount (r : PRep ps h d pg s) : Api.tombCount pg ps d = some (tombs s) := by
  rcases r with r | ⟨r, -⟩
  · simp [Api.tombCount, slotted_var r, r.tombCount]
  · simp [Api.tombCount, slotted_fix r, r.tombCount]

theorem PRep.existsTuple (r : PRep ps h d pg s) (i : Nat) :
    Api.existsTuple pg ps d i = some (lookup s i).isSome := by
  rcases r with r | ⟨r, -⟩
  · simp [Api.existsTuple, slotted_var r, r.existsTuple]
  · simp [Api.existsTuple, slotted_fix r, r.existsTuple]

theorem PRep.getNth (r : PRep ps h d pg s) (i : Nat) :
    (∃ o t, Api.getNth pg ps d i = some (some o) ∧ s[i]? = some (some t) ∧
      o + t.length ≤ pg.length ∧ rd pg o t.length = t ∧
      tupleSize d (pg.drop o) = some t.length) ∨
    (Api.getNth pg ps d i = some none ∧ ∀ t, s[i]? ≠ some (some t)) := by
  rcases r with r | ⟨r, -⟩
  · simpa [Api.getNth, slotted_var r] using r.getNth i
  · simpa [Api.getNth, slotted_fix r] using r.getNth i

theorem PRep.readNth (r : PRep ps h d pg s) (i : Nat) :
    Api.readNth pg ps d i = some (lookup s i) := by
  rcases r.getNth i with ⟨o, t, hg, hi, hb, hr, ht⟩ | ⟨hg, hn⟩
  · simp [Api.readNth, hg, ht, load_eq hb, hr, lookup_some hi]
  · simp [Api.readNth, hg, lookup_none hn]

theorem PRep.observe (r : PRep ps h d pg s) : Observe ps d pg s :=
  ⟨r.tupleCount, r.tombCount, r.existsTuple, r.readNth⟩

theorem PRep.headerSize (r : PRep ps h d pg s) : Api.headerSize pg ps = some h :=
  hdrSize_eq r.base0

theorem PRep.readHeader (r : PRep ps h d pg s) :
    Api.readHeader pg ps = some (hdrBytes ps h pg) := by
  have h1 := r.base0.hlt
  have h2 := r.base0.len
  simp only [Api.readHeader, r.headerSize, Option.bind_eq_bind, Option.bind_some]
  rw [load_eq (by omega)]; rfl

/-! ### Operations -/

theorem PRep.append (r : PRep ps h d pg s) {ext : Option Bytes} (he : ExtOk d ext) :
    ∃ b, Api.canAppend pg ps d ext = some b ∧
      (b = true → ∃ pg', Api.append pg ps d ext = some (pg', true) ∧
        PRep ps h d pg' (s ++ [ext]) ∧ hdrBytes ps h pg' = hdrBytes ps h pg) ∧
      (b = false → Api.append pg ps d ext = some (pg, false)) := by
  rcases r with r | ⟨r, hw⟩
  · refine ⟨_, by simp [Api.canAppend, slotted_var r]; exact r.canAppend he, ?_, ?_⟩
    · intro hb
      obtain ⟨pg', h1, h2, h3, -⟩ := (r.append he).1 (by simpa using hb)
      exact ⟨pg', by simpa [Api.append, slotted_var r] using h1, Or.inl h2, h3⟩
    · intro hb
      simpa [Api.append, slotted_var r] using (r.append he).2 (by simpa using hb)
  · refine ⟨_, by simp [Api.canAppend, slotted_fix r]; exact r.canAppend, ?_, ?_⟩
    · intro hb
      obtain ⟨pg', h1, h2, h3⟩ := (r.append he).1 (by simpa using hb)
      exact ⟨pg', by simpa [Api.append, slotted_fix r] using h1,
        Or.inr ⟨h2, hw.add he (by simp)⟩, h3⟩
    · intro hb
      simpa [Api.append, slotted_fix r] using (r.append he).2 (by simpa using hb)

theorem PRep.insert (r : PRep ps h d pg s) (i : Nat) {ext : Option Bytes} (he : ExtOk d ext) :
    ∃ b, Api.canInsert pg ps d i ext = some b ∧
      (b = true → i ≤ s.length ∧ ∃ pg', Api.insert pg ps d i ext = some (pg', true) ∧
        PRep ps h d pg' (s.take i ++ ext :: s.drop i) ∧ hdrBytes ps h pg' = hdrBytes ps h pg) ∧
      (b = false → Api.insert pg ps d i ext = some (pg, false)) := by
  have hc := r.tupleCount
  rcases r with r | ⟨r, hw⟩
  · refine ⟨decide (i ≤ s.length ∧ vsz ps + dataLen ext ≤ Slotted.free ps h pg s), ?_, ?_, ?_⟩
    · simp only [Api.canInsert, hc, Option.bind_eq_bind, Option.bind_some, Api.canAppend,
        slotted_var r, if_true]
      split
      · rw [r.canAppend he]; simp [*]
      · simp [*]
    · intro hb
      have hb := of_decide_eq_true hb
      obtain ⟨pg', h1, h2, h3⟩ := (r.insert he).1 hb
      exact ⟨hb.1, pg', by simpa [Api.insert, slotted_var r] using h1, Or.inl h2, h3⟩
    · intro hb
      have hb := of_decide_eq_false hb
      simpa [Api.insert, slotted_var r] using (r.insert he).2 hb
  · refine ⟨decide (i ≤ s.length ∧ s.length < Fixed.cap ps h d), ?_, ?_, ?_⟩
    · simp only [Api.canInsert, hc, Option.bind_eq_bind, Option.bind_some, Api.canAppend,
        slotted_fix r]
      split
      · simp [r.canAppend, *]
      · simp [*]
    · intro hb
      have hb := of_decide_eq_true hb
      obtain ⟨pg', h1, h2, h3⟩ := (r.insert he).1 hb
      refine ⟨hb.1, pg', by simpa [Api.insert, slotted_fix r] using h1,
        Or.inr ⟨h2, hw.add he ?_⟩, h3⟩
      intro x hx
      simp only [List.mem_append, List.mem_cons] at hx
      rcases hx with hx | hx | hx
      · exact Or.inl (List.mem_of_mem_take hx)
      · exact Or.inr hx
      · exact Or.inl (List.mem_of_mem_drop hx)
    · intro hb
      have hb := of_decide_eq_false hb
      simpa [Api.insert, slotted_fix r] using (r.insert he).2 hb

theorem PRep.update (r : PRep ps h d pg s) (i : Nat) {ext : Option Bytes} (he : ExtOk d ext) :
    ∃ b, Api.canUpdate pg ps d i ext = some b ∧
      (b = true → i < s.length ∧ ∃ pg', Api.update pg ps d i ext = some (pg', true) ∧
        PRep ps h d pg' (s.set i ext) ∧ hdrBytes ps h pg' = hdrBytes ps h pg) ∧
      (b = false → Api.update pg ps d i ext = some (pg, false)) := by
  rcases r with r | ⟨r, hw⟩
  · obtain ⟨b, hb, hiff⟩ := r.canUpdate i he
    refine ⟨b, by simpa [Api.canUpdate, slotted_var r] using hb, ?_, ?_⟩
    · intro hbt
      have hroom := hiff.mp hbt
      obtain ⟨pg', h1, h2, h3⟩ := (r.update he).1 hroom
      refine ⟨?_, pg', by simpa [Api.update, slotted_var r] using h1, Or.inl h2, h3⟩
      unfold Slotted.UpdRoom at hroom
      split at hroom
      · cases hroom
      all_goals exact (List.getElem?_eq_some_iff.mp ‹_›).1
    · intro hbf
      simpa [Api.update, slotted_var r] using
        (r.update he).2 (fun hh => by have := hiff.mpr hh; simp_all)
  · refine ⟨_, by simp [Api.canUpdate, slotted_fix r]; exact r.canUpdate i, ?_, ?_⟩
    · intro hb
      have hb := of_decide_eq_true hb
      obtain ⟨pg', h1, h2, h3⟩ := (r.update he).1 hb
      exact ⟨hb, pg', by simpa [Api.update, slotted_fix r] using h1,
        Or.inr ⟨h2, hw.add he (fun x hx => List.mem_or_eq_of_mem_set hx)⟩, h3⟩
    · intro hb
      simpa [Api.update, slotted_fix r] using (r.update he).2 (by simpa using hb)

theorem PRep.discard (r : PRep ps h d pg s) (i : Nat) :
    (i < s.length → ∃ pg', Api.discard pg ps d i = some (pg', true) ∧
      PRep ps h d pg' (s.eraseIdx i) ∧ hdrBytes ps h pg' = hdrBytes ps h pg) ∧
    (¬ i < s.length → Api.discard pg ps d i = some (pg, false)) := by
  rcases r with r | ⟨r, hw⟩
  · refine ⟨?_, ?_⟩
    · intro hi
      obtain ⟨pg', h1, h2, h3⟩ := (r.discard i).1 hi
      exact ⟨pg', by simpa [Api.discard, slotted_var r] using h1, Or.inl h2, h3⟩
    · intro hi
      simpa [Api.discard, slotted_var r] using (r.discard i).2 hi
  · refine ⟨?_, ?_⟩
    · intro hi
      obtain ⟨pg', h1, h2, h3⟩ := (r.discard i).1 hi
      exact ⟨pg', by simpa [Api.discard, slotted_fix r] using h1,
        Or.inr ⟨h2, hw.sub (fun x hx => List.mem_of_mem_eraseIdx hx)⟩, h3⟩
    · intro hi
      simpa [Api.discard, slotted_fix r] using (r.discard i).2 hi

theorem PRep.discardAll (r : PRep ps h d pg s) :
    ∃ pg', Api.discardAll pg ps d = some pg' ∧ PRep ps h d pg' [] ∧
      hdrBytes ps h pg' = hdrBytes ps h pg := by
  rcases r with r | ⟨r, hw⟩
  · obtain ⟨pg', h1, h2, h3⟩ := r.discardAll
    exact ⟨pg', by simpa [Api.discardAll, slotted_var r] using h1, Or.inl h2, h3⟩
  · obtain ⟨pg', h1, h2, h3⟩ := r.discardAll
    exact ⟨pg', by simpa [Api.discardAll, slotted_fix r] using h1,
      Or.inr ⟨h2, hw.sub (by simp)⟩, h3⟩

theorem PRep.discardTrailing (r : PRep ps h d pg s) :
    ∃ pg', Api.discardTrailing pg ps d = some (pg', trailing s) ∧
      PRep ps h d pg' (dropTrailing s) ∧ hdrBytes ps h pg' = hdrBytes ps h pg := by
  rcases r with r | ⟨r, hw⟩
  · obtain ⟨pg', h1, h2, h3⟩ := r.discardTrailing
    exact ⟨pg', by simpa [Api.discardTrailing, slotted_var r] using h1, Or.inl h2, h3⟩
  · obtain ⟨pg', h1, h2, h3⟩ := r.discardTrailing
    refine ⟨pg', by simpa [Api.discardTrailing, slotted_fix r] using h1,
      Or.inr ⟨h2, hw.sub ?_⟩, h3⟩
    intro x hx
    rw [dropTrailing_append s]
    exact List.mem_append_left _ hx

theorem swapSlots_mem {i j : Nat} {x : Option Bytes} (hx : x ∈ swapSlots s i j) : x ∈ s := by
  unfold swapSlots at hx
  split at hx
  · rename_i a b ha hb
    rcases List.mem_or_eq_of_mem_set hx with h1 | rfl
    · rcases List.mem_or_eq_of_mem_set h1 with h2 | rfl
      · exact h2
      · exact List.mem_of_getElem? hb
    · exact List.mem_of_getElem? ha
  · exact hx

theorem PRep.swap (r : PRep ps h d pg s) (i j : Nat) :
    (i < s.length ∧ j < s.length → ∃ pg', Api.swap pg ps d i j = some (pg', true) ∧
      PRep ps h d pg' (swapSlots s i j) ∧ hdrBytes ps h pg' = hdrBytes ps h pg) ∧
    (¬ (i < s.length ∧ j < s.length) → Api.swap pg ps d i j = some (pg, false)) := by
  rcases r with r | ⟨r, hw⟩
  · refine ⟨?_, ?_⟩
    · intro hi
      obtain ⟨pg', h1, h2, h3⟩ := (r.swap i j).1 hi
      exact ⟨pg', by simpa [Api.swap, slotted_var r] using h1, Or.inl h2, h3⟩
    · intro hi
      rw [Api.swap, slotted_var r, if_pos rfl]; exact (r.swap i j).2 hi
  · refine ⟨?_, ?_⟩
    · intro hi
      obtain ⟨pg', h1, h2, h3⟩ := (r.swap i j).1 hi
      exact ⟨pg', by simpa [Api.swap, slotted_fix r] using h1,
        Or.inr ⟨h2, hw.sub (fun x hx => swapSlots_mem hx)⟩, h3⟩
    · intro hi
      rw [Api.swap, slotted_fix r]; exact (r.swap i j).2 hi

theorem PRep.compact (r : PRep ps h d pg s) (mem : Bool) :
    ∃ pg' b, Api.compact pg ps d mem = some (pg', b) ∧ PRep ps h d pg' s ∧
      hdrBytes ps h pg' = hdrBytes ps h pg ∧ (mem = false → pg' = pg ∧ b = false) := by
  have hr := r
  rcases r with r | ⟨r, hw⟩
  · cases mem with
    | true =>
      obtain ⟨pg', b, h1, h2, h3, -⟩ := r.compact
      exact ⟨pg', b, by simpa [Api.compact, slotted_var r] using h1, Or.inl h2, h3, by simp⟩
    | false =>
      exact ⟨pg, false, by simp [Api.compact, slotted_var r, r.tupleCount], hr, rfl, by simp⟩
  · exact ⟨pg, false, by simp [Api.compact, slotted_fix r, Fixed.compact], hr, rfl, by simp⟩

theorem PRep.zeroOut (r : PRep ps h d pg s) :
    ∃ pg' b, Api.zeroOut pg ps d = some (pg', b) ∧ PRep ps h d pg' s ∧
      hdrBytes ps h pg' = hdrBytes ps h pg := by
  rcases r with r | ⟨r, hw⟩
  · rcases Nat.eq_zero_or_pos (Slotted.free ps h pg s) with h0 | h0
    · exact ⟨pg, false, by simpa [Api.zeroOut, slotted_var r] using r.zeroOut.2 h0, Or.inl r, rfl⟩
    · obtain ⟨pg', h1, h2, h3, -⟩ := r.zeroOut.1 h0
      exact ⟨pg', true, by simpa [Api.zeroOut, slotted_var r] using h1, Or.inl h2, h3⟩
  · obtain ⟨pg', b, h1, h2, h3, -⟩ := r.zeroOut
    exact ⟨pg', b, by simpa [Api.zeroOut, slotted_fix r] using h1, Or.inr ⟨h2, hw⟩, h3⟩

theorem PRep.setInPlace (r : PRep ps h d pg s) (i : Nat) {e : Api.Edit} (he : EditOk d e) :
    (∃ t pg' b t', s[i]? = some (some t) ∧ Api.setInPlace pg ps d i e = some (pg', b) ∧
      EditEffect d e t b.toNat t' ∧ PRep ps h d pg' (s.set i (some t')) ∧
      hdrBytes ps h pg' = hdrBytes ps h pg) ∨
    ((∀ t, s[i]? ≠ some (some t)) ∧ Api.setInPlace pg ps d i e = some (pg, false)) := by
  rcases r with r | ⟨r, hw⟩
  · rcases r.setInPlace i he with ⟨t, pg', b, t', h1, h2, h3, h4, h5⟩ | ⟨h1, h2⟩
    · exact Or.inl ⟨t, pg', b, t', h1, by simpa [Api.setInPlace, slotted_var r] using h2, h3,
        Or.inl h4, h5⟩
    · exact Or.inr ⟨h1, by simpa [Api.setInPlace, slotted_var r] using h2⟩
  · rcases r.setInPlace i he (fun i t hi => hw.get hi) with
      ⟨t, pg', b, t', h1, h2, h3, h4, h6, h5⟩ | ⟨h1, h2⟩
    · refine Or.inl ⟨t, pg', b, t', h1, by simpa [Api.setInPlace, slotted_fix r] using h2, h3,
        Or.inr ⟨h4, hw.add (e := some t') ?_ (fun x hx => List.mem_or_eq_of_mem_set hx)⟩, h5⟩
      intro u hu; cases hu; exact h6
    · exact Or.inr ⟨h1, by simpa [Api.setInPlace, slotted_fix r] using h2⟩

/-- Writing inside the page header. -/
theorem PRep.writeHeader (r : PRep ps h d pg s) {off : Nat} {bs : Bytes}
    (ho : off + bs.length ≤ h) :
    ∃ pg', Api.writeHeader pg ps off bs = some pg' ∧ PRep ps h d pg' s ∧
      hdrBytes ps h pg' = wr (hdrBytes ps h pg) off bs ∧
      pg' = wr pg (vsz ps + off) bs := by
  have h1 := r.base0.hlt
  have h2 := r.base0.len
  have e1 : rd (wr pg (vsz ps + off) bs) 0 (vsz ps) = rd pg 0 (vsz ps) :=
    rd_wr_disj _ _ _ _ _ (by omega)
  have e2 : ∀ o l, vsz ps + h ≤ o → rd (wr pg (vsz ps + off) bs) o l = rd pg o l :=
    fun o l hol => rd_wr_disj _ _ _ _ _ (by omega)
  refine ⟨wr pg (vsz ps + off) bs, store_eq (by omega), ?_, ?_, rfl⟩
  · rcases r with r | ⟨r, hw⟩
    · exact Or.inl (r.congr_hdr (by simp) e1 e2).1
    · exact Or.inr ⟨r.congr_hdr (by simp) e1 e2, hw⟩
  · apply List.ext_getElem?
    intro i
    unfold hdrBytes
    rw [wr_getElem?, rd_getElem?, rd_length _ _ _ (by omega), wr_getElem?]
    by_cases hi : i < h
    · by_cases hj : off ≤ i ∧ i < off + bs.length
      · rw [if_pos hi, if_pos (by omega), if_pos (by omega)]; congr 1; omega
      · rw [if_pos hi, if_neg (by omega), if_neg (by omega), rd_getElem?, if_pos hi]
    · rw [if_neg hi, if_neg (by omega), rd_getElem?, if_neg hi]

/-! ### Histories -/

/-- Specification of the page header contents after a history: only header writes matter. -/
def hdrSpec : Bytes → List Op → Bytes
  | b, [] => b
  | b, .writeHeader off bs :: ops => hdrSpec (wr b off bs) ops
  | b, _ :: ops => hdrSpec b ops

/-- Specification of one call on the page header. -/
def hdrStep : Bytes → Op → Bytes
  | b, .writeHeader off bs => wr b off bs
  | b, _ => b

theorem hdrSpec_cons (b : Bytes) (op : Op) (ops : List Op) :
    hdrSpec b (op :: ops) = hdrSpec (hdrStep b op) ops := by
  cases op <;> rfl

theorem PRep.step (r : PRep ps h d pg s) {op : Op} (ho : OpOk h d op) :
    ∃ pg' n s', TS.step ps d pg op = some (pg', n) ∧ SpecStep d s op n s' ∧ PRep ps h d pg' s' ∧
      hdrBytes ps h pg' = hdrStep (hdrBytes ps h pg) op := by
  cases op with
  | append ext =>
    obtain ⟨b, -, h1, h2⟩ := r.append ho
    cases b with
    | true =>
      obtain ⟨pg', h3, h4, h5⟩ := h1 rfl
      exact ⟨pg', 1, _, by simp [TS.step, h3], Or.inl ⟨rfl, rfl⟩, h4, h5⟩
    | false => exact ⟨pg, 0, s, by simp [TS.step, h2 rfl], Or.inr ⟨rfl, rfl⟩, r, rfl⟩
  | insert i ext =>
    obtain ⟨b, -, h1, h2⟩ := r.insert i ho
    cases b with
    | true =>
      obtain ⟨hi, pg', h3, h4, h5⟩ := h1 rfl
      exact ⟨pg', 1, _, by simp [TS.step, h3], Or.inl ⟨rfl, hi, rfl⟩, h4, h5⟩
    | false => exact ⟨pg, 0, s, by simp [TS.step, h2 rfl], Or.inr ⟨rfl, rfl⟩, r, rfl⟩
  | update i ext =>
    obtain ⟨b, -, h1, h2⟩ := r.update i ho
    cases b with
    | true =>
      obtain ⟨hi, pg', h3, h4, h5⟩ := h1 rfl
      exact ⟨pg', 1, _, by simp [TS.step, h3], Or.inl ⟨rfl, hi, rfl⟩, h4, h5⟩
    | false => exact ⟨pg, 0, s, by simp [TS.step, h2 rfl], Or.inr ⟨rfl, rfl⟩, r, rfl⟩
  | discard i =>
    by_cases hi : i < s.length
    · obtain ⟨pg', h3, h4, h5⟩ := (r.discard i).1 hi
      exact ⟨pg', 1, _, by simp [TS.step, h3], Or.inl ⟨rfl, hi, rfl⟩, h4, h5⟩
    · exact ⟨pg, 0, s, by simp [TS.step, (r.discard i).2 hi], Or.inr ⟨rfl, by omega, rfl⟩, r, rfl⟩
  | discardAll =>
    obtain ⟨pg', h3, h4, h5⟩ := r.discardAll
    exact ⟨pg', 0, _, by simp [TS.step, h3], ⟨rfl, rfl⟩, h4, h5⟩
  | discardTrailing =>
    obtain ⟨pg', h3, h4, h5⟩ := r.discardTrailing
    exact ⟨pg', _, _, by simp [TS.step, h3], ⟨rfl, rfl⟩, h4, h5⟩
  | swap i j =>
    by_cases hi : i < s.length ∧ j < s.length
    · obtain ⟨pg', h3, h4, h5⟩ := (r.swap i j).1 hi
      exact ⟨pg', 1, _, by simp [TS.step, h3], Or.inl ⟨rfl, hi.1, hi.2, rfl⟩, h4, h5⟩
    · exact ⟨pg, 0, s, by simp [TS.step, (r.swap i j).2 hi], Or.inr ⟨rfl, by omega, rfl⟩, r, rfl⟩
  | compact mem =>
    obtain ⟨pg', b, h3, h4, h5, h6⟩ := r.compact mem
    refine ⟨pg', b.toNat, s, by simp [TS.step, h3], ⟨?_, ?_, rfl⟩, h4, h5⟩
    · cases b <;> simp
    · intro hm; rw [(h6 hm).2]; rfl
  | zeroOut =>
    obtain ⟨pg', b, h3, h4, h5⟩ := r.zeroOut
    exact ⟨pg', b.toNat, s, by simp [TS.step, h3], ⟨by cases b <;> simp, rfl⟩, h4, h5⟩
  | setElem i e =>
    rcases r.setInPlace i ho with ⟨t, pg', b, t', h1, h2, h3, h4, h5⟩ | ⟨h1, h2⟩
    · exact ⟨pg', b.toNat, _, by simp [TS.step, h2],
        Or.inr ⟨t, t', lookup_some h1, h3, rfl⟩, h4, h5⟩
    · exact ⟨pg, 0, s, by simp [TS.step, h2], Or.inl ⟨lookup_none h1, rfl, rfl⟩, r, rfl⟩
  | writeHeader off bs =>
    obtain ⟨pg', h1, h2, h3, -⟩ := r.writeHeader ho
    exact ⟨pg', 0, s, by simp [TS.step, h1], ⟨rfl, rfl⟩, h2, h3⟩

theorem PRep.run (r : PRep ps h d pg s) {ops : List Op} (ho : ∀ op ∈ ops, OpOk h d op) :
    ∃ pg' rs s', TS.run ps d pg ops = some (pg', rs) ∧ SpecRun d s ops rs s' ∧
      PRep ps h d pg' s' ∧ hdrBytes ps h pg' = hdrSpec (hdrBytes ps h pg) ops := by
  induction ops generalizing pg s with
  | nil => exact ⟨pg, [], s, rfl, .nil s, r, rfl⟩
  | cons op ops ih =>
    obtain ⟨pg1, n, s1, h1, h2, h3, h4⟩ := r.step (ho op (by simp))
    obtain ⟨pg2, rs, s2, h5, h6, h7, h8⟩ := ih h3 (fun o hm => ho o (by simp [hm]))
    refine ⟨pg2, n :: rs, s2, by simp [TS.run, h1, h5], .cons h2 h6, h7, ?_⟩
    rw [hdrSpec_cons, h8, h4]

theorem EditEffect.det {e : Api.Edit} {t t' t'' : Bytes} {n : Nat} (h1 : EditEffect d e t n t')
    (h2 : EditEffect d e t n t'') : t' = t'' := by
  unfold EditEffect at h1 h2
  split at h1
  · rename_i hc; rw [if_pos hc] at h2; rw [h1.2, h2.2]
  · rename_i hc; rw [if_neg hc] at h2
    obtain ⟨m, ok, k, a1, a2, a3, -⟩ := h1
    obtain ⟨m', ok', k', b1, b2, b3, -⟩ := h2
    rw [a1] at b1; cases b1
    rw [a2] at b2; cases b2
    rw [a3, b3]

/-- The specification leaves no freedom once the return value is known. -/
theorem SpecStep.det {op : Op} {n : Nat} {s' s'' : Slots} (h1 : SpecStep d s op n s')
    (h2 : SpecStep d s op n s'') : s' = s'' := by
  cases op with
  | setElem i e =>
    rcases h1 with ⟨a1, a2, a3⟩ | ⟨t, t', a1, a2, a3⟩
    · rcases h2 with ⟨b1, b2, b3⟩ | ⟨u, u', b1, b2, b3⟩
      · rw [a3, b3]
      · rw [a1] at b1; cases b1
    · rcases h2 with ⟨b1, b2, b3⟩ | ⟨u, u', b1, b2, b3⟩
      · rw [a1] at b1; cases b1
      · rw [a1] at b1; cases b1
        rw [a3, b3, a2.det b2]
  | _ => simp only [SpecStep] at h1 h2; grind

theorem SpecRun.det {ops : List Op} {rs : List Nat} {s' s'' : Slots} (h1 : SpecRun d s ops rs s')
    (h2 : SpecRun d s ops rs s'') : s' = s'' := by
  induction h1 with
  | nil => cases h2; rfl
  | cons a b ih =>
    cases h2 with
    | cons c e =>
      have := a.det c
      subst this
      exact ih e

/-! ### Initialisation -/

/-- Weaker than `Legal`: all that the proofs need. -/
structure Fit (ps h : Nat) (d : SizeDef) : Prop where
  lt : ps < 4294967296
  var : d.isVar = true → wAddr ps h 4 ≤ ps
  fix : d.isVar = false → wAddr ps h 2 ≤ ps ∧ 1 ≤ d.size
  nowrap : ∃ m, Api.minPageSize h d 1 = some m

theorem Legal.fit (l : Legal ps h d) : Fit ps h d := by
  have h1 := l.ps_ge
  have h2 := l.ps_le
  have h3 := l.h_le
  have h4 := l.size_le
  have h5 := vsz_le ps
  refine ⟨by omega, fun _ => by simp only [wAddr]; omega,
    fun _ => ⟨by simp only [wAddr]; omega, l.size_ge⟩, ?_⟩
  unfold Api.minPageSize
  split
  · simp only [Slotted.minPageSize, minTupleSize, Option.bind_eq_bind]
    rw [u32_eq (by omega), Option.bind_some]
    split
    · exact ⟨_, rfl⟩
    · rw [u32_eq (by omega), Option.bind_some]
      split
      · exact ⟨_, rfl⟩
      · rw [u32_eq (by omega), Option.bind_some]
        split
        · exact ⟨_, rfl⟩
        · exact ⟨_, u32_eq (by omega)⟩
  · simp only [Fixed.minPageSize, bitmapBytes, Option.bind_eq_bind]
    rw [u32_eq (by omega), Option.bind_some]
    split
    · exact ⟨_, rfl⟩
    · rw [u32_eq (by omega), Option.bind_some]
      split
      · exact ⟨_, rfl⟩
      · rw [u32_eq (by omega), Option.bind_some]
        split
        · exact ⟨_, rfl⟩
        · exact ⟨_, u32_eq (by omega)⟩

theorem Fit.init (f : Fit ps h d) {pg0 : Bytes} (hl : pg0.length = ps) :
    ∃ pg ok m, Api.initPage pg0 ps h d = some (pg, ok) ∧ Api.minPageSize h d 1 = some m ∧
      (ok = true ↔ m ≤ ps) ∧ (ok = false → pg = pg0) ∧
      (ok = true → PRep ps h d pg [] ∧ hdrBytes ps h pg = List.replicate h 0) := by
  obtain ⟨m, hm⟩ := f.nowrap
  cases hv : d.isVar with
  | true =>
    obtain ⟨pg, ok, h1, h2, h3, h4⟩ := Slotted.init_rep (h := h) hv hl f.lt (f.var hv) (m := m)
      (by simpa [Api.minPageSize, Api.slotted, hv] using hm)
    exact ⟨pg, ok, m, by simpa [Api.initPage, Api.slotted, hv] using h1, hm, h2, h3,
      fun hok => ⟨Or.inl (h4 hok).1, (h4 hok).2⟩⟩
  | false =>
    obtain ⟨pg, ok, h1, h2, h3, h4⟩ := Fixed.init_rep (h := h) hv (f.fix hv).2 hl f.lt
      (f.fix hv).1 (m := m) (by simpa [Api.minPageSize, Api.slotted, hv] using hm)
    exact ⟨pg, ok, m, by simpa [Api.initPage, Api.slotted, hv] using h1, hm, h2, h3,
      fun hok => ⟨Or.inr ⟨(h4 hok).1, by intro x hx; simp at hx⟩, (h4 hok).2⟩⟩

theorem Reach.rep (f : Fit ps h d) (hr : Reach ps h d pg s) : PRep ps h d pg s := by
  obtain ⟨pg0, pg1, ops, rs, hl, hi, ho, hrun, hs⟩ := hr
  obtain ⟨pg', ok, m, h1, -, -, -, h2⟩ := f.init hl
  rw [hi] at h1; cases h1
  obtain ⟨pg2, rs2, s2, h3, h4, h5, -⟩ := (h2 rfl).1.run ho
  rw [hrun] at h3; cases h3
  rw [hs.det h4]; exact h5

end TS
