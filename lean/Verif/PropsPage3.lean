import Verif.PropsPage2
/-
Property theorems C22-C25 (capacity, minimum page size, `init_page`) and C50.
-/
namespace TS
namespace Props

variable {ps h : Nat} {d : SizeDef} {pg : Bytes} {s : Slots}

/-! ### C22 -/

theorem maxTupleCount_var (l : Legal ps h d) (hv : d.isVar = true) :
    Api.maxTupleCount h ps d = some ((ps - wAddr ps h 4) / (d.size + vsz ps)) := by
  have h1 := l.fit.var hv
  have h2 := l.ps_le
  have h3 := l.size_le
  have h4 := vsz_le ps
  simp only [Api.maxTupleCount, Api.slotted, hv, if_true, Slotted.maxTupleCount,
    Slotted.spaceToBeAllotted, Option.bind_eq_bind]
  have he : vsz ps + h + 4 * vsz ps = wAddr ps h 4 := rfl
  rw [he, u32_eq (by omega), Option.bind_some, sub32_eq h1]
  simp only [Option.bind_some, minTupleSize, Slotted.overhead]
  rw [u32_eq (by omega)]
  rfl

theorem maxTupleCount_fix (l : Legal ps h d) (hv : d.isVar = false) :
    Api.maxTupleCount h ps d = some (Fixed.cap ps h d) := by
  have h1 := (l.fit.fix hv).1
  have h2 := l.ps_le
  have hcap := Fixed.cap_lt (by omega) h1 l.size_ge
  have he : vsz ps + h + vsz ps * 2 = wAddr ps h 2 := by simp [wAddr]; omega
  simp only [Api.maxTupleCount, Api.slotted, hv, Fixed.maxTupleCount, Fixed.spacePlusBits,
    Option.bind_eq_bind, Bool.false_eq_true, if_false]
  rw [he, u32_eq (by omega)]
  simp only [Option.bind_some, sub32_eq h1]
  exact u32_eq (show Fixed.cap ps h d < _ by omega)

/-- C22: a page never holds more tuples than the maximum tuple count. -/
theorem C22_never_more (l : Legal ps h d) (hr : Reach ps h d pg s) :
    ∃ n k M, Api.tupleCount pg ps d = some n ∧ Api.tombCount pg ps d = some k ∧
      Api.maxTupleCount h ps d = some M ∧ k ≤ n ∧ n - k ≤ M := by
  have R := hr.rep l.fit
  have ht := Slotted.tombs_le s
  cases hv : d.isVar with
  | true =>
    refine ⟨_, _, _, R.tupleCount, R.tombCount, maxTupleCount_var l hv, ht, ?_⟩
    have h1 := R.conserve.1
    have h2 := live_min R.wf
    rw [usedSpace_var hv] at h1
    simp only [areaStart, hv, if_true] at h1
    have hp := vsz_pos ps
    rw [Nat.le_div_iff_mul_le (by omega), Nat.mul_add]
    have h3 := Nat.mul_le_mul_right (vsz ps) (show s.length - tombs s ≤ s.length by omega)
    omega
  | false =>
    refine ⟨_, _, _, R.tupleCount, R.tombCount, maxTupleCount_fix l hv, ht, ?_⟩
    rcases R with r | ⟨r, -⟩
    · rw [r.var] at hv; cases hv
    · have := r.le; omega

theorem liveSum_all {n : Nat} {ts : Slots} (ht : ∀ x ∈ ts, ∃ t, x = some t ∧ t.length = n) :
    liveSum ts = ts.length * n := by
  induction ts with
  | nil => simp
  | cons x ts ih =>
    obtain ⟨t, rfl, htl⟩ := ht x (by simp)
    have := ih (fun y hy => ht y (by simp [hy]))
    simp [this, htl, Nat.add_mul]; omega

/-- C22: on a fresh page as many tuples of minimum size as the maximum tuple count says can be
appended one after the other. -/
theorem C22_fill (l : Legal ps h d) {pg0 pg1 : Bytes} (hl : pg0.length = ps)
    (hi : Api.initPage pg0 ps h d = some (pg1, true)) {M : Nat}
    (hM : Api.maxTupleCount h ps d = some M) {ts : List Bytes} (hn : ts.length = M)
    (ht : ∀ t ∈ ts, WellFormed d t ∧ t.length = minTupleSize d) :
    ∃ pg, run ps d pg1 (ts.map (fun t => .append (some t))) =
        some (pg, List.replicate ts.length 1) ∧ Observe ps d pg (ts.map some) := by
  obtain ⟨p, ok, m, h1, -, -, -, h2⟩ := l.fit.init hl
  rw [hi] at h1; cases h1
  have R := (h2 rfl).1
  have hw : AllWF d (ts.map some) := by
    intro x hx
    simp only [List.mem_map] at hx
    obtain ⟨t, h3, rfl⟩ := hx
    intro u hu; cases hu
    exact (ht t h3).1
  have hmin : ∀ x ∈ ts.map some, ∃ t, x = some t ∧ t.length = d.size := by
    intro x hx
    simp only [List.mem_map] at hx
    obtain ⟨t, h3, rfl⟩ := hx
    exact ⟨t, rfl, (ht t h3).2⟩
  have hfit : FitsOn ps h d ([] ++ ts.map some) := by
    unfold FitsOn
    split <;> rename_i hv
    · rw [maxTupleCount_var l hv] at hM
      have hp := vsz_pos ps
      have h3 := (Nat.le_div_iff_mul_le (show 0 < d.size + vsz ps by omega)).mp
        (show ts.length ≤ (ps - wAddr ps h 4) / (d.size + vsz ps) by
          rw [hn]; simp at hM; omega)
      rw [usedSpace_var hv]
      simp only [List.nil_append]
      rw [liveSum_all hmin]
      simp only [List.length_map, areaStart, hv, if_true]
      rw [Nat.mul_add] at h3
      exact h3
    · rw [maxTupleCount_fix l (by simpa using hv)] at hM
      simp at hM ⊢; omega
  obtain ⟨pg, k1, k2, -⟩ := fill R R.packed_nil hw hfit
  refine ⟨pg, ?_, k2.observe⟩
  rw [List.map_map, List.length_map] at k1
  exact k1

/-- 128 byte page, 8 byte header, tuples of 2 to 100 bytes: 38 tuples of 2 bytes fit. -/
example : Api.maxTupleCount 8 128 exVar = some 38 ∧ Api.maxTupleCount 8 128 exFix = some 28 ∧
    WellFormed exVar [2, 0] ∧ ([2, 0] : Bytes).length = minTupleSize exVar := by
  refine ⟨by decide, by decide, by constructor <;> decide, by decide⟩

/-! ### C23 -/

/-- C23: on a page without slots, exactly the tuples that are not larger than
`get_maximum_tuple_size_accomodatable_on_page` can be appended. -/
theorem C23_largest (l : Legal ps h d) (hr : Reach ps h d pg []) :
    ∃ M, Api.maxTupleSizeOnPage h ps d = some M ∧
      ∀ t, WellFormed d t → ∃ pg', Api.append pg ps d (some t) =
        some (pg', decide (t.length ≤ M)) := by
  have R := hr.rep l.fit
  have h2 := l.ps_le
  have h3 := vsz_le ps
  have hp := vsz_pos ps
  cases hv : d.isVar with
  | true =>
    have h1 := l.fit.var hv
    have he : vsz ps + h + 4 * vsz ps = wAddr ps h 4 := rfl
    refine ⟨ps - wAddr ps h 4 - vsz ps, ?_, ?_⟩
    · simp only [Api.maxTupleSizeOnPage, Api.slotted, hv, if_true, Slotted.maxTupleSizeOnPage,
        Slotted.spaceToBeAllotted, Option.bind_eq_bind]
      rw [he, u32_eq (by omega), Option.bind_some, sub32_eq h1]
      have hov : Slotted.overhead ps = vsz ps := rfl
      simp only [Option.bind_some]
      by_cases hc : ps - wAddr ps h 4 > Slotted.overhead ps
      · rw [if_pos hc, sub32_eq (by omega), hov]
      · rw [if_neg hc]; simp; omega
    · intro t ht
      have ho : ExtOk d (some t) := by intro u hu; cases hu; exact ht
      obtain ⟨b, pg', k1, k2⟩ := C08_can_append l hr ho
      obtain ⟨c, m1, m2, -⟩ := R.append_packed R.packed_nil ho
      rw [m2] at k1; cases k1
      refine ⟨pg', ?_⟩
      rw [k2]
      have hpos := ht.pos hv
      have : b = decide (t.length ≤ ps - wAddr ps h 4 - vsz ps) := by
        rw [Bool.eq_iff_iff, m1, decide_eq_true_eq]
        simp only [FitsOn, hv, if_true, usedSpace_var hv, areaStart]
        simp
        omega
      rw [this]
  | false =>
    have h1 := (l.fit.fix hv).1
    have hh := l.h_le
    have he : vsz ps + h + vsz ps * 2 = wAddr ps h 2 := by simp [wAddr]; omega
    have hw : wAddr ps h 2 + 1 ≤ ps := by omega
    refine ⟨ps - wAddr ps h 2 - 1, ?_, ?_⟩
    · simp only [Api.maxTupleSizeOnPage, Api.slotted, hv, Bool.false_eq_true, if_false,
        Fixed.maxTupleSizeOnPage, Fixed.spacePlusBits, Option.bind_eq_bind]
      rw [he, u32_eq (by omega), Option.bind_some, sub32_eq h1, Option.bind_some,
        sub32_eq (by omega)]
    · intro t ht
      have ho : ExtOk d (some t) := by intro u hu; cases hu; exact ht
      obtain ⟨b, pg', k1, k2⟩ := C08_can_append l hr ho
      obtain ⟨c, m1, m2, -⟩ := R.append_packed R.packed_nil ho
      rw [m2] at k1; cases k1
      refine ⟨pg', ?_⟩
      rw [k2]
      have hsz : t.length = d.size := by
        have := ht.size
        simp [tupleSize, hv] at this
        omega
      have : b = decide (t.length ≤ ps - wAddr ps h 2 - 1) := by
        rw [Bool.eq_iff_iff, m1, decide_eq_true_eq]
        simp only [FitsOn, hv, Bool.false_eq_true, if_false, Fixed.cap]
        simp only [List.nil_append, List.length_cons, List.length_nil]
        rw [Nat.le_div_iff_mul_le (by omega)]
        omega
      rw [this]

example : Api.maxTupleSizeOnPage 8 128 exVar = some 114 ∧
    Api.maxTupleSizeOnPage 8 128 exFix = some 116 := by decide

/-! ### C24 -/

theorem need_mono {n n' w : Nat} (hn : n ≤ n') : need h d n w ≤ need h d n' w := by
  unfold need
  have h1 := Nat.mul_le_mul_right d.size hn
  have h2 := Nat.mul_le_mul_right w (show 4 + n ≤ 4 + n' by omega)
  have h3 : bitmapBytes n ≤ bitmapBytes n' := by unfold bitmapBytes; omega
  split <;> omega

theorem minPageSize_chain (n : Nat) : Api.minPageSize h d n = (do
      let m8 ← u32 (need h d n 1)
      if m8 ≤ 2 ^ 8 then pure m8
      else do
        let m16 ← u32 (need h d n 2)
        if m16 ≤ 2 ^ 16 then pure m16
        else do
          let m24 ← u32 (need h d n 3)
          if m24 ≤ 2 ^ 24 then pure m24 else u32 (need h d n 4)) := by
  unfold Api.minPageSize
  split <;> rename_i hv
  · have hv : d.isVar = true := hv
    simp only [Slotted.minPageSize, minTupleSize, need, hv, if_true]
  · have hv : d.isVar = false := by simpa [Api.slotted] using hv
    simp only [Fixed.minPageSize, need, hv, Bool.false_eq_true, if_false]

/-- If the computation for `n` tuples does not wrap, neither does that for fewer. -/
theorem minPageSize_le {n n' m : Nat} (hn : n' ≤ n) (hm : Api.minPageSize h d n = some m) :
    ∃ m', Api.minPageSize h d n' = some m' := by
  have a1 := need_mono (h := h) (d := d) (w := 1) hn
  have a2 := need_mono (h := h) (d := d) (w := 2) hn
  have a3 := need_mono (h := h) (d := d) (w := 3) hn
  have a4 := need_mono (h := h) (d := d) (w := 4) hn
  obtain ⟨hlt, hc⟩ := minPageSize_eq hm
  have s1 := need_succ h d n' 1
  have s2 := need_succ h d n' 2
  have s3 := need_succ h d n' 3
  simp only [Nat.reduceAdd] at s1 s2 s3
  rw [minPageSize_chain]
  have b1 : need h d n 1 < 4294967296 := by
    have s1 := need_succ h d n 1
    have s2 := need_succ h d n 2
    have s3 := need_succ h d n 3
    simp only [Nat.reduceAdd] at s1 s2 s3
    omega
  simp only [Option.bind_eq_bind]
  rw [u32_eq (by omega), Option.bind_some]
  split
  · exact ⟨_, rfl⟩
  rw [u32_eq (by
    have s2 := need_succ h d n 2
    have s3 := need_succ h d n 3
    simp only [Nat.reduceAdd] at s2 s3
    omega), Option.bind_some]
  split
  · exact ⟨_, rfl⟩
  rw [u32_eq (by
    have s3 := need_succ h d n 3
    simp only [Nat.reduceAdd] at s3
    omega), Option.bind_some]
  split
  · exact ⟨_, rfl⟩
  exact ⟨_, u32_eq (by omega)⟩

theorem fit_of_minPageSize {n m : Nat} (hn : 1 ≤ n) (hsz : 1 ≤ d.size)
    (hm : Api.minPageSize h d n = some m) : Fit m h d := by
  obtain ⟨h1, h2, h3⟩ := minPageSize_need hm
  refine ⟨h1, ?_, ?_, minPageSize_le hn hm⟩
  · intro hv
    simp only [need, hv, if_true] at h2
    have h4 := Nat.mul_le_mul_right (vsz m) (show 4 ≤ 4 + n by omega)
    simp only [wAddr]
    omega
  · intro hv
    simp only [need, hv, Bool.false_eq_true, if_false] at h2
    refine ⟨?_, hsz⟩
    simp only [wAddr]
    omega

/-- C24: a page of exactly the minimum size can be initialised, and `n` tuples of minimum size
can be appended to it. -/
theorem C24_sufficient {n m : Nat} (hn : 1 ≤ n) (hsz : 1 ≤ d.size)
    (hm : Api.minPageSize h d n = some m) {pg0 : Bytes} (hl : pg0.length = m)
    {ts : List Bytes} (hts : ts.length = n)
    (ht : ∀ t ∈ ts, WellFormed d t ∧ t.length = minTupleSize d) :
    ∃ pg1 pg, Api.initPage pg0 m h d = some (pg1, true) ∧
      run m d pg1 (ts.map (fun t => .append (some t))) = some (pg, List.replicate n 1) ∧
      Observe m d pg (ts.map some) := by
  have f := fit_of_minPageSize hn hsz hm
  obtain ⟨-, h2, -⟩ := minPageSize_need hm
  obtain ⟨p, ok, m1, k1, k2, k3, -, k4⟩ := f.init hl
  obtain ⟨-, -, g3⟩ := minPageSize_need k2
  have hok : ok = true := by
    rw [k3]
    apply g3
    have := need_mono (h := h) (d := d) (w := vsz m) hn
    omega
  subst hok
  have R := (k4 rfl).1
  have hw : AllWF d (ts.map some) := by
    intro x hx
    simp only [List.mem_map] at hx
    obtain ⟨t, h3, rfl⟩ := hx
    intro u hu; cases hu
    exact (ht t h3).1
  have hmin : ∀ x ∈ ts.map some, ∃ t, x = some t ∧ t.length = d.size := by
    intro x hx
    simp only [List.mem_map] at hx
    obtain ⟨t, h3, rfl⟩ := hx
    exact ⟨t, rfl, (ht t h3).2⟩
  have hfit := fitsOn_of_need (ps := m) (h := h) (d := d) (n := n) (by omega)
    (ts := ts.map some) (by simpa using hts) hmin
  obtain ⟨pg, q1, q2, -⟩ := fill R R.packed_nil hw (by simpa using hfit)
  refine ⟨p, pg, k1, ?_, q2.observe⟩
  rw [List.map_map, List.length_map, hts] at q1
  exact q1

/-- C24: no history on a smaller page (whatever its size, inside the documented limits or not)
ends with `n` tuples on the page. -/
theorem C24_necessary {n m : Nat} (hps : ps < 4294967296) (hsz : 1 ≤ d.size)
    (hm : Api.minPageSize h d n = some m) (hr : Reach ps h d pg s)
    (hlive : n ≤ s.length - tombs s) : m ≤ ps := by
  have f : Fit ps h d := by
    obtain ⟨pg0, pg1, ops, rs, a1, a2, -⟩ := hr
    exact fit_of_init a1 hps hsz a2
  exact (minPageSize_need hm).2.2 ps ((hr.rep f).need_le hlive)

/-- Minimum page sizes on both sides of the change of width at 256. -/
example : Api.minPageSize 8 exVar 10 = some 43 ∧ Api.minPageSize 8 exVar 81 = some 256 ∧
    Api.minPageSize 8 exVar 82 = some 346 ∧ Api.minPageSize 8 exFix 2 = some 20 := by decide
example : ∃ pg, Reach 128 8 exVar pg exVarSlots ∧ 2 ≤ exVarSlots.length - tombs exVarSlots ∧
    Api.minPageSize 8 exVar 2 = some 19 := by
  obtain ⟨pg, hp⟩ := exVar_reach
  exact ⟨pg, hp, by decide, by decide⟩

/-! ### C25 -/

/-- C25. `init_page` returns 1 exactly if the page has the minimum size for one tuple, and leaves the
page alone otherwise. -/
theorem C25_init_iff (l : Legal ps h d) {pg0 : Bytes} (hl : pg0.length = ps) :
    ∃ pg ok m, Api.initPage pg0 ps h d = some (pg, ok) ∧ Api.minPageSize h d 1 = some m ∧ (ok = true ↔ m ≤ ps) ∧
      (ok = false → pg = pg0) := by
  obtain ⟨pg, ok, m, h1, h2, h3, h4, -⟩ := l.fit.init hl
  exact ⟨pg, ok, m, h1, h2, h3, h4⟩

/-- A page size at which a page of the minimum size has narrower on-page values: at most `g` bytes above
256, 65536 or 16777216. -/
def JustAbove (g ps : Nat) : Prop :=
  (256 < ps ∧ ps ≤ 256 + g) ∨ (65536 < ps ∧ ps ≤ 65536 + g) ∨ (16777216 < ps ∧ ps ≤ 16777216 + g)

/-- C25. If `init_page` returns 1 (for any header and page size and any definition, inside the
documented limits or not), then all page metadata lies inside the page, in that every query on the
new page is defined; and every tuple of minimum size can be appended, unless the page size is at
most 5 bytes (slotted pages) or 2 bytes (fixed array pages) above 256, 65536 or 16777216. -/
theorem C25_fits {pg0 : Bytes} (hps : ps < 4294967296) (hsz : 1 ≤ d.size)
    (hl : pg0.length = ps) (hi : Api.initPage pg0 ps h d = some (pg, true)) :
    (∃ a f, Api.spaceAllotted pg ps d = some a ∧ Api.freeSpace pg ps d = some f ∧ f = a ∧ a ≤ ps ∧
      Api.headerSize pg ps = some h ∧ Api.readHeader pg ps = some (List.replicate h 0) ∧
      Api.tupleCount pg ps d = some 0) ∧
    (¬ JustAbove (if d.isVar then 5 else 2) ps → ∀ t, WellFormed d t →
      t.length = minTupleSize d → ∃ pg', Api.append pg ps d (some t) = some (pg', true)) := by
  have f := fit_of_init hl hps hsz hi
  obtain ⟨p, ok, m1, k1, k2, k3, -, k4⟩ := f.init hl
  rw [hi] at k1; cases k1
  have R := (k4 rfl).1
  refine ⟨⟨_, _, R.spaceAllotted, R.freeSpace, ?_, by omega, R.headerSize, ?_, R.tupleCount⟩, ?_⟩
  · have hp := R.packed_nil
    unfold freeBytes areaStart
    split <;> rename_i hv
    · simp [Slotted.free, hp hv]
    · simp
  · rw [R.readHeader, (k4 rfl).2]
  · intro hw t ht htl
    have ho : ExtOk d (some t) := by intro u hu; cases hu; exact ht
    have hmp := k3.mp rfl
    have hneed : need h d 1 (vsz ps) ≤ ps := by
      obtain ⟨-, hc⟩ := minPageSize_eq k2
      unfold JustAbove at hw
      have key : (ps ≤ 256 ∧ vsz ps = 1) ∨ (256 < ps ∧ ps ≤ 65536 ∧ vsz ps = 2) ∨
          (65536 < ps ∧ ps ≤ 16777216 ∧ vsz ps = 3) ∨ (16777216 < ps ∧ vsz ps = 4) := by
        by_cases c1 : ps ≤ 256
        · exact Or.inl ⟨c1, vsz_eq_one c1⟩
        by_cases c2 : ps ≤ 65536
        · exact Or.inr (Or.inl ⟨by omega, c2, vsz_eq_two (by omega) c2⟩)
        by_cases c3 : ps ≤ 16777216
        · exact Or.inr (Or.inr (Or.inl ⟨by omega, c3, vsz_eq_three (by omega) c3⟩))
        · exact Or.inr (Or.inr (Or.inr ⟨by omega, vsz_eq_four (by omega)⟩))
      unfold need at *
      cases hv : d.isVar with
      | true =>
        simp only [hv, if_true] at hc hw ⊢
        rcases key with ⟨c1, c2⟩ | ⟨c1, c3, c2⟩ | ⟨c1, c3, c2⟩ | ⟨c1, c2⟩ <;> rw [c2] <;> omega
      | false =>
        simp only [hv, Bool.false_eq_true, if_false] at hc hw ⊢
        rcases key with ⟨c1, c2⟩ | ⟨c1, c3, c2⟩ | ⟨c1, c3, c2⟩ | ⟨c1, c2⟩ <;> rw [c2] <;> omega
    have hfit := fitsOn_of_need (ps := ps) (h := h) (d := d) (n := 1) hneed
      (ts := [some t]) rfl (by simpa [minTupleSize] using htl)
    obtain ⟨b, m1, m2, m3⟩ := R.append_packed R.packed_nil ho
    obtain ⟨pg', q1, -, -⟩ := m3 (m1.mpr hfit)
    exact ⟨pg', q1⟩

example : ¬ JustAbove 5 128 ∧ ¬ JustAbove 5 262 ∧ (Api.initPage (List.replicate 128 7) 128 8 exVar).map Prod.snd = some true ∧
    (Api.initPage (List.replicate 12 7) 12 8 exVar).map Prod.snd = some false := by
  unfold JustAbove
  exact ⟨by omega, by omega, by decide +kernel, by decide +kernel⟩

/-- A slotted page of 257 bytes with a header of 100 bytes, tuples of at least 150 bytes. -/
def exGapVar : SizeDef := ⟨true, 150, 200, true, false, false, false, 0⟩
/-- A fixed array page of 257 bytes with a header of 100 bytes, tuples of 152 bytes. -/
def exGapFix : SizeDef := ⟨false, 152, 152, false, false, false, false, 0⟩

def exGapTuple : Bytes := 150 :: List.replicate 149 0

/-- C25. The exception is needed: inside the documented limits there are pages on which
`init_page` returns 1 although no tuple of minimum size fits. `init_slotted_page` compares the
page size with the minimum page size, but a page larger than the minimum page size can need a
byte more per on-page value. (The windows are exact: 5 and 2 cannot be replaced by less,
`C25_window_tight`.) -/
theorem C25_false : ¬ ∀ (ps h : Nat) (d : SizeDef) (pg0 pg t : Bytes), Legal ps h d →
    pg0.length = ps → Api.initPage pg0 ps h d = some (pg, true) → WellFormed d t →
    t.length = minTupleSize d → ∃ pg', Api.append pg ps d (some t) = some (pg', true) := by
  intro hall
  have hl : Legal 257 100 exGapVar := by constructor <;> decide
  have hw : WellFormed exGapVar exGapTuple := by constructor <;> decide +kernel
  have hlen : exGapTuple.length = 150 := by decide +kernel
  have hlen0 : (List.replicate 257 (0 : UInt8)).length = 257 := List.length_replicate
  have hi : (Api.initPage (List.replicate 257 0) 257 100 exGapVar).map
      (fun (x : Bytes × Bool) => x.2) = some true := by decide +kernel
  cases hp : Api.initPage (List.replicate 257 0) 257 100 exGapVar with
  | none => rw [hp] at hi; cases hi
  | some x =>
    obtain ⟨p, ok⟩ := x
    rw [hp] at hi; simp at hi; subst hi
    have hr : Reach 257 100 exGapVar p [] :=
      ⟨List.replicate 257 0, p, [], [], hlen0, hp, by simp, rfl, .nil _⟩
    obtain ⟨pg', h1⟩ := hall 257 100 exGapVar _ p exGapTuple hl hlen0 hp hw hlen
    obtain ⟨M, h2, h3⟩ := C23_largest hl hr
    obtain ⟨q, h4⟩ := h3 exGapTuple hw
    rw [h1, hlen] at h4
    have hM : Api.maxTupleSizeOnPage 100 257 exGapVar = some 145 := by decide
    rw [h2] at hM
    cases hM
    simp at h4

/-- The same for fixed array pages: the page has room for no tuple at all. -/
theorem C25_false_fixed : Legal 257 100 exGapFix ∧
    (Api.initPage (List.replicate 257 0) 257 100 exGapFix).map (fun (x : Bytes × Bool) => x.2) =
      some true ∧
    Api.maxTupleCount 100 257 exGapFix = some 0 := by
  refine ⟨by constructor <;> decide, by decide +kernel, by decide⟩

/-- C25. The windows are exact: 5 bytes above 256 on a slotted page, and 2 bytes above it on a fixed
array page, no tuple fits, though `init_page` returns 1. -/
theorem C25_window_tight : Legal 261 100 exGapVar ∧ Legal 258 100 exGapFix ∧
    (Api.initPage (List.replicate 261 0) 261 100 exGapVar).map (fun (x : Bytes × Bool) => x.2) = some true ∧
    Api.maxTupleCount 100 261 exGapVar = some 0 ∧
    (Api.initPage (List.replicate 258 0) 258 100 exGapFix).map (fun (x : Bytes × Bool) => x.2) = some true ∧
    Api.maxTupleCount 100 258 exGapFix = some 0 := by
  refine ⟨by constructor <;> decide, by constructor <;> decide, by decide +kernel, by decide, by decide +kernel, by decide⟩

/-! ### C50 -/

/-- C50 (the part about the page): an in-place element update on a reachable page, with any
element setter that keeps tuples well formed and not larger, changes only the addressed tuple,
to what the setter makes of it, and keeps the space figures exact. If there is no tuple at the
index it returns 0 and changes no byte. The setter itself is the subject of C34-C37. -/
theorem C50_in_place (l : Legal ps h d) (hr : Reach ps h d pg s) (i : Nat) {e : Api.Edit}
    (he : EditOk d e) :
    (∀ t, lookup s i = some t → ∃ pg' b t', Api.setInPlace pg ps d i e = some (pg', b) ∧
      EditEffect d e t b.toNat t' ∧ Observe ps d pg' (s.set i (some t')) ∧
      Reach ps h d pg' (s.set i (some t')) ∧
      Api.spaceOcc pg' ps d = some (usedSpace ps d (s.set i (some t'))) ∧
      (∀ j, j ≠ i → Api.readNth pg' ps d j = Api.readNth pg ps d j) ∧
      Api.readHeader pg' ps = Api.readHeader pg ps) ∧
    (lookup s i = none → Api.setInPlace pg ps d i e = some (pg, false)) := by
  have R := hr.rep l.fit
  refine ⟨?_, ?_⟩
  · intro t ht
    rcases R.setInPlace i he with ⟨t0, pg', b, t', h1, h2, h3, h4, h5⟩ | ⟨h1, -⟩
    · have : t0 = t := by
        have := lookup_eq_some.mp ht
        rw [h1] at this; simpa using this
      subst this
      refine ⟨pg', b, t', h2, h3, h4.observe, ?_, h4.spaceOcc, ?_, ?_⟩
      · obtain ⟨p, n, s', g1, g2, g3⟩ := reach_step l hr (op := .setElem i e) he
        simp [step, h2] at g1
        obtain ⟨rfl, rfl⟩ := g1
        have : s' = s.set i (some t') :=
          SpecStep.det g2 (Or.inr ⟨t0, t', ht, h3, rfl⟩)
        rw [← this]; exact g3
      · intro j hj
        rw [h4.readNth, R.readNth]
        simp only [lookup]
        rw [List.getElem?_set_ne (by omega)]
      · rw [h4.readHeader, R.readHeader, h5]
    · exact absurd (lookup_eq_some.mp ht) (h1 t)
  · intro hn
    rcases R.setInPlace i he with ⟨t0, pg', b, t', h1, -⟩ | ⟨-, h2⟩
    · rw [lookup_some h1] at hn; cases hn
    · exact h2

/-- A setter of the kind allowed by the hypothesis: it overwrites the second byte of a tuple. -/
def exEdit : Api.Edit :=
  ⟨fun _ => some true, fun t => some (t.set 1 42, true)⟩

example : EditOk exFix exEdit := by
  intro t ht
  refine ⟨⟨true, rfl⟩, t.set 1 42, true, t.length, rfl, by simp, by omega, ?_, by simp⟩
  have h1 := ht.size
  have h2 := ht.min
  have h3 := ht.lt
  rw [List.take_of_length_le (by simp)]
  refine ⟨?_, by simpa using h2, by simpa using h3⟩
  simp [tupleSize, exFix] at h1 ⊢
  exact h1

end Props
end TS
