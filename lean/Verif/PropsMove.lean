import Verif.PageMove
/-
Property theorems C88: moving tuples between pages. Splitting and merging pages is decided by the
space figures of the pages, before any tuple is moved.
-/
namespace TS
namespace Props

variable {ps h : Nat} {d : SizeDef} {pg qg : Bytes} {s q : Slots}

/-- The slots `a` to `b` of a page. -/
private theorem range_facts (l : Legal ps h d) (hP : Reach ps h d pg s) {a b : Nat} (hab : a ≤ b)
    (hb : b < s.length) :
    AllWF d ((s.drop a).take (b - a + 1)) ∧ ((s.drop a).take (b - a + 1)).length = b - a + 1 ∧
    Api.spaceOccBy pg ps d a b = some (usedSpace ps d ((s.drop a).take (b - a + 1))) := by
  have r := hP.rep l.fit
  refine ⟨r.wf.sub (fun x hx => List.mem_of_mem_drop (List.mem_of_mem_take hx)), by simp; omega, ?_⟩
  rw [r.spaceOccBy, if_pos ⟨hab, hb⟩]

/-- C88, slotted pages: the slots `a` to `b` of one page can all be appended to another page exactly
if the space they occupy (`get_space_occupied_by_tuples`) is at most the free space of the other
page (`get_free_space`), whatever the fragmentation of either page. -/
theorem C88_slotted (l : Legal ps h d) (hv : d.isVar = true) (hP : Reach ps h d pg s)
    (hQ : Reach ps h d qg q) {a b : Nat} (hab : a ≤ b) (hb : b < s.length) :
    ∃ x f qg' rs, Api.spaceOccBy pg ps d a b = some x ∧ Api.freeSpace qg ps d = some f ∧
      run ps d qg (((s.drop a).take (b - a + 1)).map Op.append) = some (qg', rs) ∧
      (rs = List.replicate (b - a + 1) 1 ↔ x ≤ f) ∧
      (x ≤ f → Reach ps h d qg' (q ++ (s.drop a).take (b - a + 1)) ∧
        Observe ps d qg' (q ++ (s.drop a).take (b - a + 1))) := by
  obtain ⟨k1, k2, k3⟩ := range_facts l hP hab hb
  obtain ⟨qg', rs, h1, -, h2, h3⟩ := append_all l hQ k1
  rw [k2] at h2 h3
  have h2 : rs = List.replicate (b - a + 1) 1 ↔
      usedSpace ps d ((s.drop a).take (b - a + 1)) ≤ freeBytes ps h d qg q := by
    simpa [Room, hv] using h2
  exact ⟨_, _, qg', rs, k3, (hQ.rep l.fit).freeSpace, h1, h2,
    fun hx => ⟨h3 (h2.mpr hx), C03_C04_observe l (h3 (h2.mpr hx))⟩⟩

/-- C88, merging slotted pages: if the receiving page is compacted first, all of the slots `a` to
`b` are accepted exactly if what they occupy and what the receiving page has occupied together are
at most the space allotted to the tuples of a page. -/
theorem C88_compacted (l : Legal ps h d) (hv : d.isVar = true) (hP : Reach ps h d pg s)
    (hQ : Reach ps h d qg q) {a b : Nat} (hab : a ≤ b) (hb : b < s.length) :
    ∃ x o t qc c qg' rs, Api.spaceOccBy pg ps d a b = some x ∧ Api.spaceOcc qg ps d = some o ∧
      Api.spaceAllotted qg ps d = some t ∧ Api.compact qg ps d true = some (qc, c) ∧
      run ps d qc (((s.drop a).take (b - a + 1)).map Op.append) = some (qg', rs) ∧
      (rs = List.replicate (b - a + 1) 1 ↔ o + x ≤ t) ∧
      (o + x ≤ t → Reach ps h d qg' (q ++ (s.drop a).take (b - a + 1)) ∧
        Observe ps d qg' (q ++ (s.drop a).take (b - a + 1))) := by
  have R := hQ.rep l.fit
  obtain ⟨qc, c, c1, c2, -, -, -, ⟨t, o, f, e1, e2, e3, e4⟩, -⟩ := C14_compaction l hv hQ
  have R' := c2.rep l.fit
  have e1' : t = ps - areaStart ps h d := by
    have := R'.spaceAllotted; rw [e1] at this; exact Option.some.inj this
  have e2' : o = usedSpace ps d q := by
    have := R'.spaceOcc; rw [e2] at this; exact Option.some.inj this
  obtain ⟨x, f', qg', rs, h1, h2, h3, h4, h5⟩ := C88_slotted l hv hP c2 hab hb
  rw [e3] at h2; cases h2
  have he : x ≤ f ↔ o + x ≤ t := by omega
  rw [he] at h4 h5
  exact ⟨x, o, t, qc, c, qg', rs, h1, by rw [R.spaceOcc, e2'], by rw [R.spaceAllotted, e1'], c1, h3,
    h4, h5⟩

/-- C88, fixed array pages: the slots `a` to `b` of one page can all be appended to another page
exactly if the count of the receiving page with them is at most the maximum tuple count. -/
theorem C88_fixed (l : Legal ps h d) (hv : d.isVar = false) (hP : Reach ps h d pg s)
    (hQ : Reach ps h d qg q) {a b : Nat} (hab : a ≤ b) (hb : b < s.length) :
    ∃ n M qg' rs, Api.tupleCount qg ps d = some n ∧ Api.maxTupleCount h ps d = some M ∧
      run ps d qg (((s.drop a).take (b - a + 1)).map Op.append) = some (qg', rs) ∧
      (rs = List.replicate (b - a + 1) 1 ↔ n + (b - a + 1) ≤ M) ∧
      (n + (b - a + 1) ≤ M → Reach ps h d qg' (q ++ (s.drop a).take (b - a + 1)) ∧
        Observe ps d qg' (q ++ (s.drop a).take (b - a + 1))) := by
  obtain ⟨k1, k2, k3⟩ := range_facts l hP hab hb
  obtain ⟨qg', rs, h1, -, h2, h3⟩ := append_all l hQ k1
  rw [k2] at h2 h3
  have h2 : rs = List.replicate (b - a + 1) 1 ↔ q.length + (b - a + 1) ≤ Fixed.cap ps h d := by
    simp only [Room, hv, Bool.false_eq_true, if_false, k2] at h2; exact h2
  exact ⟨_, _, qg', rs, (hQ.rep l.fit).tupleCount, maxTupleCount_fix l hv, h1, h2,
    fun hx => ⟨h3 (h2.mpr hx), C03_C04_observe l (h3 (h2.mpr hx))⟩⟩

/-- C88, the free space figure of a fixed array page: it is necessary for the move that what the
slots occupy is at most the free space. It is not sufficient, but the figures then promise only one
tuple too many, and only for a maximum tuple count that is a multiple of 8. -/
theorem C88_fixed_free (l : Legal ps h d) (hv : d.isVar = false) (hP : Reach ps h d pg s)
    (hQ : Reach ps h d qg q) {a b : Nat} (hab : a ≤ b) (hb : b < s.length) :
    ∃ x f M qg' rs, Api.spaceOccBy pg ps d a b = some x ∧ Api.freeSpace qg ps d = some f ∧
      Api.maxTupleCount h ps d = some M ∧
      run ps d qg (((s.drop a).take (b - a + 1)).map Op.append) = some (qg', rs) ∧
      (rs = List.replicate (b - a + 1) 1 → x ≤ f) ∧
      (x ≤ f → rs ≠ List.replicate (b - a + 1) 1 → q.length + (b - a + 1) = M + 1 ∧ M % 8 = 0) := by
  obtain ⟨k1, k2, k3⟩ := range_facts l hP hab hb
  obtain ⟨n, M, qg', rs, h1, h2, h3, h4, -⟩ := C88_fixed l hv hP hQ hab hb
  have R := hQ.rep l.fit
  rw [maxTupleCount_fix l hv] at h2; cases h2
  rw [R.tupleCount] at h1; cases h1
  have hfit := (l.fit.fix hv).1
  have hcap := Fixed.tAddr_cap (d := d) hfit
  have hle : Fixed.tAddr ps h d q.length ≤ ps := by
    rcases R with r | ⟨r, -⟩
    · simp [r.var] at hv
    · exact r.tAddr_le
  have hadd := Fixed.tAddr_add (ps := ps) (h := h) (d := d) q.length (b - a + 1)
  have hx : usedSpace ps d ((s.drop a).take (b - a + 1)) = (b - a + 1) * d.size := by
    rw [usedSpace_fix hv, k2]
  have hf : freeBytes ps h d qg q = ps - Fixed.tAddr ps h d q.length := by simp [freeBytes, hv]
  refine ⟨_, _, _, qg', rs, k3, R.freeSpace, maxTupleCount_fix l hv, h3, ?_, ?_⟩
  · intro hrs
    have hm := Fixed.tAddr_mono (ps := ps) (h := h) (d := d) (h4.mp hrs)
    rw [hx, hf]; omega
  · intro hxf hrs
    have hgt : Fixed.cap ps h d < q.length + (b - a + 1) := by
      rcases Nat.lt_or_ge (Fixed.cap ps h d) (q.length + (b - a + 1)) with h | h
      · exact h
      · exact absurd (h4.mpr h) hrs
    rw [hx, hf] at hxf
    obtain ⟨j, hj⟩ := Nat.exists_eq_add_of_lt hgt
    have hk : Fixed.tAddr ps h d (q.length + (b - a + 1)) ≤ ps := by omega
    rw [hj] at hk ⊢
    have hlt : (ps - wAddr ps h 2) * 8 < (Fixed.cap ps h d + 1) * (d.size * 8 + 1) := by
      have := Nat.lt_div_mul_add (a := (ps - wAddr ps h 2) * 8) (b := d.size * 8 + 1) (by omega)
      rw [Nat.add_mul, Nat.one_mul]; exact this
    have hpos := l.size_ge
    have e1 : (Fixed.cap ps h d + 1) * (d.size * 8 + 1) =
        8 * (Fixed.cap ps h d * d.size) + Fixed.cap ps h d + 8 * d.size + 1 := by
      rw [Nat.add_mul, Nat.mul_add, Nat.mul_one, Nat.mul_comm d.size 8, Nat.mul_left_comm]; omega
    have e2 : (Fixed.cap ps h d + j + 1) * d.size =
        Fixed.cap ps h d * d.size + j * d.size + d.size := by
      rw [Nat.add_mul, Nat.add_mul, Nat.one_mul]
    have e3 : j ≤ j * d.size := Nat.le_mul_of_pos_right _ hpos
    unfold Fixed.tAddr bitmapBytes at hk
    rw [e2] at hk
    omega

/-! ### Splitting a page -/

theorem usedSpace_sub {a b : Slots} (hs : a.Sublist b) : usedSpace ps d a ≤ usedSpace ps d b := by
  induction hs with
  | slnil => exact Nat.le_refl _
  | cons x _ ih => rw [usedSpace_cons]; omega
  | cons_cons x _ ih => rw [usedSpace_cons, usedSpace_cons]; omega

theorem usedSpace_perm {a b : Slots} (hp : a.Perm b) : usedSpace ps d a = usedSpace ps d b :=
  (hp.map _).sum_nat

/-- C88, splitting a page: the slots of a reachable page, or any of them, in any order, can all be
appended to a freshly initialised page of the same size, which is then not fragmented. -/
theorem C88_rebuild (l : Legal ps h d) (hr : Reach ps h d pg s) {es t : Slots} (hp : es.Perm t)
    (hs : t.Sublist s) {pg0 pg1 : Bytes} (hl : pg0.length = ps)
    (hi : Api.initPage pg0 ps h d = some (pg1, true)) :
    ∃ pg', run ps d pg1 (es.map Op.append) = some (pg', List.replicate es.length 1) ∧
      Reach ps h d pg' es ∧ Observe ps d pg' es ∧ Api.fragmentation pg' ps d = some 0 := by
  have R := hr.rep l.fit
  obtain ⟨p, ok, m, h1, -, -, -, h2⟩ := l.fit.init hl
  rw [hi] at h1; cases h1
  have R1 := (h2 rfl).1
  have hw : AllWF d es := R.wf.sub (fun x hx => hs.subset (hp.subset hx))
  have hf : FitsOn ps h d ([] ++ es) := by
    have e1 := R.conserve.1
    have e2 := usedSpace_sub (ps := ps) (d := d) hs
    have e3 := usedSpace_perm (ps := ps) (d := d) hp
    have e4 := hs.length_le
    have e5 := hp.length_eq
    unfold FitsOn
    rcases R with r | ⟨r, -⟩
    · simp [r.var]; omega
    · have := r.le
      simp [r.fixed]; omega
  obtain ⟨pg', k1, k2, k3⟩ := fill R1 R1.packed_nil hw hf
  rw [List.nil_append] at k2 k3
  have hreach : Reach ps h d pg' es := by
    obtain ⟨pg'', rs, m1, -, -, m2⟩ := append_all l (es := es) (s := [])
      ⟨pg0, pg1, [], [], hl, hi, by simp, rfl, .nil _⟩ hw
    rw [k1] at m1; cases m1
    simpa using m2 rfl
  refine ⟨pg', k1, hreach, k2.observe, ?_⟩
  rw [k2.fragmentation]
  congr 1
  have e5 := k2.conserve
  rcases k2 with r | ⟨r, -⟩
  · have e1 := r.sum_le
    have e2 := r.eofs_le
    have e3 := r.space
    have e4 := wAddr_add ps h 4 es.length
    have e6 := k3 r.var
    simp only [usedSpace_var r.var, freeBytes, areaStart, r.var, if_true, Slotted.free]
    omega
  · have := e5.2 r.fixed; omega

/-- C88: in particular a page can be split anywhere. Both parts go onto fresh pages. -/
theorem C88_split (l : Legal ps h d) (hr : Reach ps h d pg s) (k : Nat) {a0 a1 b0 b1 : Bytes}
    (ha : a0.length = ps) (hb : b0.length = ps) (hia : Api.initPage a0 ps h d = some (a1, true))
    (hib : Api.initPage b0 ps h d = some (b1, true)) :
    ∃ a2 b2, run ps d a1 ((s.take k).map Op.append) =
        some (a2, List.replicate (s.take k).length 1) ∧
      run ps d b1 ((s.drop k).map Op.append) = some (b2, List.replicate (s.drop k).length 1) ∧
      Observe ps d a2 (s.take k) ∧ Observe ps d b2 (s.drop k) := by
  obtain ⟨a2, h1, -, h2, -⟩ := C88_rebuild l hr (.refl _) (List.take_sublist k s) ha hia
  obtain ⟨b2, h3, -, h4, -⟩ := C88_rebuild l hr (.refl _) (List.drop_sublist k s) hb hib
  exact ⟨a2, b2, h1, h3, h2, h4⟩

/-! ### Examples -/

example : ∃ pg, Legal 128 8 exVar ∧ Reach 128 8 exVar pg exVarSlots ∧ 1 < exVarSlots.length ∧
    exVarSlots.reverse.Perm exVarSlots ∧ (exVarSlots.drop 1).Sublist exVarSlots := by
  obtain ⟨pg, hp⟩ := exVar_reach
  exact ⟨pg, exVar_legal, hp, by decide, List.reverse_perm _, List.drop_sublist _ _⟩

example : ∃ pg, Legal 128 8 exFix ∧ Reach 128 8 exFix pg exFixSlots ∧ 1 < exFixSlots.length := by
  obtain ⟨pg, hp⟩ := exFix_reach
  exact ⟨pg, exFix_legal, hp, by decide⟩

/-- Tuples of one byte. -/
def exByte : SizeDef := ⟨false, 1, 1, false, false, false, false, 0⟩

/-- C88: the free space figure really is not sufficient. A page of 128 bytes with a header of 88
bytes, filled with 32 tuples of one byte, has one byte of free space, a tuple needs one byte, and
the append is refused. -/
theorem C88_fixed_free_short : ∃ pg s, Legal 128 88 exByte ∧ Reach 128 88 exByte pg s ∧
    Api.freeSpace pg 128 exByte = some 1 ∧ Api.spaceFor 128 exByte (some [7]) = some 1 ∧
    Api.append pg 128 exByte (some [7]) = some (pg, false) := by
  have l : Legal 128 88 exByte := by constructor <;> decide
  have hw : AllWF exByte (List.replicate 32 (some [5])) := by
    intro x hx
    obtain ⟨-, rfl⟩ := List.mem_replicate.mp hx
    intro t ht; cases ht; constructor <;> decide
  obtain ⟨p, ok, m, h1, -, h0, -, -⟩ := l.fit.init (pg0 := List.replicate 128 7) (by simp)
  have hok : (Api.initPage (List.replicate 128 7) 128 88 exByte).map (·.2) = some true := by
    decide +kernel
  rw [h1] at hok
  cases ok with
  | false => cases hok
  | true =>
    have hr : Reach 128 88 exByte p [] :=
      ⟨List.replicate 128 7, p, [], [], by simp, h1, by simp, rfl, .nil _⟩
    obtain ⟨pg, rs, m1, -, m2, m3⟩ := append_all l hr hw
    have R := m3 (m2.mpr (by unfold Room; rw [if_neg (by decide)]; decide))
    have rep := R.rep l.fit
    refine ⟨pg, _, l, R, ?_, by decide, ?_⟩
    · rw [rep.freeSpace]; unfold freeBytes; rw [if_neg (by decide)]; decide
    · have he : ExtOk exByte (some [7]) := by intro t ht; cases ht; constructor <;> decide
      obtain ⟨pg', b, k1, k2, -, k4⟩ := rep.append_room he
      cases b with
      | false => rw [k1, k4 rfl]
      | true =>
        have := k2.mp rfl
        unfold Room at this
        rw [if_neg (by decide)] at this
        exact absurd this (by decide)

end Props
end TS
