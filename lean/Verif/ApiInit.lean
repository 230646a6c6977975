import Verif.ApiSpace
/-
`init_page` on arbitrary page and header sizes, page filling, minimum page sizes.
-/
namespace TS

variable {ps h : Nat} {d : SizeDef} {pg : Bytes} {s : Slots}

theorem u32_some {x y : Nat} (hx : u32 x = some y) : y = x ∧ x < 4294967296 := by
  unfold u32 at hx
  split at hx
  · cases hx; exact ⟨rfl, ‹_›⟩
  · cases hx

theorem sub32_some {a b y : Nat} (hx : sub32 a b = some y) : y = a - b ∧ b ≤ a := by
  unfold sub32 at hx
  split at hx
  · cases hx; exact ⟨rfl, ‹_›⟩
  · cases hx

theorem store_some {m m' : Bytes} {o : Nat} {b : Bytes} (hx : store m o b = some m') :
    m' = wr m o b ∧ o + b.length ≤ m.length := by
  unfold store at hx
  split at hx
  · cases hx; exact ⟨rfl, ‹_›⟩
  · cases hx

theorem storeVal_some {m m' : Bytes} {o v : Nat} (hx : storeVal m ps o v = some m') :
    m' = wr m o (leEnc (vsz ps) v) ∧ o + vsz ps ≤ m.length := by
  have := store_some hx
  simpa using this

theorem initPageHeader_some {pg0 p : Bytes} (hl : pg0.length = ps) (hlt : ps < 4294967296)
    (hi : initPageHeader pg0 ps h = some (p, true)) : Base ps h 0 p := by
  have hfit : wAddr ps h 0 ≤ ps := by
    simp only [initPageHeader, Option.bind_eq_bind] at hi
    cases hu : u32 (vsz ps + h) with
    | none => rw [hu] at hi; cases hi
    | some n =>
      rw [hu] at hi
      have := u32_some hu
      simp only [Option.bind_some] at hi
      split at hi
      · cases hi
      · simp [wAddr]; omega
  obtain ⟨p1, h1, h2, -⟩ := Fixed.initPageHeader_spec (K := 0) hl hlt hfit
  rw [hi] at h1; cases h1; exact h2

/-- If `init_page` runs to completion without a fault, the metadata of the page is inside it. -/
theorem slotted_init_fits {pg0 p : Bytes} (hl : pg0.length = ps) (hlt : ps < 4294967296)
    (hi : Slotted.init pg0 ps h d = some (p, true)) : wAddr ps h 4 ≤ ps := by
  simp only [Slotted.init, Option.bind_eq_bind] at hi
  cases hm : Slotted.minPageSize h d 1 with
  | none => rw [hm] at hi; cases hi
  | some m =>
  rw [hm, Option.bind_some] at hi
  split at hi
  · cases hi
  cases hh : initPageHeader pg0 ps h with
  | none => rw [hh] at hi; cases hi
  | some x =>
  obtain ⟨p1, ok⟩ := x
  rw [hh] at hi
  simp only [Option.bind_some] at hi
  cases ok with
  | false => simp at hi
  | true =>
  have b1 := initPageHeader_some hl hlt hh
  simp only [Bool.not_true, Bool.false_eq_true, if_false, Slotted.offOcc_eq b1,
    Option.bind_some] at hi
  cases h2 : storeVal p1 ps (wAddr ps h 0) 0 with
  | none => rw [h2] at hi; cases hi
  | some p2 =>
  rw [h2] at hi
  obtain ⟨e2, l2⟩ := storeVal_some h2
  have b2 : Base ps h 0 p2 := by rw [e2]; exact b1.wr (Nat.le_refl _)
  have a1 := wAddr_succ ps h 0
  have a2 := wAddr_succ ps h 1
  have a3 := wAddr_succ ps h 2
  have a4 := wAddr_succ ps h 3
  have bl := b1.len
  simp only [Option.bind_some, Slotted.offCount, Slotted.offOcc_eq b2, Option.bind_eq_bind] at hi
  rw [u32_eq (by omega)] at hi
  simp only [Option.bind_some] at hi
  cases h3 : storeVal p2 ps (wAddr ps h 0 + vsz ps) 0 with
  | none => rw [h3] at hi; cases hi
  | some p3 =>
  rw [h3] at hi
  obtain ⟨e3, l3⟩ := storeVal_some h3
  have b3 : Base ps h 0 p3 := by rw [e3]; exact b2.wr (by omega)
  have bl2 := b2.len
  simp only [Option.bind_some, Slotted.offTomb, Slotted.offCount, Slotted.offOcc_eq b3,
    Option.bind_eq_bind] at hi
  rw [u32_eq (by omega), Option.bind_some, u32_eq (by omega)] at hi
  simp only [Option.bind_some] at hi
  cases h4 : storeVal p3 ps (wAddr ps h 0 + vsz ps + vsz ps) 0 with
  | none => rw [h4] at hi; cases hi
  | some p4 =>
  rw [h4] at hi
  obtain ⟨e4, l4⟩ := storeVal_some h4
  have b4 : Base ps h 0 p4 := by rw [e4]; exact b3.wr (by omega)
  have bl3 := b3.len
  have bl4 := b4.len
  simp only [Option.bind_some, Slotted.offEofs, Slotted.offTomb, Slotted.offCount,
    Slotted.offOcc_eq b4, Option.bind_eq_bind] at hi
  rw [u32_eq (by omega), Option.bind_some, u32_eq (by omega), Option.bind_some,
    u32_eq (by omega)] at hi
  simp only [Option.bind_some] at hi
  cases h5 : storeVal p4 ps (wAddr ps h 0 + vsz ps + vsz ps + vsz ps) ps with
  | none => rw [h5] at hi; cases hi
  | some p5 =>
  obtain ⟨e5, l5⟩ := storeVal_some h5
  simp only [Nat.reduceAdd] at a1 a2 a3 a4
  omega

theorem fixed_init_fits {pg0 p : Bytes} (hl : pg0.length = ps) (hlt : ps < 4294967296)
    (hi : Fixed.init pg0 ps h d = some (p, true)) : wAddr ps h 2 ≤ ps := by
  simp only [Fixed.init, Option.bind_eq_bind] at hi
  cases hm : Fixed.minPageSize h d 1 with
  | none => rw [hm] at hi; cases hi
  | some m =>
  rw [hm, Option.bind_some] at hi
  split at hi
  · cases hi
  cases hh : initPageHeader pg0 ps h with
  | none => rw [hh] at hi; cases hi
  | some x =>
  obtain ⟨p1, ok⟩ := x
  rw [hh] at hi
  simp only [Option.bind_some] at hi
  cases ok with
  | false => simp at hi
  | true =>
  have b1 := initPageHeader_some hl hlt hh
  have o1 : Fixed.offCount p1 ps = some (wAddr ps h 0) := offEndHdr_eq b1
  simp only [Bool.not_true, Bool.false_eq_true, if_false, o1, Option.bind_some] at hi
  cases h2 : storeVal p1 ps (wAddr ps h 0) 0 with
  | none => rw [h2] at hi; cases hi
  | some p2 =>
  rw [h2] at hi
  obtain ⟨e2, l2⟩ := storeVal_some h2
  have b2 : Base ps h 0 p2 := by rw [e2]; exact b1.wr (Nat.le_refl _)
  have a1 := wAddr_succ ps h 0
  have a2 := wAddr_succ ps h 1
  have bl := b1.len
  have bl2 := b2.len
  have o2 : Fixed.offCount p2 ps = some (wAddr ps h 0) := offEndHdr_eq b2
  simp only [Option.bind_some, Fixed.offTomb, o2, Option.bind_eq_bind] at hi
  rw [u32_eq (by omega)] at hi
  simp only [Option.bind_some] at hi
  cases h3 : storeVal p2 ps (wAddr ps h 0 + vsz ps) 0 with
  | none => rw [h3] at hi; cases hi
  | some p3 =>
  obtain ⟨e3, l3⟩ := storeVal_some h3
  simp only [Nat.reduceAdd] at a1 a2
  omega

theorem fit_of_init {pg0 p : Bytes} (hl : pg0.length = ps) (hlt : ps < 4294967296)
    (hsz : 1 ≤ d.size) (hi : Api.initPage pg0 ps h d = some (p, true)) : Fit ps h d := by
  refine ⟨hlt, ?_, ?_, ?_⟩
  · intro hv
    simp only [Api.initPage, Api.slotted, hv, if_true] at hi
    exact slotted_init_fits hl hlt hi
  · intro hv
    simp only [Api.initPage, Api.slotted, hv, Bool.false_eq_true, if_false] at hi
    exact ⟨fixed_init_fits hl hlt hi, hsz⟩
  · cases hm : Api.minPageSize h d 1 with
    | some m => exact ⟨m, rfl⟩
    | none =>
      exfalso
      unfold Api.minPageSize at hm
      unfold Api.initPage at hi
      split at hm <;> rename_i hv
      · rw [if_pos hv] at hi; simp [Slotted.init, hm] at hi
      · rw [if_neg hv] at hi; simp [Fixed.init, hm] at hi

/-! ### Filling a fresh page -/

/-- No fragmentation. -/
def Packed (ps h : Nat) (d : SizeDef) (pg : Bytes) (s : Slots) : Prop :=
  d.isVar = true → Slotted.eofs ps h pg = ps - liveSum s

/-- Specification: the slots `s` fit on an unfragmented page. -/
def FitsOn (ps h : Nat) (d : SizeDef) (s : Slots) : Prop :=
  if d.isVar then usedSpace ps d s ≤ ps - areaStart ps h d else s.length ≤ Fixed.cap ps h d

theorem PRep.append_packed (r : PRep ps h d pg s) (p : Packed ps h d pg s) {ext : Option Bytes}
    (he : ExtOk d ext) :
    ∃ b, (b = true ↔ FitsOn ps h d (s ++ [ext])) ∧ Api.canAppend pg ps d ext = some b ∧
      (b = true → ∃ pg', Api.append pg ps d ext = some (pg', true) ∧
        PRep ps h d pg' (s ++ [ext]) ∧ Packed ps h d pg' (s ++ [ext])) := by
  unfold FitsOn
  have har := r.areaStart_le
  unfold areaStart at *
  rcases r with r | ⟨r, hw⟩
  · have hp := p r.var
    have hle := r.eofs_le
    have hsp := r.space
    have hsum := r.sum_le
    have h4 := wAddr_add ps h 4 s.length
    refine ⟨decide (vsz ps + dataLen ext ≤ Slotted.free ps h pg s), ?_, ?_, ?_⟩
    · simp only [r.var, if_true, decide_eq_true_eq] at har ⊢
      rw [usedSpace_var r.var]
      simp [Slotted.free, Nat.add_mul]
      omega
    · simp [Api.canAppend, slotted_var r, r.canAppend he]
    · intro hb
      have hb := of_decide_eq_true hb
      obtain ⟨pg', h1, h2, h3, h5⟩ := (r.append he).1 hb
      refine ⟨pg', by simpa [Api.append, slotted_var r] using h1, Or.inl h2, ?_⟩
      intro _
      rw [h5, hp]; simp; omega
  · refine ⟨decide (s.length < Fixed.cap ps h d), ?_, ?_, ?_⟩
    · simp [r.fixed]; omega
    · simp [Api.canAppend, slotted_fix r, r.canAppend]
    · intro hb
      have hb := of_decide_eq_true hb
      obtain ⟨pg', h1, h2, h3⟩ := (r.append he).1 hb
      refine ⟨pg', by simpa [Api.append, slotted_fix r] using h1,
        Or.inr ⟨h2, hw.add he (by simp)⟩, ?_⟩
      intro hv; rw [r.fixed] at hv; cases hv

theorem PRep.packed_nil (r : PRep ps h d pg []) : Packed ps h d pg [] := by
  intro hv
  rcases r with r | ⟨r, -⟩
  · rcases r.tight with h1 | ⟨i, t, hi, -⟩
    · simpa using h1
    · simp at hi
  · rw [r.fixed] at hv; cases hv

theorem FitsOn.mono {a b : Slots} (hf : FitsOn ps h d (a ++ b)) : FitsOn ps h d a := by
  unfold FitsOn at *
  split <;> rename_i hv
  · rw [if_pos hv, usedSpace_append] at hf; omega
  · rw [if_neg hv] at hf; simp at hf; omega

/-- All slots that fit can be appended one after the other. -/
theorem fill {ts : Slots} : ∀ {pg : Bytes} {s : Slots}, PRep ps h d pg s → Packed ps h d pg s →
    AllWF d ts → FitsOn ps h d (s ++ ts) →
    ∃ pg', run ps d pg (ts.map Op.append) = some (pg', List.replicate ts.length 1) ∧
      PRep ps h d pg' (s ++ ts) ∧ Packed ps h d pg' (s ++ ts) := by
  induction ts with
  | nil => intro pg s r p _ _; exact ⟨pg, rfl, by simpa using r, by simpa using p⟩
  | cons t ts ih =>
    intro pg s r p hw hf
    have he : ExtOk d t := hw t (by simp)
    obtain ⟨b, hb, -, h2⟩ := r.append_packed p he
    have hf' : FitsOn ps h d ((s ++ [t]) ++ ts) := by simpa using hf
    have hbt := hb.mpr hf'.mono
    obtain ⟨pg1, h3, h4, h5⟩ := h2 hbt
    obtain ⟨pg', h6, h7, h8⟩ := ih h4 h5 (fun x hx => hw x (by simp [hx])) hf'
    refine ⟨pg', ?_, by simpa using h7, by simpa using h8⟩
    simp [run, step, h3, h6, List.replicate_succ]

/-! ### Minimum page sizes -/

theorem vsz_eq_one {n : Nat} (hn : n ≤ 256) : vsz n = 1 := by
  unfold vsz; simp [show n ≤ 2^24 by omega, show n ≤ 2^16 by omega, show n ≤ 2^8 by omega]

theorem vsz_eq_two {n : Nat} (h1 : 256 < n) (hn : n ≤ 65536) : vsz n = 2 := by
  unfold vsz; simp [show n ≤ 2^24 by omega, show n ≤ 2^16 by omega, show ¬ n ≤ 2^8 by omega]

theorem vsz_eq_three {n : Nat} (h1 : 65536 < n) (hn : n ≤ 16777216) : vsz n = 3 := by
  unfold vsz; simp [show n ≤ 2^24 by omega, show ¬ n ≤ 2^16 by omega, show ¬ n ≤ 2^8 by omega]

theorem vsz_eq_four {n : Nat} (h1 : 16777216 < n) : vsz n = 4 := by
  unfold vsz; simp [show ¬ n ≤ 2^24 by omega, show ¬ n ≤ 2^16 by omega, show ¬ n ≤ 2^8 by omega]

/-- The bytes needed on a page whose values are `w` bytes wide, for `n` tuples of the minimum
size. -/
def need (h : Nat) (d : SizeDef) (n w : Nat) : Nat :=
  if d.isVar then w + h + (4 + n) * w + n * d.size
  else w + h + w * 2 + bitmapBytes n + n * d.size

theorem need_succ (h : Nat) (d : SizeDef) (n w : Nat) : need h d n w < need h d n (w + 1) := by
  unfold need
  split
  · rw [Nat.mul_add]; omega
  · omega

theorem min_chain {a b c e m : Nat}
    (hm : (do
      let m8 ← u32 a
      if m8 ≤ 2 ^ 8 then pure m8
      else do
        let m16 ← u32 b
        if m16 ≤ 2 ^ 16 then pure m16
        else do
          let m24 ← u32 c
          if m24 ≤ 2 ^ 24 then pure m24 else u32 e) = some m) :
    m < 4294967296 ∧ ((a ≤ 256 ∧ m = a) ∨ (256 < a ∧ b ≤ 65536 ∧ m = b) ∨
      (256 < a ∧ 65536 < b ∧ c ≤ 16777216 ∧ m = c) ∨
      (256 < a ∧ 65536 < b ∧ 16777216 < c ∧ m = e)) := by
  simp only [Option.bind_eq_bind] at hm
  cases h1 : u32 a with
  | none => rw [h1] at hm; cases hm
  | some x =>
  have e1 := u32_some h1
  rw [h1, Option.bind_some] at hm
  split at hm
  · cases hm; omega
  cases h2 : u32 b with
  | none => rw [h2] at hm; cases hm
  | some y =>
  have e2 := u32_some h2
  rw [h2, Option.bind_some] at hm
  split at hm
  · cases hm; omega
  cases h3 : u32 c with
  | none => rw [h3] at hm; cases hm
  | some z =>
  have e3 := u32_some h3
  rw [h3, Option.bind_some] at hm
  split at hm
  · cases hm; omega
  have e4 := u32_some hm
  omega

/-- What `get_minimum_page_size` computes. -/
theorem minPageSize_eq {n m : Nat} (hm : Api.minPageSize h d n = some m) :
    m < 4294967296 ∧
    ((need h d n 1 ≤ 256 ∧ m = need h d n 1) ∨
     (256 < need h d n 1 ∧ need h d n 2 ≤ 65536 ∧ m = need h d n 2) ∨
     (256 < need h d n 1 ∧ 65536 < need h d n 2 ∧ need h d n 3 ≤ 16777216 ∧
       m = need h d n 3) ∨
     (256 < need h d n 1 ∧ 65536 < need h d n 2 ∧ 16777216 < need h d n 3 ∧
       m = need h d n 4)) := by
  unfold Api.minPageSize at hm
  have n1 : (d.isVar = true → need h d n 1 = 1 + h + (4 + n) * 1 + n * d.size ∧
      need h d n 2 = 2 + h + (4 + n) * 2 + n * d.size ∧
      need h d n 3 = 3 + h + (4 + n) * 3 + n * d.size ∧
      need h d n 4 = 4 + h + (4 + n) * 4 + n * d.size) := by
    intro hv; simp [need, hv]
  have n2 : (d.isVar = false → need h d n 1 = 1 + h + 1 * 2 + bitmapBytes n + n * d.size ∧
      need h d n 2 = 2 + h + 2 * 2 + bitmapBytes n + n * d.size ∧
      need h d n 3 = 3 + h + 3 * 2 + bitmapBytes n + n * d.size ∧
      need h d n 4 = 4 + h + 4 * 2 + bitmapBytes n + n * d.size) := by
    intro hv; simp [need, hv]
  split at hm <;> rename_i hv
  · obtain ⟨a1, a2, a3, a4⟩ := n1 hv
    simp only [Slotted.minPageSize, minTupleSize, ← a1, ← a2, ← a3, ← a4] at hm
    exact min_chain hm
  · obtain ⟨a1, a2, a3, a4⟩ := n2 (by simpa [Api.slotted] using hv)
    simp only [Fixed.minPageSize, ← a1, ← a2, ← a3, ← a4] at hm
    exact min_chain hm

/-- Its result has the width it was computed with. -/
theorem minPageSize_need {n m : Nat} (hm : Api.minPageSize h d n = some m) :
    m < 4294967296 ∧ m = need h d n (vsz m) ∧
      ∀ ps, need h d n (vsz ps) ≤ ps → m ≤ ps := by
  obtain ⟨hlt, hc⟩ := minPageSize_eq hm
  have s1 := need_succ h d n 1
  have s2 := need_succ h d n 2
  have s3 := need_succ h d n 3
  simp only [Nat.reduceAdd] at s1 s2 s3
  have key : ∀ p, (p ≤ 256 ∧ vsz p = 1) ∨ (256 < p ∧ p ≤ 65536 ∧ vsz p = 2) ∨
      (65536 < p ∧ p ≤ 16777216 ∧ vsz p = 3) ∨ (16777216 < p ∧ vsz p = 4) := by
    intro p
    by_cases c1 : p ≤ 256
    · exact Or.inl ⟨c1, vsz_eq_one c1⟩
    by_cases c2 : p ≤ 65536
    · exact Or.inr (Or.inl ⟨by omega, c2, vsz_eq_two (by omega) c2⟩)
    by_cases c3 : p ≤ 16777216
    · exact Or.inr (Or.inr (Or.inl ⟨by omega, c3, vsz_eq_three (by omega) c3⟩))
    · exact Or.inr (Or.inr (Or.inr ⟨by omega, vsz_eq_four (by omega)⟩))
  refine ⟨hlt, ?_, ?_⟩
  · rcases key m with ⟨k1, k2⟩ | ⟨k1, k3, k2⟩ | ⟨k1, k3, k2⟩ | ⟨k1, k2⟩ <;> rw [k2] <;> omega
  · intro p hp
    rcases key p with ⟨k1, k2⟩ | ⟨k1, k3, k2⟩ | ⟨k1, k3, k2⟩ | ⟨k1, k2⟩ <;>
      rw [k2] at hp <;> omega

theorem live_min (hw : AllWF d s) : (s.length - tombs s) * d.size ≤ liveSum s := by
  induction s with
  | nil => simp
  | cons x s ih =>
    have ih := ih (fun y hy => hw y (by simp [hy]))
    have ht := Slotted.tombs_le s
    cases x with
    | none => simpa using ih
    | some t =>
      have h1 : d.size ≤ t.length := (hw (some t) (by simp) t rfl).min
      simp only [List.length_cons, Slotted.tombs_cons_some, Slotted.liveSum_cons,
        Slotted.dataLen_some]
      rw [show s.length + 1 - tombs s = (s.length - tombs s) + 1 by omega, Nat.add_mul]
      omega

/-- A page holding `n` tuples has at least the needed size. -/
theorem PRep.need_le (r : PRep ps h d pg s) {n : Nat} (hn : n ≤ s.length - tombs s) :
    need h d n (vsz ps) ≤ ps := by
  have hw := r.wf
  unfold need
  rcases r with r | ⟨r, -⟩
  · have h1 := r.occ_lt
    have h2 := live_min hw
    have h3 := Nat.mul_le_mul_right d.size hn
    have h4 := Nat.mul_le_mul_right (vsz ps) (show n ≤ s.length by omega)
    simp only [r.var, if_true]
    simp only [wAddr] at h1
    rw [Nat.add_mul]
    omega
  · have h1 := r.tAddr_le
    have h2 := r.le
    have h3 := Nat.mul_le_mul_right d.size (show n ≤ s.length by omega)
    have h4 : bitmapBytes n ≤ bitmapBytes (Fixed.cap ps h d) := by
      unfold bitmapBytes; omega
    simp only [r.fixed, Bool.false_eq_true, if_false]
    simp only [Fixed.tAddr, wAddr] at h1
    omega

/-- Conversely, with the needed size `n` tuples of minimum size fit. -/
theorem fitsOn_of_need {n : Nat} (hn : need h d n (vsz ps) ≤ ps) {ts : Slots}
    (hl : ts.length = n) (ht : ∀ x ∈ ts, ∃ t, x = some t ∧ t.length = d.size) :
    FitsOn ps h d ts := by
  unfold FitsOn need areaStart at *
  split <;> rename_i hv
  · rw [if_pos hv] at hn
    have : liveSum ts = n * d.size := by
      subst hl
      clear hn
      induction ts with
      | nil => simp
      | cons x ts ih =>
        obtain ⟨t, rfl, htl⟩ := ht x (by simp)
        have := ih (fun y hy => ht y (by simp [hy]))
        simp [this, htl, Nat.add_mul]; omega
    rw [usedSpace_var hv, this, hl]
    rw [Nat.add_mul] at hn
    simp only [wAddr]
    omega
  · rw [if_neg hv] at hn
    rw [hl]
    unfold Fixed.cap
    rw [Nat.le_div_iff_mul_le (by omega)]
    simp only [wAddr]
    unfold bitmapBytes at hn
    rw [Nat.mul_add, ← Nat.mul_assoc]
    omega

end TS
