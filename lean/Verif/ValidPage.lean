import Verif.ApiSpace
/-
A check of pages of unknown origin. The library has no such check.
-/
namespace TS

instance (d : SizeDef) (t : Bytes) : Decidable (WellFormed d t) :=
  decidable_of_iff (tupleSize d t = some t.length ∧ minTupleSize d ≤ t.length ∧ t.length < 2147483648)
    ⟨fun ⟨a, b, c⟩ => ⟨a, b, c⟩, fun ⟨a, b, c⟩ => ⟨a, b, c⟩⟩

/-- The header size the page announces. -/
def annHdr (ps : Nat) (pg : Bytes) : Nat := leDec (rd pg 0 (vsz ps))

namespace Slotted

/-- The number of tuples that the page announces. -/
def annCount (ps h : Nat) (pg : Bytes) : Nat := word ps h pg 1

/-- What slot `i` of the page holds; a slot that leads to something else than a tuple inside of the
page is `none`. -/
def slotIn (ps h : Nat) (d : SizeDef) (pg : Bytes) (i : Nat) : Option (Option Bytes) :=
  let o := word ps h pg (4 + i)
  if o = 0 then some none
  else match tupleSize d (pg.drop o) with
    | none => none
    | some n =>
      if eofs ps h pg ≤ o ∧ o + n ≤ ps ∧ WellFormed d (rd pg o n) then some (some (rd pg o n)) else none

/-- The logical page. -/
def slotsOf (ps h : Nat) (d : SizeDef) (pg : Bytes) : Slots :=
  (List.range (annCount ps h pg)).filterMap (slotIn ps h d pg)

/-- All slots lead to tuples that do not overlap, and the words behind the header are what they say. -/
def okPage (ps h : Nat) (d : SizeDef) (pg : Bytes) : Bool :=
  let n := annCount ps h pg
  let s := slotsOf ps h d pg
  let e := eofs ps h pg
  decide (wAddr ps h (4 + n) ≤ e) && decide (e ≤ ps) &&
  (List.range n).all (fun i => (slotIn ps h d pg i).isSome) &&
  decide (word ps h pg 0 = liveSum s + n * vsz ps) && decide (word ps h pg 2 = tombs s) &&
  (decide (e = ps) || (List.range n).any (fun i => decide (word ps h pg (4 + i) = e))) &&
  (List.range n).all (fun i => (List.range n).all fun j =>
    i = j || (match slotIn ps h d pg i, slotIn ps h d pg j with
      | some (some t), some (some u) => decide (word ps h pg (4 + i) + t.length ≤ word ps h pg (4 + j)) ||
          decide (word ps h pg (4 + j) + u.length ≤ word ps h pg (4 + i))
      | _, _ => true))

end Slotted

namespace Fixed

/-- What slot `i` of the page holds. -/
def slotIn (ps h : Nat) (d : SizeDef) (pg : Bytes) (i : Nat) : Option Bytes :=
  if bit pg (wAddr ps h 2) i then some (slot ps h d pg i) else none

/-- The logical page. -/
def slotsOf (ps h : Nat) (d : SizeDef) (pg : Bytes) : Slots :=
  (List.range (word ps h pg 0)).map (slotIn ps h d pg)

/-- The words behind the header are what they say. -/
def okPage (ps h : Nat) (d : SizeDef) (pg : Bytes) : Bool :=
  decide (wAddr ps h 2 ≤ ps) && decide (word ps h pg 0 ≤ cap ps h d) &&
  decide (word ps h pg 1 = tombs (slotsOf ps h d pg))

end Fixed

/-- The page is one with a header of `h` bytes, in the layout that the size definition selects. -/
def okPage (ps h : Nat) (d : SizeDef) (pg : Bytes) : Bool :=
  decide (pg.length = ps) && decide (annHdr ps pg = h) &&
  (if d.isVar then Slotted.okPage ps h d pg else Fixed.okPage ps h d pg)

/-- The logical page. -/
def slotsOf (ps h : Nat) (d : SizeDef) (pg : Bytes) : Slots :=
  if d.isVar then Slotted.slotsOf ps h d pg else Fixed.slotsOf ps h d pg

theorem range_filterMap {α : Type} {g : Nat → Option α} : ∀ (n : Nat), (∀ i, i < n → ∃ c, g i = some c) →
    ((List.range n).filterMap g).length = n ∧ ∀ i, i < n → ((List.range n).filterMap g)[i]? = g i := by
  intro n
  induction n with
  | zero => intro _; exact ⟨rfl, fun i hi => absurd hi (by omega)⟩
  | succ n ih =>
    intro h
    obtain ⟨h1, h2⟩ := ih (fun i hi => h i (by omega))
    obtain ⟨c, hc⟩ := h n (by omega)
    rw [List.range_succ, List.filterMap_append]
    have : [n].filterMap g = [c] := by simp [hc]
    rw [this]
    refine ⟨by simp [h1], ?_⟩
    intro i hi
    by_cases hin : i < n
    · rw [List.getElem?_append_left (by omega)]; exact h2 i hin
    · have : i = n := by omega
      subst this
      rw [List.getElem?_append_right (by omega), h1, hc]; simp

variable {ps h : Nat} {d : SizeDef} {pg : Bytes} {s : Slots}

namespace Slotted

theorem slotIn_some {i : Nat} {x : Option Bytes} (hx : slotIn ps h d pg i = some x) :
    (x = none ∧ word ps h pg (4 + i) = 0) ∨
    ∃ t, x = some t ∧ word ps h pg (4 + i) ≠ 0 ∧ eofs ps h pg ≤ word ps h pg (4 + i) ∧
      word ps h pg (4 + i) + t.length ≤ ps ∧
      (pg.length = ps → rd pg (word ps h pg (4 + i)) t.length = t) ∧ WellFormed d t := by
  unfold slotIn at hx
  simp only [] at hx
  by_cases h0 : word ps h pg (4 + i) = 0
  · rw [if_pos h0] at hx; cases hx; exact .inl ⟨rfl, h0⟩
  · rw [if_neg h0] at hx
    right
    cases hs : tupleSize d (pg.drop (word ps h pg (4 + i))) with
    | none => rw [hs] at hx; cases hx
    | some n =>
      rw [hs] at hx
      simp only [] at hx
      split at hx
      · rename_i hc
        obtain ⟨c1, c2, c3⟩ := hc
        cases hx
        refine ⟨_, rfl, h0, c1, ?_, ?_, c3⟩
        · have : (rd pg (word ps h pg (4 + i)) n).length ≤ n := by simp [rd]; omega
          omega
        · intro hl
          rw [rd_length _ _ _ (by omega)]
      · cases hx

theorem ok_rep (hv : d.isVar = true) (hl : pg.length = ps) (hlt : ps < 4294967296) (hh : annHdr ps pg = h)
    (hk : okPage ps h d pg = true) : Rep ps h d pg (slotsOf ps h d pg) := by
  simp only [okPage, Bool.and_eq_true, decide_eq_true_eq, List.all_eq_true, List.mem_range,
    Bool.or_eq_true, List.any_eq_true] at hk
  obtain ⟨⟨⟨⟨⟨⟨k1, k2⟩, k3⟩, k4⟩, k5⟩, k6⟩, k7⟩ := hk
  have hall : ∀ i, i < annCount ps h pg → ∃ c, slotIn ps h d pg i = some c :=
    fun i hi => Option.isSome_iff_exists.mp (k3 i hi)
  obtain ⟨hlen, hget⟩ := range_filterMap _ hall
  change (slotsOf ps h d pg).length = _ at hlen
  change ∀ i, i < _ → (slotsOf ps h d pg)[i]? = _ at hget
  have hin : ∀ i x, (slotsOf ps h d pg)[i]? = some x → i < annCount ps h pg ∧ slotIn ps h d pg i = some x := by
    intro i x hx
    have hi : i < annCount ps h pg := by rw [← hlen]; exact (List.getElem?_eq_some_iff.mp hx).1
    exact ⟨hi, by rw [← hget i hi]; exact hx⟩
  refine ⟨⟨hv, ⟨hl, hh, hlt, by rw [hlen]; omega⟩, by rw [k4, hlen], hlen.symm, k5, by rw [hlen]; exact k1, k2, ?_⟩, ?_⟩
  · refine ⟨?_, ?_, ?_⟩
    · intro i hi
      rcases slotIn_some (hin i _ hi).2 with ⟨_, h⟩ | ⟨t, h, _⟩
      · exact h
      · cases h
    · intro i t hi
      rcases slotIn_some (hin i _ hi).2 with ⟨h, _⟩ | ⟨t', h, _, h2, h3, h4, h5⟩
      · cases h
      · cases h; exact ⟨h2, h3, h4 hl, h5⟩
    · intro i j t u hij hi hj
      obtain ⟨a1, a2⟩ := hin i _ hi
      obtain ⟨b1, b2⟩ := hin j _ hj
      have := k7 i a1 j b1
      rw [a2, b2] at this
      simp only [Bool.or_eq_true, decide_eq_true_eq] at this
      exact this.resolve_left hij
  · rcases k6 with k6 | ⟨i, hi, k6⟩
    · exact .inl k6
    · right
      obtain ⟨x, hx⟩ := hall i hi
      rcases slotIn_some hx with ⟨_, hw⟩ | ⟨t, hw, _⟩
      · exfalso
        rw [hw] at k6
        have : 1 ≤ wAddr ps h (4 + annCount ps h pg) := by
          unfold wAddr; have := vsz_pos ps; omega
        omega
      · exact ⟨i, t, by rw [hget i hi, hx, hw], k6⟩

theorem rep_ok (r : Rep ps h d pg s) : okPage ps h d pg = true ∧ slotsOf ps h d pg = s := by
  have hcnt : annCount ps h pg = s.length := r.cnt
  have hpos : 1 ≤ eofs ps h pg := by
    have := r.space
    have : 1 ≤ wAddr ps h (4 + s.length) := by unfold wAddr; have := vsz_pos ps; omega
    omega
  have hslot : ∀ i x, s[i]? = some x → slotIn ps h d pg i = some x := by
    intro i x hx
    unfold slotIn
    simp only []
    cases x with
    | none => rw [if_pos (r.lay.dead i hx)]
    | some t =>
      obtain ⟨h1, h2, h3, h4⟩ := r.lay.live i t hx
      rw [if_neg (by omega), tupleSize_at h4 h3]
      simp only [h3]
      rw [if_pos ⟨h1, h2, h4⟩]
  have hget : ∀ i, i < s.length → ∃ x, s[i]? = some x := fun i hi => ⟨_, List.getElem?_eq_getElem hi⟩
  have hs : slotsOf ps h d pg = s := by
    unfold slotsOf
    rw [hcnt]
    obtain ⟨g1, g2⟩ := range_filterMap (g := slotIn ps h d pg) s.length (by
      intro i hi
      obtain ⟨x, hx⟩ := hget i hi
      exact ⟨x, hslot i x hx⟩)
    apply List.ext_getElem?
    intro i
    by_cases hi : i < s.length
    · obtain ⟨x, hx⟩ := hget i hi
      rw [g2 i hi, hslot i x hx, hx]
    · rw [List.getElem?_eq_none (by omega), List.getElem?_eq_none (by omega)]
  refine ⟨?_, hs⟩
  simp only [okPage, hs, hcnt, Bool.and_eq_true, decide_eq_true_eq, List.all_eq_true, List.mem_range,
    Bool.or_eq_true, List.any_eq_true]
  refine ⟨⟨⟨⟨⟨⟨r.space, r.eofs_le⟩, ?_⟩, r.occ⟩, r.tomb⟩, ?_⟩, ?_⟩
  · intro i hi
    obtain ⟨x, hx⟩ := hget i hi
    rw [hslot i x hx]; rfl
  · rcases r.tight with h | ⟨i, t, h1, h2⟩
    · exact .inl h
    · exact .inr ⟨i, (List.getElem?_eq_some_iff.mp h1).1, h2⟩
  · intro i hi j hj
    by_cases hij : i = j
    · exact .inl hij
    · right
      obtain ⟨x, hx⟩ := hget i hi
      obtain ⟨y, hy⟩ := hget j hj
      rw [hslot i x hx, hslot j y hy]
      cases x with
      | none => rfl
      | some t =>
        cases y with
        | none => rfl
        | some u => simpa using r.lay.disj i j t u hij hx hy

end Slotted

namespace Fixed

theorem ok_rep (hv : d.isVar = false) (hp : 1 ≤ d.size) (hl : pg.length = ps) (hlt : ps < 4294967296) (hh : annHdr ps pg = h)
    (hk : okPage ps h d pg = true) : Rep ps h d pg (slotsOf ps h d pg) := by
  simp only [okPage, Bool.and_eq_true, decide_eq_true_eq] at hk
  obtain ⟨⟨k1, k2⟩, k3⟩ := hk
  have hlen : (slotsOf ps h d pg).length = word ps h pg 0 := by simp [slotsOf]
  have hin : ∀ i x, (slotsOf ps h d pg)[i]? = some x → i < word ps h pg 0 ∧ slotIn ps h d pg i = x := by
    intro i x hx
    have hi : i < word ps h pg 0 := by rw [← hlen]; exact (List.getElem?_eq_some_iff.mp hx).1
    refine ⟨hi, ?_⟩
    simp only [slotsOf, List.getElem?_map] at hx
    rw [List.getElem?_range hi] at hx
    simpa using hx
  refine ⟨hv, hp, ⟨hl, hh, hlt, k1⟩, hlen.symm, k3, by rw [hlen]; exact k2, ?_, ?_⟩
  · intro i x hx
    have := (hin i x hx).2
    unfold slotIn at this
    split at this
    · rename_i hb; rw [hb, ← this]; rfl
    · rename_i hb; rw [← this]; simpa using hb
  · intro i t ht
    obtain ⟨hi, h2⟩ := hin i _ ht
    unfold slotIn at h2
    split at h2
    · cases h2
      refine ⟨?_, rfl⟩
      have h3 := tAddr_mono (ps := ps) (h := h) (d := d) (i := i + 1) (j := cap ps h d) (by omega)
      have h4 := tAddr_cap (ps := ps) (h := h) (d := d) k1
      rw [tAddr_succ] at h3
      exact rd_length _ _ _ (by omega)
    · cases h2

theorem rep_ok (r : Rep ps h d pg s) : okPage ps h d pg = true ∧ slotsOf ps h d pg = s := by
  have hs : slotsOf ps h d pg = s := by
    apply List.ext_getElem?
    intro i
    simp only [slotsOf, List.getElem?_map, r.cnt]
    by_cases hi : i < s.length
    · rw [List.getElem?_range hi]
      have hx := List.getElem?_eq_getElem hi
      rw [hx]
      simp only [Option.map_some, Option.some.injEq]
      have hb := r.bits i _ hx
      unfold slotIn
      rw [hb]
      cases hc : s[i] with
      | none => rfl
      | some t =>
        rw [hc] at hx
        simp [(r.data i t hx).2]
    · rw [List.getElem?_eq_none (by simp; omega), List.getElem?_eq_none (by omega)]; rfl
  refine ⟨?_, hs⟩
  simp only [okPage, hs, Bool.and_eq_true, decide_eq_true_eq]
  exact ⟨⟨r.base.fits, by rw [r.cnt]; exact r.le⟩, r.tomb⟩

end Fixed

theorem okPage_rep (hp : 1 ≤ d.size) (hz : d.size < 2147483648) (hlt : ps < 4294967296) (hk : okPage ps h d pg = true) :
    PRep ps h d pg (slotsOf ps h d pg) := by
  simp only [okPage, Bool.and_eq_true, decide_eq_true_eq] at hk
  obtain ⟨⟨k1, k2⟩, k3⟩ := hk
  unfold slotsOf
  cases hv : d.isVar with
  | true =>
    simp only [hv, if_true] at k3 ⊢
    exact .inl (Slotted.ok_rep hv k1 hlt k2 k3)
  | false =>
    simp only [hv, Bool.false_eq_true, if_false] at k3 ⊢
    have r := Fixed.ok_rep hv hp k1 hlt k2 k3
    refine .inr ⟨r, ?_⟩
    intro x hx t ht
    subst ht
    obtain ⟨i, hi⟩ := List.mem_iff_getElem?.mp hx
    have := (r.data i t hi).1
    exact ⟨by simp [tupleSize, hv, this], by simp [minTupleSize, this], by omega⟩

theorem rep_okPage (r : PRep ps h d pg s) : okPage ps h d pg = true ∧ slotsOf ps h d pg = s := by
  have hb := r.base0
  simp only [okPage, slotsOf, Bool.and_eq_true, decide_eq_true_eq]
  rcases r with r | ⟨r, _⟩
  · have := Slotted.rep_ok r
    rw [if_pos r.var, if_pos r.var]
    exact ⟨⟨⟨hb.len, hb.hdr⟩, this.1⟩, this.2⟩
  · have := Fixed.rep_ok r
    rw [if_neg (by simp [r.fixed]), if_neg (by simp [r.fixed])]
    exact ⟨⟨⟨hb.len, hb.hdr⟩, this.1⟩, this.2⟩

end TS
