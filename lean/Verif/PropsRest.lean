import Verif.PageRest
import Verif.PropsPointer
/-
C86: what is left on a page of tuples that were discarded.
-/
namespace TS
namespace Props

variable {ps h : Nat} {d : SizeDef} {a b pg : Bytes} {s : Slots}

theorem distinct_offs (r : Slotted.Rep ps h d a s) {i j : Nat} {t u : Bytes} (hi : s[i]? = some (some t)) (hj : s[j]? = some (some u)) :
    word ps h a (4 + i) = word ps h a (4 + j) → i = j := by
  intro he
  apply Classical.byContradiction
  intro hne
  have h1 := r.lay.disj i j t u hne hi hj
  have h2 := (r.lay.live i t hi).2.2.2.pos r.var
  have h3 := (r.lay.live j u hj).2.2.2.pos r.var
  omega

/-- C86. Compaction followed by zeroing the free space leaves nothing on a slotted page but what can be read from it: if two
pages have the same page header and the same tuples, and these lie in the same order on both, then, whatever happened to the
two pages before, they have the same bytes afterwards. -/
theorem C86_slotted (l : Legal ps h d) (hv : d.isVar = true) (ha : Reach ps h d a s) (hb : Reach ps h d b s)
    (hh : Api.readHeader b ps = Api.readHeader a ps)
    (ho : ∀ i j ai aj bi bj, Api.getNth a ps d i = some (some ai) → Api.getNth a ps d j = some (some aj) →
      Api.getNth b ps d i = some (some bi) → Api.getNth b ps d j = some (some bj) → (ai < aj ↔ bi < bj)) :
    ∃ p na nb z, run ps d a [.compact true, .zeroOut] = some (p, [na, z]) ∧ run ps d b [.compact true, .zeroOut] = some (p, [nb, z]) ∧
      Reach ps h d p s := by
  have ra := var_rep l hv ha
  have rb := var_rep l hv hb
  obtain ⟨a', ma, a1, a2, a3, a4, -, -, -, a5⟩ := ra.compact_at
  obtain ⟨b', mb, b1, b2, b3, b4, -, -, -, b5⟩ := rb.compact_at
  have PA : PRep ps h d a s := .inl ra
  have PB : PRep ps h d b s := .inl rb
  rw [PA.readHeader, PB.readHeader, Option.some.injEq] at hh
  have hsa := a2.sum_le
  have hea := a2.eofs_le
  have hse := ra.sum_le
  have key : ∀ i j t u, s[i]? = some (some t) → s[j]? = some (some u) → word ps h a' (4 + i) ≤ word ps h a' (4 + j) →
      word ps h b' (4 + i) ≤ word ps h b' (4 + j) := by
    intro i j t u hi hj hle
    rcases Nat.lt_trichotomy (word ps h a (4 + i)) (word ps h a (4 + j)) with h1 | h1 | h1
    · have := (ho i j _ _ _ _ (by rw [getNth_word ra, hi]) (by rw [getNth_word ra, hj]) (by rw [getNth_word rb, hi])
        (by rw [getNth_word rb, hj])).mp h1
      exact Nat.le_of_lt (b5 i j t u hi hj this)
    · rw [distinct_offs ra hi hj h1]; exact Nat.le_refl _
    · have := a5 j i u t hj hi h1
      omega
  have key2 : ∀ i j t u, s[i]? = some (some t) → s[j]? = some (some u) → word ps h b' (4 + i) ≤ word ps h b' (4 + j) →
      word ps h a' (4 + i) ≤ word ps h a' (4 + j) := by
    intro i j t u hi hj hle
    rcases Nat.lt_trichotomy (word ps h b (4 + i)) (word ps h b (4 + j)) with h1 | h1 | h1
    · have := (ho i j _ _ _ _ (by rw [getNth_word ra, hi]) (by rw [getNth_word ra, hj]) (by rw [getNth_word rb, hi])
        (by rw [getNth_word rb, hj])).mpr h1
      exact Nat.le_of_lt (a5 i j t u hi hj this)
    · rw [distinct_offs rb hi hj h1]; exact Nat.le_refl _
    · have := b5 j i u t hj hi h1
      omega
  have tw := a2.packed b2 (by rw [a3, b3, hh]) (by omega) (by omega) (by rw [ra.compact_end a1, rb.compact_end b1])
    (fun i j t u hi hj => ⟨key i j t u hi hj, key2 i j t u hi hj⟩)
  obtain ⟨p, z, z1, z2, -⟩ := tw.zeroOut
  have hsl := slotted_var ra
  have r1 : run ps d a [.compact true, .zeroOut] = some (p, [ma.toNat, z.toNat]) := by
    simp [run, step, Api.compact, Api.zeroOut, hsl, a1, z1]
  have r2 : run ps d b [.compact true, .zeroOut] = some (p, [mb.toNat, z.toNat]) := by
    simp [run, step, Api.compact, Api.zeroOut, hsl, b1, z2]
  refine ⟨p, _, _, _, r1, r2, ?_⟩
  obtain ⟨p1, n1, s1, g1, ⟨-, -, rfl⟩, g3⟩ := reach_step l ha (op := .compact true) trivial
  obtain ⟨p2, n2, s2, f1, ⟨-, rfl⟩, f3⟩ := reach_step l g3 (op := .zeroOut) trivial
  simp only [run, g1, f1, Option.bind_eq_bind, Option.bind_some, Option.pure_def, Option.some.injEq, Prod.mk.injEq] at r1
  rw [← r1.1]; exact f3

/-- C86. After compaction and zeroing, every byte of a slotted page behind its slots belongs to a tuple or is zero. -/
theorem C86_bytes (l : Legal ps h d) (hv : d.isVar = true) (hr : Reach ps h d pg s) :
    ∃ p rs al, run ps d pg [.compact true, .zeroOut] = some (p, rs) ∧ Reach ps h d p s ∧ Api.spaceAllotted p ps d = some al ∧
      ∀ x, ps - al + s.length * Api.overhead ps d ≤ x → x < ps → p[x]? = some 0 ∨
        ∃ i o t, Api.getNth p ps d i = some (some o) ∧ s[i]? = some (some t) ∧ o ≤ x ∧ x < o + t.length := by
  have r := var_rep l hv hr
  obtain ⟨a', ma, a1, a2, -, a4, -⟩ := r.compact_at
  obtain ⟨p1, n1, s1, g1, ⟨-, -, rfl⟩, g3⟩ := reach_step l hr (op := .compact true) trivial
  obtain ⟨p2, n2, s2, f1, ⟨-, rfl⟩, f3⟩ := reach_step l g3 (op := .zeroOut) trivial
  have hsl := slotted_var r
  have e0 : p1 = a' := by
    simp [step, Api.compact, hsl, a1] at g1
    exact g1.1.symm
  subst e0
  have R := f3.rep l.fit
  have hA := R.areaStart_le
  refine ⟨p2, [n1, n2], _, by simp [run, g1, f1], f3, R.spaceAllotted, fun x h1 h2 => ?_⟩
  obtain ⟨q, z, f, st, k1, k2, -, -, -, -, -, -, ⟨al, k3, k4⟩, k5, k6, k7⟩ := C21_zero_out l g3
  have e1 : p2 = q := by
    simp [step, k1] at f1
    exact f1.1.symm
  subst e1
  have R1 := g3.rep l.fit
  have hA1 := R1.areaStart_le
  rw [R1.spaceAllotted, Option.some.injEq] at k3
  subst k3
  rw [R1.freeSpace, Option.some.injEq] at k2
  have e2 := a2.space
  have e3 := a2.eofs_le
  have e4 := wAddr_add ps h 4 s2.length
  have hsum := a2.sum_le
  rw [show ps - (ps - areaStart ps h d) = areaStart ps h d by omega] at h1 k4
  simp only [areaStart, freeBytes, hv, if_true, Api.overhead, hsl, Slotted.overhead, Slotted.free, Nat.add_zero] at h1 k4 k2
  by_cases hx : x < Slotted.eofs ps h p1
  · exact .inl (k6 x (by omega) (by omega))
  · right
    obtain ⟨i, t, q1, q2, q3⟩ := a2.lay.covered e3 (by omega) (Nat.le_of_not_lt hx) h2
    have r2 := var_rep l hv f3
    refine ⟨i, word ps h p1 (4 + i), t, ?_, q1, q2, q3⟩
    have hil := (List.getElem?_eq_some_iff.mp q1).1
    have hm := wAddr_mono ps h (show 4 + i + 1 ≤ 4 + s2.length by omega)
    rw [wAddr_succ] at hm
    rw [getNth_word r2, q1]
    have : word ps h p2 (4 + i) = word ps h p1 (4 + i) := by
      unfold word
      rw [rd_ext (fun j hj => k7 _ (by omega))]
    simp only [this]

/-- The page after the call and after zeroing its free space, from the page in between. -/
theorem zero_after (l : Legal ps h d) (hv : d.isVar = true) {p : Bytes} (hp : Reach ps h d p s) :
    ∃ q z, step ps d p .zeroOut = some (q, z) ∧ Reach ps h d q s ∧
      (∀ x, wAddr ps h (4 + s.length) ≤ x → x < Slotted.eofs ps h p → q[x]? = some 0) ∧
      (∀ x, Slotted.eofs ps h p ≤ x → q[x]? = p[x]?) := by
  have r := var_rep l hv hp
  obtain ⟨q, n, s', g1, ⟨-, rfl⟩, g3⟩ := reach_step l hp (op := .zeroOut) trivial
  obtain ⟨q', z, f, st, k1, k2, -, -, -, -, -, -, ⟨al, k3, k4⟩, k5, k6, k7⟩ := C21_zero_out l hp
  have e1 : q = q' := by
    simp [step, k1] at g1
    exact g1.1.symm
  subst e1
  have R := hp.rep l.fit
  have hA := R.areaStart_le
  rw [R.spaceAllotted, Option.some.injEq] at k3
  subst k3
  rw [R.freeSpace, Option.some.injEq] at k2
  have e2 := r.space
  have e3 := r.eofs_le
  have e4 := wAddr_add ps h 4 s'.length
  rw [show ps - (ps - areaStart ps h d) = areaStart ps h d by omega] at k4
  simp only [areaStart, freeBytes, hv, if_true, Api.overhead, slotted_var r, Slotted.overhead, Slotted.free, Nat.add_zero] at k4 k2
  exact ⟨q, n, g1, g3, fun x h1 h2 => k6 x (by omega) (by omega), fun x h1 => k7 x (by omega)⟩

/-- Discarding a tuple of a slotted page or replacing it by NULL: the offsets of the other tuples stay, and nothing is
written behind the slots. -/
theorem remove_facts (l : Legal ps h d) (hv : d.isVar = true) (hr : Reach ps h d pg s) {i : Nat} (hi : i < s.length) {op : Op} {s' : Slots}
    (hop : op = .discard i ∧ s' = s.eraseIdx i ∨ op = .update i none ∧ s' = s.set i none) :
    ∃ p, step ps d pg op = some (p, 1) ∧ Reach ps h d p s' ∧ s'.length ≤ s.length ∧
      (∀ x, wAddr ps h (4 + s.length) ≤ x → p[x]? = pg[x]?) ∧
      (∀ j u, j ≠ i → s[j]? = some (some u) → ∃ k, s'[k]? = some (some u) ∧ word ps h p (4 + k) = word ps h pg (4 + j)) ∧
      (∀ k u, s'[k]? = some (some u) → ∃ j, j ≠ i ∧ s[j]? = some (some u) ∧ word ps h p (4 + k) = word ps h pg (4 + j)) := by
  have r := var_rep l hv hr
  have hsl := slotted_var r
  rcases hop with ⟨rfl, rfl⟩ | ⟨rfl, rfl⟩
  · obtain ⟨p, h1, h2, -, h4⟩ := (r.discard_at i).1 hi
    obtain ⟨p', n, s'', g1, g2, g3⟩ := reach_step l hr (op := .discard i) trivial
    simp only [step, Api.discard, hsl, if_true, h1, Option.bind_eq_bind, Option.bind_some, Option.pure_def, Option.some.injEq, Prod.mk.injEq,
      Bool.toNat_true] at g1
    obtain ⟨rfl, rfl⟩ := g1
    obtain ⟨-, -, rfl⟩ : 1 = 1 ∧ i < s.length ∧ s'' = s.eraseIdx i := by
      rcases g2 with g2 | ⟨g2, -⟩
      · exact g2
      · cases g2
    have hll : (s.eraseIdx i).length = s.length - 1 := List.length_eraseIdx_of_lt hi
    refine ⟨p, by simp [step, Api.discard, hsl, h1], g3, by omega, r.discard_low h1, fun j u hj hu => ?_, fun k u hk => ?_⟩
    · have hjl := (List.getElem?_eq_some_iff.mp hu).1
      refine ⟨if j < i then j else j - 1, ?_, ?_⟩
      · rw [List.getElem?_eraseIdx]
        by_cases hji : j < i
        · rw [if_pos hji, if_pos hji]; exact hu
        · rw [if_neg hji, if_neg (by omega), show j - 1 + 1 = j by omega]; exact hu
      · rw [h4 _ (by split <;> omega)]
        by_cases hji : j < i
        · rw [if_pos hji, if_pos hji]
        · rw [if_neg hji, if_neg (by omega), show j - 1 + 1 = j by omega]
    · have hkl := (List.getElem?_eq_some_iff.mp hk).1
      refine ⟨if k < i then k else k + 1, by split <;> omega, ?_, h4 k (by omega)⟩
      rw [List.getElem?_eraseIdx] at hk
      split
      · rw [if_pos ‹_›] at hk; exact hk
      · rw [if_neg ‹_›] at hk; exact hk
  · have hw : ExtOk d none := by intro t ht; cases ht
    have hroom : Slotted.UpdRoom ps h pg s i none := by
      have hs : s[i]? = some s[i] := List.getElem?_eq_getElem hi
      cases hx : s[i] <;> simp [Slotted.UpdRoom, hs, hx]
    obtain ⟨p, h1, h2, -, h4, -⟩ := (r.update_at hw).1 hroom
    obtain ⟨p', n, s'', g1, g2, g3⟩ := reach_step l hr (op := .update i none) hw
    simp only [step, Api.update, hsl, if_true, h1, Option.bind_eq_bind, Option.bind_some, Option.pure_def, Option.some.injEq, Prod.mk.injEq,
      Bool.toNat_true] at g1
    obtain ⟨rfl, rfl⟩ := g1
    obtain ⟨-, -, rfl⟩ : 1 = 1 ∧ i < s.length ∧ s'' = s.set i none := by
      rcases g2 with g2 | ⟨g2, -⟩
      · exact g2
      · cases g2
    refine ⟨p, by simp [step, Api.update, hsl, h1], g3, by simp, r.update_none_low h1, fun j u hj hu => ?_, fun k u hk => ?_⟩
    · exact ⟨j, by rw [List.getElem?_set_ne (by omega)]; exact hu, h4 j hj (List.getElem?_eq_some_iff.mp hu).1⟩
    · have hne : k ≠ i := by
        rintro rfl
        rw [List.getElem?_set_self hi] at hk; cases hk
      rw [List.getElem?_set_ne (by omega)] at hk
      exact ⟨k, hne, hk, h4 k hne (List.getElem?_eq_some_iff.mp hk).1⟩

/-- C86. Zeroing alone is not enough. The bytes of a tuple that is discarded, or replaced by NULL, while another tuple lies
below it, are all still there after the free space was zeroed. -/
theorem C86_left (l : Legal ps h d) (hv : d.isVar = true) (hr : Reach ps h d pg s) {i j oi oj : Nat} {t : Bytes}
    (hi : s[i]? = some (some t)) (gi : Api.getNth pg ps d i = some (some oi)) (gj : Api.getNth pg ps d j = some (some oj)) (hlt : oj < oi)
    {op : Op} {s' : Slots} (hop : op = .discard i ∧ s' = s.eraseIdx i ∨ op = .update i none ∧ s' = s.set i none) :
    ∃ p z, run ps d pg [op, .zeroOut] = some (p, [1, z]) ∧ Reach ps h d p s' ∧ rd p oi t.length = t := by
  have r := var_rep l hv hr
  have hil := (List.getElem?_eq_some_iff.mp hi).1
  obtain ⟨p, h1, h2, h3, h4, h5, -⟩ := remove_facts l hv hr hil hop
  obtain ⟨q, z, k1, k2, -, k4⟩ := zero_after l hv h2
  have rp := var_rep l hv h2
  rw [getNth_word r, hi] at gi
  simp only [Option.some.injEq] at gi
  subst gi
  rw [getNth_word r] at gj
  rcases hj : s[j]? with _ | _ | u
  · simp [hj] at gj
  · simp [hj] at gj
  · simp [hj] at gj
    subst gj
    obtain ⟨k, e1, e2⟩ := h5 j u (by rintro rfl; omega) hj
    have e3 := (rp.lay.live k u e1).1
    have e4 := (r.lay.live i t hi).1
    have e5 := r.space
    simp only [e2] at e3 e4
    refine ⟨q, z, by simp [run, h1, k1], k2, ?_⟩
    refine Eq.trans (rd_ext fun x hx => ?_) (r.lay.live i t hi).2.2.1
    rw [k4 _ (by omega), h4 _ (by omega)]

/-- C86. If no tuple lies below it, its bytes are zeroed. -/
theorem C86_lowest (l : Legal ps h d) (hv : d.isVar = true) (hr : Reach ps h d pg s) {i oi : Nat} {t : Bytes}
    (hi : s[i]? = some (some t)) (gi : Api.getNth pg ps d i = some (some oi))
    (hlow : ∀ j oj, Api.getNth pg ps d j = some (some oj) → oi ≤ oj) {op : Op} {s' : Slots}
    (hop : op = .discard i ∧ s' = s.eraseIdx i ∨ op = .update i none ∧ s' = s.set i none) :
    ∃ p z, run ps d pg [op, .zeroOut] = some (p, [1, z]) ∧ Reach ps h d p s' ∧ rd p oi t.length = List.replicate t.length 0 := by
  have r := var_rep l hv hr
  have hil := (List.getElem?_eq_some_iff.mp hi).1
  obtain ⟨p, h1, h2, h3, h4, -, h5⟩ := remove_facts l hv hr hil hop
  obtain ⟨q, z, k1, k2, k3, -⟩ := zero_after l hv h2
  have rp := var_rep l hv h2
  rw [getNth_word r, hi] at gi
  simp only [Option.some.injEq] at gi
  subst gi
  have e4 := r.lay.live i t hi
  have e5 := r.space
  have hge : word ps h pg (4 + i) + t.length ≤ Slotted.eofs ps h p := by
    refine rp.eofs_ge e4.2.1 fun k u hk => ?_
    obtain ⟨j, q1, q2, q3⟩ := h5 k u hk
    have := hlow j _ (by rw [getNth_word r, q2])
    have q4 := r.lay.disj i j t u (Ne.symm q1) hi q2
    have q5 := (r.lay.live j u q2).2.2.2.pos hv
    omega
  have hm := wAddr_mono ps h (show 4 + s'.length ≤ 4 + s.length by omega)
  refine ⟨q, z, by simp [run, h1, k1], k2, ?_⟩
  apply List.ext_getElem?
  intro x
  rw [rd_getElem?, List.getElem?_replicate]
  split
  · exact k3 _ (by omega) (by omega)
  · rfl

/-- C86. In the fixed array layout, once the free space is zeroed, two pages with the same page header and the same tuples and
no tomb stones differ at most in the bits of the bitmap behind those of the tuples: `discard_tuple_on_page` does not reset
these. -/
theorem C86_fixed (l : Legal ps h d) (hv : d.isVar = false) (ha : Reach ps h d a s) (hb : Reach ps h d b s)
    (hh : Api.readHeader b ps = Api.readHeader a ps) (hz : Api.tombCount a ps d = some 0) :
    ∃ p q z al, step ps d a .zeroOut = some (p, z) ∧ step ps d b .zeroOut = some (q, z) ∧ Reach ps h d p s ∧ Reach ps h d q s ∧
      Api.spaceAllotted a ps d = some al ∧
      ∀ x, p[x]? ≠ q[x]? → 3 * vsz ps + h + s.length / 8 ≤ x ∧ x < ps - al := by
  rcases ha.rep l.fit with r | ⟨ra, wa⟩
  · rw [r.var] at hv; cases hv
  rcases hb.rep l.fit with r | ⟨rb, wb⟩
  · rw [r.var] at hv; cases hv
  have PA : PRep ps h d a s := .inr ⟨ra, wa⟩
  have PB : PRep ps h d b s := .inr ⟨rb, wb⟩
  rw [PA.readHeader, PB.readHeader, Option.some.injEq] at hh
  obtain ⟨u1, o1, e1, e2, e3, e4, e5, e6⟩ := ra.zeroOut
  obtain ⟨u2, o2, f1, f2, f3, f4, f5, f6⟩ := rb.zeroOut
  obtain rfl : o1 = o2 := by
    cases o1 <;> cases o2 <;> simp_all
  have hsl := slotted_fix ra
  have s1 : step ps d a .zeroOut = some (u1, o1.toNat) := by simp [step, Api.zeroOut, hsl, e1]
  have s2 : step ps d b .zeroOut = some (u2, o1.toNat) := by simp [step, Api.zeroOut, hsl, f1]
  obtain ⟨p1, n1, t1, g1, ⟨-, rfl⟩, g3⟩ := reach_step l ha (op := .zeroOut) trivial
  obtain ⟨p2, n2, t2, g4, ⟨-, rfl⟩, g6⟩ := reach_step l hb (op := .zeroOut) trivial
  rw [s1] at g1; cases g1
  rw [s2] at g4; cases g4
  have hA := PA.areaStart_le
  refine ⟨u1, u2, _, _, s1, s2, g3, g6, PA.spaceAllotted, fun x hx => ?_⟩
  rw [show ps - (ps - areaStart ps h d) = areaStart ps h d by omega]
  have hw2 : wAddr ps h 2 = 3 * vsz ps + h := by unfold wAddr; omega
  simp only [areaStart, hv, Bool.false_eq_true, if_false]
  refine ⟨Nat.le_of_not_lt fun hlt => hx (e2.alike f2 (by rw [e3, f3, hh]) (.inl (by omega))), Nat.lt_of_not_le fun hge => hx ?_⟩
  by_cases h1 : Fixed.tAddr ps h d t2.length ≤ x
  · by_cases h2 : x < ps
    · rw [e5 x h1 h2, f5 x h1 h2]
    · rw [List.getElem?_eq_none (by rw [e2.base.len]; omega), List.getElem?_eq_none (by rw [f2.base.len]; omega)]
  · have hpos := ra.pos
    have e4 := fun n => Fixed.tAddr_add (ps := ps) (h := h) (d := d) 0 n
    simp only [Nat.zero_add] at e4
    have hdm := Nat.div_add_mod (x - Fixed.tAddr ps h d 0) d.size
    have hml := Nat.mod_lt (x - Fixed.tAddr ps h d 0) (show 0 < d.size by omega)
    generalize (x - Fixed.tAddr ps h d 0) / d.size = k at *
    generalize (x - Fixed.tAddr ps h d 0) % d.size = j at *
    have hk := e4 k
    rw [Nat.mul_comm] at hdm
    have hks : k < t2.length := by
      rcases Nat.lt_or_ge k t2.length with h2 | h2
      · exact h2
      · have := Fixed.tAddr_mono (ps := ps) (h := h) (d := d) h2
        omega
    have hs : t2[k]? = some t2[k] := List.getElem?_eq_getElem hks
    cases hy : t2[k] with
    | none =>
      rw [hy] at hs
      have hm := List.mem_of_getElem? hs
      simp only [PA.tombCount, tombs, Option.some.injEq, List.countP_eq_zero] at hz
      have := hz _ hm
      simp at this
    | some u =>
      rw [hy] at hs
      exact e2.alike f2 (by rw [e3, f3, hh]) (.inr ⟨k, u, hs, by omega, by omega⟩)

/-- C86. With tomb stones it is not so: a tuple of a page of the fixed array layout that is replaced by NULL stays there, all
of its bytes, also after zeroing and compaction. -/
theorem C86_tomb (l : Legal ps h d) (hv : d.isVar = false) (hr : Reach ps h d pg s) {i oi : Nat} {t : Bytes}
    (hi : s[i]? = some (some t)) (gi : Api.getNth pg ps d i = some (some oi)) :
    ∃ p z, run ps d pg [.update i none, .compact true, .zeroOut] = some (p, [1, 0, z]) ∧ Reach ps h d p (s.set i none) ∧
      rd p oi t.length = t := by
  rcases hr.rep l.fit with r | ⟨r, w⟩
  · rw [r.var] at hv; cases hv
  have hw : ExtOk d none := by intro t ht; cases ht
  have hil := (List.getElem?_eq_some_iff.mp hi).1
  have hsl := slotted_fix r
  rw [getNth_slot r hi, Option.some.injEq, Option.some.injEq] at gi
  subst gi
  obtain ⟨p, h1, r1, -⟩ := (r.update hw).1 hil
  obtain ⟨q, o, e1, r2, -, -, -, e6⟩ := r1.zeroOut
  have hrun : run ps d pg [.update i none, .compact true, .zeroOut] = some (q, [1, 0, o.toNat]) := by
    simp [run, step, Api.update, Api.compact, Api.zeroOut, hsl, h1, Fixed.compact, e1]
  refine ⟨q, o.toNat, hrun, ?_, ?_⟩
  · obtain ⟨p1, n1, t1, g1, g2, g3⟩ := reach_step l hr (op := .update i none) hw
    obtain ⟨p2, n2, t2, g4, ⟨-, -, rfl⟩, g6⟩ := reach_step l g3 (op := .compact true) trivial
    obtain ⟨p3, n3, t3, g7, ⟨-, rfl⟩, g9⟩ := reach_step l g6 (op := .zeroOut) trivial
    simp only [run, g1, g4, g7, Option.bind_eq_bind, Option.bind_some, Option.pure_def, Option.some.injEq, Prod.mk.injEq, List.cons.injEq] at hrun
    obtain ⟨rfl, rfl, -⟩ := hrun
    rcases g2 with ⟨-, -, rfl⟩ | ⟨g2, -⟩
    · exact g9
    · cases g2
  · obtain ⟨q1, q2⟩ := r.data i t hi
    have hm := Fixed.tAddr_mono (ps := ps) (h := h) (d := d) (show i + 1 ≤ s.length from hil)
    have hm0 := Fixed.tAddr_mono (ps := ps) (h := h) (d := d) (Nat.zero_le i)
    rw [Fixed.tAddr_succ] at hm
    have q3 : rd pg (Fixed.tAddr ps h d i) t.length = t := by rw [q1]; exact q2
    refine Eq.trans (rd_ext fun x hx => ?_) q3
    rw [e6 _ (by rw [List.length_set]; omega), r.update_none_low h1 _ (by omega)]

/-! Cases of the theorems of C86 -/

/-- Another way to a page with the tuples of `exHole_page`. -/
def exPlainOps : List Op := [.append (some [3, 1, 2]), .append none, .append (some [4, 7, 7, 7])]

theorem exPlain_page : ∃ pg, exPage exVar exPlainOps = some (pg, [1, 1, 1]) ∧ Reach 128 8 exVar pg exHoleSlots := by
  have hr : (exPage exVar exPlainOps).map (fun (x : Bytes × List Nat) => x.2) = some [1, 1, 1] := by decide +kernel
  cases hp : exPage exVar exPlainOps with
  | none => rw [hp] at hr; cases hr
  | some x =>
    obtain ⟨pg, rs⟩ := x
    rw [hp] at hr
    simp only [Option.map_some, Option.some.injEq] at hr
    obtain ⟨p, h1, h2⟩ := exPage_spec hp
    refine ⟨pg, by rw [hr], List.replicate 128 7, p, exPlainOps, rs, by simp, h1, ?_, h2, ?_⟩
    · intro op hop
      simp only [exPlainOps, List.mem_cons, List.not_mem_nil, or_false] at hop
      rcases hop with rfl | rfl | rfl <;> simp only [OpOk, ExtOk] <;>
        first
          | (intro t ht; cases ht; constructor <;> decide)
          | (intro t ht; cases ht)
    · rw [hr]
      exact .cons (Or.inl ⟨rfl, rfl⟩) <| .cons (Or.inl ⟨rfl, rfl⟩) <| .cons (Or.inl ⟨rfl, rfl⟩) <| .nil _

/-- `C86_slotted`: two pages with different histories and different bytes meet its hypotheses. -/
example : ∃ a b, Reach 128 8 exVar a exHoleSlots ∧ Reach 128 8 exVar b exHoleSlots ∧ Api.readHeader b 128 = Api.readHeader a 128 ∧
    a ≠ b ∧ ∀ i j ai aj bi bj, Api.getNth a 128 exVar i = some (some ai) → Api.getNth a 128 exVar j = some (some aj) →
      Api.getNth b 128 exVar i = some (some bi) → Api.getNth b 128 exVar j = some (some bj) → (ai < aj ↔ bi < bj) := by
  obtain ⟨a, ha, ra⟩ := exHole_page
  obtain ⟨b, hb, rb⟩ := exPlain_page
  have key : ((exPage exVar exHoleOps).bind fun x => (exPage exVar exPlainOps).map fun y =>
      (decide (Api.readHeader y.1 128 = Api.readHeader x.1 128), decide (x.1 = y.1))) = some (true, false) := by decide +kernel
  have ka : ((exPage exVar exHoleOps).map fun x => (Api.getNth x.1 128 exVar 0, Api.getNth x.1 128 exVar 2)) =
      some (some (some 125), some (some 119)) := by decide +kernel
  have kb : ((exPage exVar exPlainOps).map fun x => (Api.getNth x.1 128 exVar 0, Api.getNth x.1 128 exVar 2)) =
      some (some (some 125), some (some 121)) := by decide +kernel
  simp only [ha, hb, Option.bind_some, Option.map_some, Option.some.injEq, Prod.mk.injEq, decide_eq_true_eq,
    decide_eq_false_iff_not] at key ka kb
  obtain ⟨k1, k2⟩ := key
  obtain ⟨a0, a2⟩ := ka
  obtain ⟨b0, b2⟩ := kb
  have pos : ∀ i o, Api.getNth a 128 exVar i = some (some o) → i = 0 ∨ i = 2 := by
    intro i o hg
    rw [getNth_word (var_rep exVar_legal rfl ra)] at hg
    match i with
    | 0 => exact .inl rfl
    | 1 => simp [exHoleSlots] at hg
    | 2 => exact .inr rfl
    | n + 3 => simp [exHoleSlots] at hg
  refine ⟨a, b, ra, rb, k1, k2, fun i j ai aj bi bj g1 g2 g3 g4 => ?_⟩
  rcases pos i _ g1 with rfl | rfl <;> rcases pos j _ g2 with rfl | rfl <;> simp_all <;> omega

/-- `C86_left`: the tuple at index 0 of the page with a hole lies above the other one. After it was discarded and the free
space zeroed its bytes are there; `C86_lowest`: those of the tuple at index 2 are not, if it is discarded. -/
example : (do
    let (a, _) ← exPage exVar exHoleOps
    let (p, _) ← run 128 exVar a [.discard 0, .zeroOut]
    let (q, _) ← run 128 exVar a [.update 2 none, .zeroOut]
    pure (Api.getNth a 128 exVar 0, Api.getNth a 128 exVar 2, rd p 125 3, rd q 119 4)) =
    some (some (some 125), some (some 119), [3, 1, 2], [0, 0, 0, 0]) := by decide +kernel

/-- `C86_fixed` and `C86_tomb`. One page had a third tuple that was discarded; the two pages differ in the bitmap. A tuple that
was replaced by NULL is still there. -/
example : (do
    let (a, _) ← exPage exFix [.append (some [1, 2, 3, 4]), .append (some [5, 6, 7, 8]), .append (some [9, 9, 9, 9]), .discard 2, .zeroOut]
    let (b, _) ← exPage exFix [.append (some [1, 2, 3, 4]), .append (some [5, 6, 7, 8]), .zeroOut]
    let (c, _) ← exPage exFix [.append (some [1, 2, 3, 4]), .append (some [5, 6, 7, 8]), .update 0 none, .compact true, .zeroOut]
    pure (Api.tombCount a 128 exFix, (List.range 128).filter (fun i => a[i]? ≠ b[i]?), Api.getNth a 128 exFix 0, rd c 15 4)) =
    some (some 0, [11], some (some 15), [1, 2, 3, 4]) := by decide +kernel

end Props
end TS
