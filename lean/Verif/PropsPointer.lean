import Verif.PropsPage2
/-
Property theorems C72: how long the pointer returned by `get_nth_tuple_on_page`
(/repo/src/page_layout.c:236-246) stays good.
-/
namespace TS
namespace Props

variable {ps h : Nat} {d : SizeDef} {pg : Bytes} {s : Slots}

/-- The index under which the tuple of index `k` is found after a call that returned `r`, for as
long as a pointer to it obtained before the call must still be good. In the slotted layout only
discarding or replacing the tuple itself, emptying the page and a compaction that reports a move
put an end to it; in the fixed array layout everything that renumbers the tuple does too. -/
def follow (isVar : Bool) (r k : Nat) : Op → Option Nat
  | .append _ => some k
  | .insert i _ => if r = 0 ∨ k < i then some k else if isVar then some (k + 1) else none
  | .update i _ => if r ≠ 0 ∧ k = i then none else some k
  | .discard i =>
    if r = 0 ∨ k < i then some k else if i < k ∧ isVar = true then some (k - 1) else none
  | .discardAll => none
  | .discardTrailing => some k
  | .swap i j =>
    if r = 0 ∨ i = j ∨ (k ≠ i ∧ k ≠ j) then some k
    else if isVar then some (if k = i then j else i) else none
  | .compact _ => if r = 0 then some k else none
  | .zeroOut => some k
  | .setElem i _ => if k = i then none else some k
  | .writeHeader _ _ => some k

/-- Following a tuple through a history. -/
def followAll (isVar : Bool) : List Op → List Nat → Nat → Option Nat
  | op :: ops, r :: rs, k =>
    match follow isVar r k op with
    | some k' => followAll isVar ops rs k'
    | none => none
  | _, _, k => some k

theorem follow_fixed {r k k' : Nat} {op : Op} (hf : follow false r k op = some k') : k' = k := by
  cases op <;> simp [follow] at hf <;> grind

theorem getElem?_swapSlots {i j k : Nat} (hi : i < s.length) (hj : j < s.length) :
    (swapSlots s i j)[k]? = s[if k = i then j else if k = j then i else k]? := by
  have h1 : s[i]? = some s[i] := List.getElem?_eq_getElem hi
  have h2 : s[j]? = some s[j] := List.getElem?_eq_getElem hj
  simp only [swapSlots, h1, h2]
  rw [List.getElem?_set]
  by_cases hkj : j = k
  · subst hkj
    rw [if_pos rfl, if_pos (by simpa using hj)]
    by_cases hji : j = i
    · subst hji; simp
    · rw [if_neg hji, if_pos rfl, h1]
  · rw [if_neg hkj, List.getElem?_set]
    by_cases hki : i = k
    · subst hki
      rw [if_pos rfl, if_pos hi, if_pos rfl, h2]
    · rw [if_neg hki, if_neg (by omega), if_neg (by omega)]

/-- The specification of the pages agrees with the way an index is followed. -/
theorem follow_spec {v : Bool} {op : Op} {r k k' : Nat} {s' : Slots} {t : Bytes}
    (hs : SpecStep d s op r s') (hk : s[k]? = some (some t)) (hf : follow v r k op = some k') :
    s'[k']? = some (some t) := by
  have hkl : k < s.length := (List.getElem?_eq_some_iff.mp hk).1
  cases op with
  | append ext =>
    simp [follow] at hf; subst hf
    rcases hs with ⟨-, rfl⟩ | ⟨-, rfl⟩
    · rw [List.getElem?_append_left hkl]; exact hk
    · exact hk
  | insert i ext =>
    rcases hs with ⟨rfl, hi, rfl⟩ | ⟨rfl, rfl⟩
    · simp only [follow] at hf
      split at hf
      · cases hf
        rw [List.getElem?_append_left (by simp; omega), List.getElem?_take, if_pos (by omega)]
        exact hk
      · split at hf
        · cases hf
          rw [List.getElem?_append_right (by simp; omega), List.length_take,
            show k + 1 - min i s.length = (k - i) + 1 by omega, List.getElem?_cons_succ,
            List.getElem?_drop, show i + (k - i) = k by omega]
          exact hk
        · simp at hf
    · simp [follow] at hf; subst hf; exact hk
  | update i ext =>
    rcases hs with ⟨rfl, hi, rfl⟩ | ⟨rfl, rfl⟩
    · simp only [follow] at hf
      split at hf
      · simp at hf
      · cases hf
        rw [List.getElem?_set_ne (by omega)]; exact hk
    · simp [follow] at hf; subst hf; exact hk
  | discard i =>
    rcases hs with ⟨rfl, hi, rfl⟩ | ⟨rfl, hi, rfl⟩
    · simp only [follow] at hf
      split at hf
      · cases hf
        rw [List.getElem?_eraseIdx_of_lt (by omega)]; exact hk
      · split at hf
        · cases hf
          rw [List.getElem?_eraseIdx_of_ge (by omega), show k - 1 + 1 = k by omega]; exact hk
        · simp at hf
    · simp [follow] at hf; subst hf; exact hk
  | discardAll => simp [follow] at hf
  | discardTrailing =>
    simp [follow] at hf; subst hf
    obtain ⟨-, rfl⟩ := hs
    rw [TS.getElem?_dropTrailing (TS.live_lt_dropTrailing hk)]; exact hk
  | swap i j =>
    rcases hs with ⟨rfl, hi, hj, rfl⟩ | ⟨rfl, hi, rfl⟩
    · rw [getElem?_swapSlots hi hj]
      simp only [follow] at hf
      split at hf
      · cases hf
        rename_i h1
        by_cases hki : k = i
        · rw [if_pos hki]
          have : j = k := by omega
          rw [this]; exact hk
        · rw [if_neg hki, if_neg (by omega)]; exact hk
      · split at hf
        · cases hf
          by_cases hki : k = i
          · rw [if_pos hki, if_neg (by omega), if_pos rfl, ← hki]; exact hk
          · rw [if_neg hki, if_pos rfl, show j = k by omega]; exact hk
        · simp at hf
    · simp [follow] at hf; subst hf; exact hk
  | compact m =>
    obtain ⟨-, -, rfl⟩ := hs
    simp only [follow] at hf
    split at hf
    · cases hf; exact hk
    · simp at hf
  | zeroOut =>
    obtain ⟨-, rfl⟩ := hs
    simp [follow] at hf; subst hf; exact hk
  | setElem i e =>
    simp only [follow] at hf
    split at hf
    · simp at hf
    · cases hf
      rcases hs with ⟨-, -, rfl⟩ | ⟨u, u', -, -, rfl⟩
      · exact hk
      · rw [List.getElem?_set_ne (by omega)]; exact hk
  | writeHeader off bs =>
    obtain ⟨-, rfl⟩ := hs
    simp [follow] at hf; subst hf; exact hk

/-- What a call does to the offsets array of a slotted page. -/
theorem step_words (r : Slotted.Rep ps h d pg s) {op : Op} (ho : OpOk h d op) {pg' : Bytes} {n : Nat}
    (hs : step ps d pg op = some (pg', n)) {k k' : Nat} (hk : k < s.length)
    (hf : follow true n k op = some k') :
    word ps h pg' (4 + k') = word ps h pg (4 + k) := by
  have hv := slotted_var r
  cases op with
  | append ext =>
    simp [follow] at hf; subst hf
    by_cases hc : vsz ps + dataLen ext ≤ Slotted.free ps h pg s
    · obtain ⟨p, h1, -, -, -, h2, -⟩ := (r.append_at ho).1 hc
      simp [step, Api.append, hv, h1] at hs
      rw [← hs.1]; exact h2 k hk
    · simp [step, Api.append, hv, (r.append_at ho).2 (by omega)] at hs
      rw [← hs.1]
  | insert i ext =>
    by_cases hc : i ≤ s.length ∧ vsz ps + dataLen ext ≤ Slotted.free ps h pg s
    · obtain ⟨p, h1, -, -, h2, -⟩ := (r.insert_at ho).1 hc
      simp [step, Api.insert, hv, h1] at hs
      obtain ⟨rfl, rfl⟩ := hs
      simp only [follow] at hf
      split at hf
      · cases hf
        rw [h2 k (by omega) (by omega), if_neg (by omega)]
      · simp only [if_true, Option.some.injEq] at hf
        subst hf
        rw [h2 (k + 1) (by omega) (by omega), if_pos (by omega)]; rfl
    · simp [step, Api.insert, hv, (r.insert_at ho).2 hc] at hs
      obtain ⟨rfl, rfl⟩ := hs
      simp [follow] at hf; subst hf; rfl
  | update i ext =>
    by_cases hc : Slotted.UpdRoom ps h pg s i ext
    · obtain ⟨p, h1, -, -, h2, -⟩ := (r.update_at ho).1 hc
      simp [step, Api.update, hv, h1] at hs
      obtain ⟨rfl, rfl⟩ := hs
      simp only [follow] at hf
      split at hf
      · simp at hf
      · cases hf
        exact h2 k (by omega) hk
    · simp [step, Api.update, hv, (r.update_at ho).2 hc] at hs
      obtain ⟨rfl, rfl⟩ := hs
      simp [follow] at hf; subst hf; rfl
  | discard i =>
    by_cases hc : i < s.length
    · obtain ⟨p, h1, -, -, h2⟩ := (r.discard_at i).1 hc
      simp [step, Api.discard, hv, h1] at hs
      obtain ⟨rfl, rfl⟩ := hs
      simp only [follow] at hf
      split at hf
      · cases hf
        rw [h2 k (by omega), if_pos (by omega)]
      · split at hf
        · cases hf
          rw [h2 (k - 1) (by omega), if_neg (by omega), show k - 1 + 1 = k by omega]
        · simp at hf
    · simp [step, Api.discard, hv, (r.discard_at i).2 hc] at hs
      obtain ⟨rfl, rfl⟩ := hs
      simp [follow] at hf; subst hf; rfl
  | discardAll => simp [follow] at hf
  | discardTrailing =>
    simp [follow] at hf; subst hf
    obtain ⟨p, h1, -, -, h2⟩ := r.discardTrailing_at
    simp [step, Api.discardTrailing, hv, h1] at hs
    rw [← hs.1]; exact h2 k
  | swap i j =>
    by_cases hc : i < s.length ∧ j < s.length
    · obtain ⟨p, h1, -, -, h2⟩ := (r.swap_at i j).1 hc
      simp [step, Api.swap, hv, h1] at hs
      obtain ⟨rfl, rfl⟩ := hs
      simp only [follow] at hf
      split at hf
      · cases hf
        rename_i h3
        rw [h2 k hk]
        by_cases hki : k = i
        · rw [if_pos hki, show j = k by omega]
        · rw [if_neg hki, if_neg (by omega)]
      · simp only [if_true, Option.some.injEq] at hf
        subst hf
        by_cases hki : k = i
        · rw [if_pos hki, h2 j hc.2, if_neg (by omega), if_pos rfl, hki]
        · rw [if_neg hki, h2 i hc.1, if_pos rfl, show j = k by omega]
    · simp only [step, Api.swap, hv, if_true, (r.swap_at i j).2 hc] at hs
      simp at hs
      obtain ⟨rfl, rfl⟩ := hs
      simp [follow] at hf; subst hf; rfl
  | compact mem =>
    simp only [follow] at hf
    split at hf
    · cases hf
      rename_i hn
      cases mem with
      | false =>
        simp [step, Api.compact, hv, r.tupleCount] at hs
        rw [← hs.1]
      | true =>
        obtain ⟨p, b, h1, -, -, -, -, h2, -⟩ := r.compact_at
        simp [step, Api.compact, hv, h1] at hs
        obtain ⟨rfl, rfl⟩ := hs
        have hb : b = false := by cases b <;> simp_all
        apply Classical.byContradiction
        intro hne
        have := h2.mpr ⟨k, hk, hne⟩
        rw [hb] at this; simp at this
    · simp at hf
  | zeroOut =>
    simp [follow] at hf; subst hf
    rcases Nat.eq_zero_or_pos (Slotted.free ps h pg s) with h0 | h0
    · simp [step, Api.zeroOut, hv, r.zeroOut.2 h0] at hs
      rw [← hs.1]
    · obtain ⟨p, h1, h2, -, -, -, h3⟩ := r.zeroOut.1 h0
      simp [step, Api.zeroOut, hv, h1] at hs
      rw [← hs.1]
      unfold word
      congr 1
      apply List.ext_getElem?
      intro j
      rw [rd_getElem?, rd_getElem?]
      split
      · have hm := wAddr_mono ps h (show 4 + k + 1 ≤ 4 + s.length by omega)
        have := wAddr_succ ps h (4 + k)
        exact h3 _ (by omega)
      · rfl
  | setElem i e =>
    simp only [follow] at hf
    split at hf
    · simp at hf
    · cases hf
      rcases r.setInPlace_at i ho with ⟨t, p, b, t', h1, h2, h3, h4, h5, h6⟩ | ⟨h1, h2⟩
      · simp [step, Api.setInPlace, hv, h2] at hs
        rw [← hs.1]; exact h6 k hk
      · simp [step, Api.setInPlace, hv, h2] at hs
        rw [← hs.1]
  | writeHeader off bs =>
    simp [follow] at hf; subst hf
    obtain ⟨p, h1, -, -, h2⟩ := (show PRep ps h d pg s from Or.inl r).writeHeader ho
    simp [step, h1] at hs
    rw [← hs.1, h2]
    unfold word
    have := lt_wAddr ps h (4 + k)
    simp only [OpOk] at ho
    have := wAddr_mono ps h (show 0 ≤ 4 + k by omega)
    rw [rd_wr_disj _ _ _ _ _ (.inr (by simp only [wAddr] at *; omega))]

/-- Offset of each tuple of a fixed array page. -/
theorem getNth_slot (r : Fixed.Rep ps h d pg s) {i : Nat} {t : Bytes} (hi : s[i]? = some (some t)) :
    Api.getNth pg ps d i = some (some (Fixed.tAddr ps h d i)) := by
  have hj := (List.getElem?_eq_some_iff.mp hi).1
  have hle := r.le
  simp only [Api.getNth, slotted_fix r, Bool.false_eq_true, if_false, Fixed.getNth, r.tupleCount,
    Option.bind_eq_bind, Option.bind_some]
  rw [if_neg (by omega), Fixed.offBits_eq r.base]
  simp [r.getBit hi, Fixed.offIth_eq r.base r.pos (show i ≤ Fixed.cap ps h d by omega)]

theorem PRep.step_follow (r : PRep ps h d pg s) {op : Op} (ho : OpOk h d op) {pg' : Bytes} {n : Nat}
    (hs : step ps d pg op = some (pg', n)) :
    ∃ s', SpecStep d s op n s' ∧ PRep ps h d pg' s' ∧ ∀ k k' t, s[k]? = some (some t) →
      follow d.isVar n k op = some k' →
      s'[k']? = some (some t) ∧ Api.getNth pg' ps d k' = Api.getNth pg ps d k := by
  obtain ⟨p, m, s', h1, h2, h3, -⟩ := r.step ho
  rw [hs] at h1
  cases h1
  refine ⟨s', h2, h3, ?_⟩
  intro k k' t hk hf
  have hk' := follow_spec h2 hk hf
  refine ⟨hk', ?_⟩
  rcases r with r | ⟨r, -⟩
  · rcases h3 with r' | ⟨r', -⟩
    · rw [show d.isVar = true from r.var] at hf
      rw [getNth_word r, getNth_word r', hk, hk']
      simp only [step_words r ho hs (List.getElem?_eq_some_iff.mp hk).1 hf]
    · have h5 := r.var
      have h6 := r'.fixed
      rw [h5] at h6; cases h6
  · rcases h3 with r' | ⟨r', -⟩
    · have h5 := r.fixed
      have h6 := r'.var
      rw [h5] at h6; cases h6
    · rw [show d.isVar = false from r.fixed] at hf
      have := follow_fixed hf
      subst this
      rw [getNth_slot r hk, getNth_slot r' hk']

theorem PRep.run_follow (r : PRep ps h d pg s) {ops : List Op} (ho : ∀ op ∈ ops, OpOk h d op)
    {pg' : Bytes} {rs : List Nat} (hs : run ps d pg ops = some (pg', rs)) :
    ∃ s', SpecRun d s ops rs s' ∧ PRep ps h d pg' s' ∧ ∀ k k' t, s[k]? = some (some t) →
      followAll d.isVar ops rs k = some k' →
      s'[k']? = some (some t) ∧ Api.getNth pg' ps d k' = Api.getNth pg ps d k := by
  induction ops generalizing pg s rs with
  | nil =>
    simp only [run, Option.some.injEq, Prod.mk.injEq] at hs
    obtain ⟨rfl, rfl⟩ := hs
    refine ⟨s, .nil s, r, ?_⟩
    intro k k' t hk hf
    simp only [followAll, Option.some.injEq] at hf
    subst hf
    exact ⟨hk, rfl⟩
  | cons op ops ih =>
    simp only [run, Option.bind_eq_bind] at hs
    cases h1 : step ps d pg op with
    | none => rw [h1] at hs; simp at hs
    | some x =>
      obtain ⟨p, n⟩ := x
      rw [h1] at hs
      simp only [Option.bind_some] at hs
      cases h2 : run ps d p ops with
      | none => rw [h2] at hs; simp at hs
      | some y =>
        obtain ⟨q, rs'⟩ := y
        rw [h2] at hs
        simp only [Option.bind_some, Option.pure_def, Option.some.injEq, Prod.mk.injEq] at hs
        obtain ⟨rfl, rfl⟩ := hs
        obtain ⟨s1, a1, a2, a3⟩ := PRep.step_follow r (ho op (by simp)) h1
        obtain ⟨s2, b1, b2, b3⟩ := ih a2 (fun o hm => ho o (by simp [hm])) h2
        refine ⟨s2, .cons a1 b1, b2, ?_⟩
        intro k k' t hk hf
        simp only [followAll] at hf
        cases hfo : follow d.isVar n k op with
        | none => rw [hfo] at hf; simp at hf
        | some k1 =>
          rw [hfo] at hf
          obtain ⟨c1, c2⟩ := a3 k k1 t hk hfo
          obtain ⟨e1, e2⟩ := b3 k1 k' t c1 hf
          exact ⟨e1, by rw [e2, c2]⟩

/-! ### C72 -/

/-- C72: take the pointer `get_nth_tuple_on_page` returns for a tuple of a reachable page, and let
any history of calls follow. As long as `follow` can follow the tuple through the calls (with the
values they return), the same address still holds the bytes of the tuple, and it is what
`get_nth_tuple_on_page` returns for the index the tuple has by then. -/
theorem C72_history (l : Legal ps h d) (hr : Reach ps h d pg s) {ops : List Op}
    (ho : ∀ op ∈ ops, OpOk h d op) {pg' : Bytes} {rs : List Nat}
    (hs : run ps d pg ops = some (pg', rs)) {k k' o : Nat} {t : Bytes}
    (hg : Api.getNth pg ps d k = some (some o)) (ht : lookup s k = some t)
    (hf : followAll d.isVar ops rs k = some k') :
    Api.getNth pg' ps d k' = some (some o) ∧ Api.readNth pg' ps d k' = some (some t) ∧
      load pg' o t.length = some t := by
  obtain ⟨s', -, h2, h3⟩ := PRep.run_follow (hr.rep l.fit) ho hs
  obtain ⟨h4, h5⟩ := h3 k k' t (lookup_eq_some.mp ht) hf
  rw [hg] at h5
  refine ⟨h5, by rw [h2.readNth, lookup_some h4], ?_⟩
  rcases h2.getNth k' with ⟨o', t', g1, g2, g3, g4, -⟩ | ⟨g1, -⟩
  · rw [h5] at g1
    cases g1
    rw [h4] at g2
    cases g2
    rw [load_eq g3, g4]
  · rw [h5] at g1; cases g1

/-- C72, a single call. -/
theorem C72_call (l : Legal ps h d) (hr : Reach ps h d pg s) {op : Op} (ho : OpOk h d op)
    {pg' : Bytes} {r : Nat} (hs : step ps d pg op = some (pg', r)) {k k' o : Nat} {t : Bytes}
    (hg : Api.getNth pg ps d k = some (some o)) (ht : lookup s k = some t)
    (hf : follow d.isVar r k op = some k') :
    Api.getNth pg' ps d k' = some (some o) ∧ Api.readNth pg' ps d k' = some (some t) ∧
      load pg' o t.length = some t :=
  C72_history l hr (ops := [op]) (rs := [r]) (by simpa using ho) (by simp [run, hs]) hg ht
    (by simp [followAll, hf])

/-- C72: on fixed array pages the address of a tuple is a matter of its index alone. Whatever two
pages with the same size, header size and tuple definition have been through, a tuple of index
`i` is at the same place in both. -/
theorem C72_fixed (l : Legal ps h d) (hv : d.isVar = false) {pg1 pg2 : Bytes} {s1 s2 : Slots}
    (h1 : Reach ps h d pg1 s1) (h2 : Reach ps h d pg2 s2) {i o1 o2 : Nat}
    (g1 : Api.getNth pg1 ps d i = some (some o1)) (g2 : Api.getNth pg2 ps d i = some (some o2)) :
    o1 = o2 := by
  have key : ∀ {pg s o}, Reach ps h d pg s → Api.getNth pg ps d i = some (some o) →
      o = Fixed.tAddr ps h d i := by
    intro pg s o hr hg
    have R := hr.rep l.fit
    rcases R.getNth i with ⟨o', t, e1, e2, -⟩ | ⟨e1, -⟩
    · rcases R with r | ⟨r, -⟩
      · have := r.var; rw [hv] at this; cases this
      · rw [getNth_slot r e2] at hg
        simpa using hg.symm
    · rw [hg] at e1; cases e1
  rw [key h1 g1, key h2 g2]

/-- C72: and the addresses of the tuples of a fixed array page are one tuple size apart. -/
theorem C72_stride (l : Legal ps h d) (hv : d.isVar = false) (hr : Reach ps h d pg s) {i j oi oj : Nat}
    (hij : i ≤ j) (gi : Api.getNth pg ps d i = some (some oi))
    (gj : Api.getNth pg ps d j = some (some oj)) : oj = oi + (j - i) * d.size := by
  have R := hr.rep l.fit
  rcases R with r | ⟨r, hw⟩
  · have := r.var; rw [hv] at this; cases this
  · have key : ∀ k o, Api.getNth pg ps d k = some (some o) → o = Fixed.tAddr ps h d k := by
      intro k o hg
      have R : PRep ps h d pg s := Or.inr ⟨r, hw⟩
      rcases R.getNth k with ⟨o', t, e1, e2, -⟩ | ⟨e1, -⟩
      · rw [getNth_slot r e2] at hg; simpa using hg.symm
      · rw [hg] at e1; cases e1
    rw [key i oi gi, key j oj gj]
    simp only [Fixed.tAddr]
    rw [Nat.sub_mul]
    have := Nat.mul_le_mul_right d.size hij
    omega

/-- C72: an element update in place does not move the tuple it changes, whatever it answers. -/
theorem C72_set_element (l : Legal ps h d) (hr : Reach ps h d pg s) {i : Nat} {e : Api.Edit}
    (he : EditOk d e) :
    ∃ pg' b, Api.setInPlace pg ps d i e = some (pg', b) ∧
      ∀ j, Api.getNth pg' ps d j = Api.getNth pg ps d j := by
  have R := hr.rep l.fit
  rcases R with r | ⟨r, hw⟩
  · rcases r.setInPlace_at i he with ⟨t, p, b, t', h1, h2, h3, h4, h5, h6⟩ | ⟨h1, h2⟩
    · refine ⟨p, b, by simpa [Api.setInPlace, slotted_var r] using h2, ?_⟩
      intro j
      rw [getNth_word r, getNth_word h4, List.getElem?_set]
      by_cases hij : i = j
      · subst hij
        rw [if_pos rfl, if_pos (List.getElem?_eq_some_iff.mp h1).1, h1]
        simp only [h6 i (List.getElem?_eq_some_iff.mp h1).1]
      · rw [if_neg hij]
        rcases hs : s[j]? with _ | _ | u
        · rfl
        · rfl
        · simp only [h6 j (List.getElem?_eq_some_iff.mp hs).1]
    · exact ⟨pg, false, by simpa [Api.setInPlace, slotted_var r] using h2, fun _ => rfl⟩
  · have R : PRep ps h d pg s := Or.inr ⟨r, hw⟩
    rcases R.setInPlace i he with ⟨t, p, b, t', h1, h2, h3, h4, h5⟩ | ⟨h1, h2⟩
    · refine ⟨p, b, h2, ?_⟩
      rcases h4 with r' | ⟨r', hw'⟩
      · have h6 := r.fixed
        have h7 := r'.var
        rw [h6] at h7; cases h7
      intro j
      have R' : PRep ps h d p (s.set i (some t')) := Or.inr ⟨r', hw'⟩
      rcases R.getNth j with ⟨o, u, e1, e2, -⟩ | ⟨e1, e2⟩
      · obtain ⟨w, e3⟩ : ∃ w, (s.set i (some t'))[j]? = some (some w) := by
          rw [List.getElem?_set]
          split
          · rename_i hij
            subst hij
            exact ⟨t', by simp [(List.getElem?_eq_some_iff.mp e2).1]⟩
          · exact ⟨u, e2⟩
        rw [getNth_slot r e2, getNth_slot r' e3]
      · rw [e1]
        rcases R'.getNth j with ⟨o', u', f1, f2, -⟩ | ⟨f1, -⟩
        · exfalso
          rw [List.getElem?_set] at f2
          split at f2
          · rename_i hij
            subst hij
            exact e2 _ h1
          · exact e2 _ f2
        · exact f1
    · exact ⟨pg, false, h2, fun _ => rfl⟩

/-- C72: a tuple of a slotted page that is replaced by one that is not longer stays where it is,
provided some other tuple lies at a lower address. -/
theorem C72_replace (l : Legal ps h d) (hv : d.isVar = true) (hr : Reach ps h d pg s) {i j o o' : Nat}
    {u t : Bytes} (hu : lookup s i = some u) (ht : WellFormed d t) (hle : t.length ≤ u.length)
    (hg : Api.getNth pg ps d i = some (some o)) (hj : Api.getNth pg ps d j = some (some o'))
    (hlow : o' < o) :
    ∃ pg', Api.update pg ps d i (some t) = some (pg', true) ∧
      Api.getNth pg' ps d i = some (some o) ∧ load pg' o t.length = some t := by
  have r := var_rep l hv hr
  have hs := lookup_eq_some.mp hu
  have hil := (List.getElem?_eq_some_iff.mp hs).1
  have hw : ExtOk d (some t) := by intro x hx; cases hx; exact ht
  have hroom : Slotted.UpdRoom ps h pg s i (some t) := by
    simp only [Slotted.UpdRoom, hs]
    split
    · omega
    · exact Or.inl hle
  obtain ⟨pg', h1, h2, -, -, h3⟩ := (r.update_at hw).1 hroom
  have ho : o = word ps h pg (4 + i) := by
    rw [getNth_word r, hs] at hg; simpa using hg.symm
  have hlow' : Slotted.eofs ps h pg ≤ o' := by
    rw [getNth_word r] at hj
    rcases hsj : s[j]? with _ | _ | w
    · simp [hsj] at hj
    · simp [hsj] at hj
    · simp [hsj] at hj
      rw [← hj]; exact (r.live hsj).1
  have h4 := h3 u t hs rfl (by omega) hle
  have hsi : (s.set i (some t))[i]? = some (some t) := by simp [hil]
  have h5 : Api.getNth pg' ps d i = some (some o) := by
    rw [getNth_word h2, hsi, ho]
    simp only [h4]
  refine ⟨pg', by simpa [Api.update, slotted_var r] using h1, h5, ?_⟩
  have hlv := h2.live hsi
  have hlen := h2.base.len
  rw [ho, ← h4, load_eq (by omega), hlv.2.2.1]

/-- C72: where the tuple of an insertion into a slotted page is put: right below all the others
(at the end of the page if there are none). -/
theorem C72_new (l : Legal ps h d) (hv : d.isVar = true) (hr : Reach ps h d pg s) {i : Nat} {t : Bytes}
    (ht : WellFormed d t) {pg' : Bytes} (hs : Api.insert pg ps d i (some t) = some (pg', true)) :
    ∃ o, Api.getNth pg' ps d i = some (some o) ∧
      (∀ j o', Api.getNth pg ps d j = some (some o') → o + t.length ≤ o') ∧
      ((∃ j, Api.getNth pg ps d j = some (some (o + t.length))) ∨
        (o + t.length = ps ∧ ∀ j, Api.getNth pg ps d j = some none)) := by
  have r := var_rep l hv hr
  have hw : ExtOk d (some t) := by intro x hx; cases hx; exact ht
  by_cases hc : i ≤ s.length ∧ vsz ps + dataLen (some t) ≤ Slotted.free ps h pg s
  · obtain ⟨p, h1, h2, -, -, h3⟩ := (r.insert_at hw).1 hc
    simp [Api.insert, slotted_var r, h1] at hs
    subst hs
    have hsi : (s.take i ++ some t :: s.drop i)[i]? = some (some t) := by
      rw [List.getElem?_append_right (by simp; omega), List.length_take,
        show i - min i s.length = 0 by omega]; rfl
    have hfree := hc.2
    simp only [dataLen, Slotted.free] at hfree
    have he : Slotted.eofs ps h pg - t.length + t.length = Slotted.eofs ps h pg := by omega
    refine ⟨Slotted.eofs ps h pg - t.length, ?_, ?_, ?_⟩
    · rw [getNth_word h2, hsi]
      simp only [h3 t rfl]
    · intro j o' hj
      rw [getNth_word r] at hj
      rcases hsj : s[j]? with _ | _ | w
      · simp [hsj] at hj
      · simp [hsj] at hj
      · simp [hsj] at hj
        have := (r.live hsj).1
        omega
    · rw [he]
      rcases r.tight with g1 | ⟨j, w, g1, g2⟩
      · right
        refine ⟨g1, ?_⟩
        intro j
        rw [getNth_word r]
        rcases hsj : s[j]? with _ | _ | w
        · rfl
        · rfl
        · have e1 := r.live hsj
          have e2 := e1.2.2.2.1.pos hv
          omega
      · left
        exact ⟨j, by rw [getNth_word r, g1]; simp [g2]⟩
  · simp [Api.insert, slotted_var r, (r.insert_at hw).2 hc] at hs

/-- C72: `run_page_compaction` moves tuples only towards the end of the page, and never past one
another. -/
theorem C72_compact (l : Legal ps h d) (hv : d.isVar = true) (hr : Reach ps h d pg s) (mem : Bool) :
    ∃ pg' b, Api.compact pg ps d mem = some (pg', b) ∧
      (∀ i o, Api.getNth pg ps d i = some (some o) →
        ∃ o', Api.getNth pg' ps d i = some (some o') ∧ o ≤ o') ∧
      (∀ i j oi oj oi' oj', Api.getNth pg ps d i = some (some oi) →
        Api.getNth pg ps d j = some (some oj) → Api.getNth pg' ps d i = some (some oi') →
        Api.getNth pg' ps d j = some (some oj') → oi < oj → oi' < oj') := by
  have r := var_rep l hv hr
  cases mem with
  | false =>
    refine ⟨pg, false, (C14_no_memory l hr).1, fun i o hg => ⟨o, hg, Nat.le_refl _⟩, ?_⟩
    intro i j oi oj oi' oj' h1 h2 h3 h4 hlt
    rw [h1] at h3
    rw [h2] at h4
    simp at h3 h4
    omega
  | true =>
    obtain ⟨pg', b, h1, h2, -, -, -, -, h3, h4⟩ := r.compact_at
    have key : ∀ i o, Api.getNth pg ps d i = some (some o) →
        ∃ t, s[i]? = some (some t) ∧ o = word ps h pg (4 + i) ∧
          Api.getNth pg' ps d i = some (some (word ps h pg' (4 + i))) := by
      intro i o hg
      rw [getNth_word r] at hg
      rcases hsi : s[i]? with _ | _ | w
      · simp [hsi] at hg
      · simp [hsi] at hg
      · simp [hsi] at hg
        exact ⟨w, rfl, hg.symm, by rw [getNth_word h2, hsi]⟩
    refine ⟨pg', b, by simpa [Api.compact, slotted_var r] using h1, ?_, ?_⟩
    · intro i o hg
      obtain ⟨t, e1, e2, e3⟩ := key i o hg
      exact ⟨_, e3, by rw [e2]; exact h3 i t e1⟩
    · intro i j oi oj oi' oj' g1 g2 g3 g4 hlt
      obtain ⟨t, e1, e2, e3⟩ := key i oi g1
      obtain ⟨u, f1, f2, f3⟩ := key j oj g2
      rw [e3] at g3
      rw [f3] at g4
      simp at g3 g4
      have := h4 i j t u e1 f1 (by omega)
      omega

/-! Cases of the theorems of C72 -/

/-- The page with a hole, together with the bytes it has. -/
theorem exHole_page : ∃ pg, exPage exVar exHoleOps = some (pg, [1, 1, 1, 1]) ∧
    Reach 128 8 exVar pg exHoleSlots := by
  have hr : (exPage exVar exHoleOps).map (fun (x : Bytes × List Nat) => x.2) =
      some [1, 1, 1, 1] := by decide +kernel
  cases hp : exPage exVar exHoleOps with
  | none => rw [hp] at hr; cases hr
  | some x =>
    obtain ⟨pg, rs⟩ := x
    rw [hp] at hr
    simp only [Option.map_some, Option.some.injEq] at hr
    obtain ⟨p, h1, h2⟩ := exPage_spec hp
    refine ⟨pg, by rw [hr], List.replicate 128 7, p, exHoleOps, rs, by simp, h1, ?_, h2, ?_⟩
    · intro op hop
      simp only [exHoleOps, List.mem_cons, List.not_mem_nil, or_false] at hop
      rcases hop with rfl | rfl | rfl | rfl <;> simp only [OpOk, ExtOk] <;>
        first
          | (intro t ht; cases ht; constructor <;> decide)
          | (intro t ht; cases ht)
    · rw [hr]
      exact .cons (Or.inl ⟨rfl, rfl⟩) <| .cons (Or.inl ⟨rfl, rfl⟩) <|
        .cons (Or.inl ⟨rfl, rfl⟩) <| .cons (Or.inl ⟨rfl, by decide, rfl⟩) <| .nil _

/-- Where the pages of `exHole_page` have their tuples before and after a history. -/
def exMoves (ops : List Op) : Option (List Nat × List (Option Nat) × List (Option Nat)) := do
  let (pg, _) ← exPage exVar exHoleOps
  let a ← [0, 1, 2, 3].mapM (Api.getNth pg 128 exVar)
  let (pg', rs) ← run 128 exVar pg ops
  let b ← [0, 1, 2, 3].mapM (Api.getNth pg' 128 exVar)
  pure (rs, a, b)

theorem exMoves_spec {ops : List Op} {rs : List Nat} {a0 a1 a2 a3 b0 b1 b2 b3 : Option Nat}
    (hm : exMoves ops = some (rs, [a0, a1, a2, a3], [b0, b1, b2, b3])) :
    ∃ pg pg', Reach 128 8 exVar pg exHoleSlots ∧ run 128 exVar pg ops = some (pg', rs) ∧
      Api.getNth pg 128 exVar 0 = some a0 ∧ Api.getNth pg 128 exVar 2 = some a2 ∧
      Api.getNth pg' 128 exVar 0 = some b0 ∧ Api.getNth pg' 128 exVar 2 = some b2 := by
  obtain ⟨pg, hp, hr⟩ := exHole_page
  simp only [exMoves, hp, Option.bind_eq_bind, Option.bind_some] at hm
  have key : ∀ (q : Bytes) x0 x1 x2 x3,
      [0, 1, 2, 3].mapM (Api.getNth q 128 exVar) = some [x0, x1, x2, x3] →
      Api.getNth q 128 exVar 0 = some x0 ∧ Api.getNth q 128 exVar 2 = some x2 := by
    intro q x0 x1 x2 x3 hq
    simp only [List.mapM_cons, List.mapM_nil, Option.bind_eq_bind, Option.pure_def] at hq
    cases e0 : Api.getNth q 128 exVar 0 <;> cases e1 : Api.getNth q 128 exVar 1 <;>
      cases e2 : Api.getNth q 128 exVar 2 <;> cases e3 : Api.getNth q 128 exVar 3 <;>
      simp [e0, e1, e2, e3] at hq
    obtain ⟨rfl, rfl, rfl, rfl⟩ := hq
    exact ⟨rfl, rfl⟩
  cases h1 : [0, 1, 2, 3].mapM (Api.getNth pg 128 exVar) with
  | none => rw [h1] at hm; simp at hm
  | some a =>
    rw [h1] at hm
    cases h2 : run 128 exVar pg ops with
    | none => rw [h2] at hm; simp at hm
    | some y =>
      obtain ⟨pg', rs'⟩ := y
      rw [h2] at hm
      simp only [Option.bind_some] at hm
      cases h3 : [0, 1, 2, 3].mapM (Api.getNth pg' 128 exVar) with
      | none => rw [h3] at hm; simp at hm
      | some b =>
        rw [h3] at hm
        simp only [Option.bind_some, Option.pure_def, Option.some.injEq, Prod.mk.injEq] at hm
        obtain ⟨rfl, rfl, rfl⟩ := hm
        obtain ⟨k1, k2⟩ := key pg _ _ _ _ h1
        obtain ⟨k3, k4⟩ := key pg' _ _ _ _ h3
        exact ⟨pg, pg', hr, h2, k1, k2, k3, k4⟩

/-- C72: the proviso of `C72_replace` is needed. The lowest tuple of a slotted page moves even when
it is replaced by one of the same length, if there is a hole right above it. -/
theorem C72_replace_may_move : ∃ pg pg' o o', Reach 128 8 exVar pg exHoleSlots ∧
    lookup exHoleSlots 2 = some [4, 7, 7, 7] ∧ WellFormed exVar [4, 1, 1, 1] ∧
    Api.update pg 128 exVar 2 (some [4, 1, 1, 1]) = some (pg', true) ∧
    Api.getNth pg 128 exVar 2 = some (some o) ∧ Api.getNth pg' 128 exVar 2 = some (some o') ∧
    o ≠ o' := by
  obtain ⟨pg, pg', h1, h2, -, h4, -, h6⟩ := exMoves_spec (ops := [.update 2 (some [4, 1, 1, 1])])
    (rs := [1]) (a0 := some 125) (a1 := none) (a2 := some 119) (a3 := none) (b0 := some 125)
    (b1 := none) (b2 := some 121) (b3 := none) (by decide +kernel)
  refine ⟨pg, pg', 119, 121, h1, by decide, by constructor <;> decide, ?_, h4, h6, by decide⟩
  simp only [run, step, Option.bind_eq_bind] at h2
  cases hu : Api.update pg 128 exVar 2 (some [4, 1, 1, 1]) with
  | none => rw [hu] at h2; simp at h2
  | some x =>
    obtain ⟨q, b⟩ := x
    rw [hu] at h2
    cases b <;> simp at h2 ⊢
    exact h2

/-- `C72_history`: a tuple followed through seven calls that renumber it twice. -/
example : ∃ pg pg' rs o, ∃ ops : List Op, Legal 128 8 exVar ∧ Reach 128 8 exVar pg exHoleSlots ∧
    ops.length = 7 ∧ (∀ op ∈ ops, OpOk 8 exVar op) ∧ run 128 exVar pg ops = some (pg', rs) ∧
    Api.getNth pg 128 exVar 2 = some (some o) ∧ lookup exHoleSlots 2 = some [4, 7, 7, 7] ∧
    followAll exVar.isVar ops rs 2 = some 2 := by
  obtain ⟨pg, pg', h1, h2, -, h4, -, h6⟩ := exMoves_spec
    (ops := [.update 0 (some [3, 1, 1]), .insert 0 (some [2, 5]), .discard 2, .append none,
      .swap 0 1, .zeroOut, .discardTrailing])
    (rs := [1, 1, 1, 1, 1, 1, 1]) (a0 := some 125) (a1 := none) (a2 := some 119) (a3 := none)
    (b0 := some 125) (b1 := some 117) (b2 := some 119) (b3 := none) (by decide +kernel)
  refine ⟨pg, pg', _, 119, _, ⟨by decide, by decide, by decide, by decide, by decide⟩, h1, rfl, ?_,
    h2, h4, by decide, by decide⟩
  intro op hop
  simp only [List.mem_cons, List.not_mem_nil, or_false] at hop
  rcases hop with rfl | rfl | rfl | rfl | rfl | rfl | rfl <;> simp only [OpOk, ExtOk] <;>
    first
      | (intro t ht; cases ht; constructor <;> decide)
      | (intro t ht; cases ht)

/-- `C72_replace`, `C72_new`: the tuple of index 0 has a tuple below it. -/
example : ∃ pg pg', Reach 128 8 exVar pg exHoleSlots ∧ Api.getNth pg 128 exVar 0 = some (some 125) ∧
    Api.getNth pg 128 exVar 2 = some (some 119) ∧ WellFormed exVar [2, 5] ∧
    run 128 exVar pg [.insert 1 (some [2, 5])] = some (pg', [1]) := by
  obtain ⟨pg, pg', h1, h2, h3, h4, -, -⟩ := exMoves_spec (ops := [.insert 1 (some [2, 5])])
    (rs := [1]) (a0 := some 125) (a1 := none) (a2 := some 119) (a3 := none) (b0 := some 125)
    (b1 := some 117) (b2 := none) (b3 := some 119) (by decide +kernel)
  exact ⟨pg, pg', h1, h3, h4, by constructor <;> decide, h2⟩

/-- `C72_fixed`, `C72_stride`: a page with two tuples. -/
example : ∃ pg, Legal 128 8 exFix ∧ exFix.isVar = false ∧ Reach 128 8 exFix pg exFixSlots ∧
    (∃ o, Api.getNth pg 128 exFix 1 = some (some o)) ∧
    ∃ o, Api.getNth pg 128 exFix 2 = some (some o) := by
  obtain ⟨pg, hp⟩ := exFix_reach
  have l : Legal 128 8 exFix := ⟨by decide, by decide, by decide, by decide, by decide⟩
  rcases hp.rep l.fit with r | ⟨r, -⟩
  · exact absurd r.var (by decide)
  · exact ⟨pg, l, rfl, hp, ⟨_, getNth_slot r (t := [2, 9, 9, 9]) rfl⟩,
      ⟨_, getNth_slot r (t := [3, 8, 8, 8]) rfl⟩⟩

end Props
end TS
