import Verif.TwinRun
import Verif.ApiSpace
import Verif.PropsPage
/-
C84: what the memory held before `init_page`, and the page.
-/
namespace TS
namespace Props

variable {ps h : Nat} {d : SizeDef} {a b pg m1 m2 p1 p2 : Bytes} {s : Slots}

/-- Byte `i` of the page lies in free space (of which there are `f` bytes, right behind the slots) or in the slot of a
tomb stone of the fixed array layout; `al` is the allotted space of the page, `s` what is on it. -/
def Unused (ps : Nat) (d : SizeDef) (s : Slots) (al f i : Nat) : Prop :=
  (ps - al + s.length * (Api.overhead ps d + if d.isVar then 0 else d.size) ≤ i ∧
    i < ps - al + s.length * (Api.overhead ps d + if d.isVar then 0 else d.size) + f) ∨
  (d.isVar = false ∧ ∃ k, s[k]? = some none ∧ ps - al + k * d.size ≤ i ∧ i < ps - al + k * d.size + d.size)

theorem ptwin_left (t : PTwin ps h d a b s) : PRep ps h d a s := by
  rcases t with t | ⟨t, hw⟩
  · exact .inl t.1
  · exact .inr ⟨t.ra, hw⟩

theorem ptwin_right (t : PTwin ps h d a b s) : PRep ps h d b s := by
  rcases t with t | ⟨t, hw⟩
  · exact .inl (t.1.twin t.2)
  · exact .inr ⟨t.rb, hw⟩

theorem ptwin_agree (t : PTwin ps h d a b s) :
    freeBytes ps h d b s = freeBytes ps h d a s ∧
    ∀ i, a[i]? ≠ b[i]? → Unused ps d s (ps - areaStart ps h d) (freeBytes ps h d a s) i := by
  have hA := (ptwin_left t).areaStart_le
  unfold freeBytes Unused
  rw [show ps - (ps - areaStart ps h d) = areaStart ps h d by omega]
  unfold areaStart at *
  rcases t with t | ⟨t, -⟩
  · obtain ⟨r, w⟩ := t
    have e1 := r.space
    have e4 := wAddr_add ps h 4 s.length
    simp only [r.var, if_true, Api.overhead, slotted_var r, Slotted.overhead, Nat.add_zero]
    refine ⟨by unfold Slotted.free; rw [w.eofs (by omega)], fun i hi => .inl ?_⟩
    by_cases hc : i < wAddr ps h (4 + s.length) ∨ Slotted.eofs ps h a ≤ i
    · exact absurd (w.ag i hc) hi
    · unfold Slotted.free
      omega
  · have hr := t.ra
    have hle := hr.tAddr_le
    have e4 := fun n => Fixed.tAddr_add (ps := ps) (h := h) (d := d) 0 n
    simp only [Nat.zero_add] at e4
    simp only [hr.fixed, Bool.false_eq_true, if_false, Api.overhead, slotted_fix hr, Fixed.overhead, Nat.zero_add, true_and]
    intro i hi
    by_cases h0 : i < Fixed.tAddr ps h d 0
    · exact absurd (t.pf.ag i h0) hi
    by_cases h1 : Fixed.tAddr ps h d s.length ≤ i
    · left
      have := e4 s.length
      by_cases h2 : i < ps
      · omega
      · rw [List.getElem?_eq_none (by rw [hr.base.len]; omega), List.getElem?_eq_none (by rw [t.rb.base.len]; omega)] at hi
        exact absurd rfl hi
    · right
      have hpos := hr.pos
      have hdm := Nat.div_add_mod (i - Fixed.tAddr ps h d 0) d.size
      have hml := Nat.mod_lt (i - Fixed.tAddr ps h d 0) (show 0 < d.size by omega)
      generalize (i - Fixed.tAddr ps h d 0) / d.size = k at *
      generalize (i - Fixed.tAddr ps h d 0) % d.size = j at *
      have hk := e4 k
      rw [Nat.mul_comm] at hdm
      have hks : k < s.length := by
        rcases Nat.lt_or_ge k s.length with h2 | h2
        · exact h2
        · have := Fixed.tAddr_mono (ps := ps) (h := h) (d := d) h2
          omega
      refine ⟨k, ?_, by omega, by omega⟩
      have hs : s[k]? = some s[k] := List.getElem?_eq_getElem hks
      rw [hs]
      cases hx : s[k] with
      | none => rfl
      | some u =>
        rw [hx] at hs
        obtain ⟨-, q1⟩ := hr.data k u hs
        obtain ⟨-, q2⟩ := t.rb.data k u hs
        have q := congrArg (fun l => l[j]?) (q1.trans q2.symm)
        simp only [Fixed.slot, rd_getElem?, if_pos hml] at q
        rw [show Fixed.tAddr ps h d k + j = i by omega] at q
        exact absurd q hi

/-- C84. The same calls on pages that were initialised in two pieces of memory return the same values and leave the same
contents, and the two pages have the same bytes everywhere except in unused space: the free space and, in the fixed array
layout, the slots of tomb stones. -/
theorem C84_run (l : Legal ps h d) (h1 : m1.length = ps) (h2 : m2.length = ps) (hi : Api.initPage m1 ps h d = some (p1, true)) :
    ∃ p2, Api.initPage m2 ps h d = some (p2, true) ∧ ∀ ops, (∀ op ∈ ops, OpOk h d op) →
      ∃ a b rs s al f, run ps d p1 ops = some (a, rs) ∧ run ps d p2 ops = some (b, rs) ∧ SpecRun d [] ops rs s ∧
        Observe ps d a s ∧ Observe ps d b s ∧ a.length = ps ∧ b.length = ps ∧
        Api.spaceAllotted a ps d = some al ∧ Api.spaceAllotted b ps d = some al ∧
        Api.freeSpace a ps d = some f ∧ Api.freeSpace b ps d = some f ∧
        ∀ i, a[i]? ≠ b[i]? → Unused ps d s al f i := by
  obtain ⟨p2, k1, t⟩ := l.fit.twin h1 h2 hi
  refine ⟨p2, k1, fun ops ho => ?_⟩
  obtain ⟨a, b, rs, s, r1, r2, r3, r4⟩ := t.run ho
  have ra := ptwin_left r4
  have rb := ptwin_right r4
  obtain ⟨g1, g2⟩ := ptwin_agree r4
  exact ⟨a, b, rs, s, _, _, r1, r2, r3, ra.observe, rb.observe, ra.len, rb.len, ra.spaceAllotted, rb.spaceAllotted,
    ra.freeSpace, by rw [rb.freeSpace, g1], g2⟩

/-- Memory full of sevens and memory full of nines; the calls of the examples of C01 on both. The pages differ, and not after
zeroing. -/
example : Legal 128 8 exVar ∧ (∀ op ∈ exVarOps, OpOk 8 exVar op) ∧
    (Api.initPage (List.replicate 128 7) 128 8 exVar).map Prod.snd = some true ∧
    ((Api.initPage (List.replicate 128 7) 128 8 exVar).bind fun x => (Api.initPage (List.replicate 128 9) 128 8 exVar).bind fun y =>
      (run 128 exVar x.1 exVarOps).bind fun u => (run 128 exVar y.1 exVarOps).map fun v =>
        (decide (u.2 = v.2), decide (u.1 = v.1))) = some (true, false) :=
  ⟨exVar_legal, exVar_ops, by decide +kernel, by decide +kernel⟩

/-- C84. Once the free space is zeroed, a page is determined by the calls that were made on it, whatever its memory held
before: in the slotted layout always, in the fixed array layout if it has no tomb stones. -/
theorem C84_zeroed (l : Legal ps h d) (h1 : m1.length = ps) (h2 : m2.length = ps) (hi : Api.initPage m1 ps h d = some (p1, true))
    (hj : Api.initPage m2 ps h d = some (p2, true)) {ops : List Op} (ho : ∀ op ∈ ops, OpOk h d op) {rs : List Nat}
    (hr : run ps d p1 (ops ++ [.zeroOut]) = some (a, rs)) (hz : d.isVar = true ∨ Api.tombCount a ps d = some 0) :
    run ps d p2 (ops ++ [.zeroOut]) = some (a, rs) := by
  obtain ⟨p2', k1, t⟩ := l.fit.twin h1 h2 hi
  rw [hj] at k1; cases k1
  obtain ⟨x, y, rs', s, r1, r2, -, r4⟩ := t.run ho
  obtain ⟨x', y', n, s', q1, q2, q3, q4, q5⟩ := r4.step (op := .zeroOut) trivial
  have happ : ∀ {p z z' : Bytes} {rs : List Nat} {n : Nat}, run ps d p ops = some (z, rs) → step ps d z .zeroOut = some (z', n) →
      run ps d p (ops ++ [.zeroOut]) = some (z', rs ++ [n]) := by
    intro p z z' rs n e1 e2
    clear r1 r2 r4 q1 q2 q3 q4 q5 hi hj t ho hr
    induction ops generalizing p rs with
    | nil => simp [run] at e1 ⊢; obtain ⟨rfl, rfl⟩ := e1; simp [e2]
    | cons op ops ih =>
      simp only [run, Option.bind_eq_bind, Option.bind_eq_some_iff, List.cons_append] at e1 ⊢
      obtain ⟨⟨u, v⟩, f1, ⟨w, vs⟩, f2, f3⟩ := e1
      simp at f3
      obtain ⟨rfl, rfl⟩ := f3
      exact ⟨(u, v), f1, _, ih f2, rfl⟩
  rw [happ r1 q1] at hr
  cases hr
  rw [happ r2 q2]
  suffices a = y' by rw [this]
  cases hv : d.isVar with
  | true => exact q5 rfl hv
  | false =>
    simp only [hv, Bool.false_eq_true, false_or, (ptwin_left q4).tombCount, Option.some.injEq] at hz
    rcases r4 with w | ⟨w, -⟩
    · rw [w.1.var] at hv; cases hv
    have hs : s' = s := q3.2
    subst hs
    obtain ⟨u1, o1, e1, -, -, -, e2, -⟩ := w.ra.zeroOut
    obtain ⟨u2, o2, f1, -, -, -, f2, -⟩ := w.rb.zeroOut
    simp only [step, Api.zeroOut, slotted_fix w.ra, Bool.false_eq_true, if_false, e1, f1, Option.bind_eq_bind, Option.bind_some,
      Option.pure_def, Option.some.injEq, Prod.mk.injEq] at q1 q2
    obtain ⟨rfl, -⟩ := q1
    obtain ⟨rfl, -⟩ := q2
    refine List.ext_getElem? (fun i => ?_)
    apply Classical.byContradiction
    intro hne
    have hu := (ptwin_agree q4).2 i hne
    have hA := (ptwin_left q4).areaStart_le
    unfold Unused freeBytes at hu
    rw [show ps - (ps - areaStart ps h d) = areaStart ps h d by omega] at hu
    have e4 := Fixed.tAddr_add (ps := ps) (h := h) (d := d) 0 s'.length
    have hle := w.ra.tAddr_le
    simp only [areaStart, hv, Bool.false_eq_true, if_false, Api.overhead, slotted_fix w.ra, Fixed.overhead, Nat.zero_add, true_and] at hu e4
    rcases hu with hu | ⟨k, hk, -⟩
    · rw [e2 i (by omega) (by omega), f2 i (by omega) (by omega)] at hne
      exact hne rfl
    · have := List.mem_of_getElem? hk
      simp only [tombs, List.countP_eq_zero] at hz
      have := hz _ this
      simp at this

example : ((Api.initPage (List.replicate 128 7) 128 8 exVar).bind fun x => (Api.initPage (List.replicate 128 9) 128 8 exVar).bind fun y =>
      (run 128 exVar x.1 (exVarOps ++ [.zeroOut])).bind fun u => (run 128 exVar y.1 (exVarOps ++ [.zeroOut])).map fun v =>
        (decide (u.2 = v.2), decide (u.1 = v.1), decide (u.1 = x.1))) = some (true, true, false) := by decide +kernel

/-- In the fixed array layout with two tuples and no tomb stone; with the tomb stones of the examples of C01 the pages differ. -/
example : Legal 128 8 exFix ∧ (∀ op ∈ [Op.append (some [1, 2, 3, 4]), .append (some [5, 6, 7, 8])], OpOk 8 exFix op) ∧
    ((Api.initPage (List.replicate 128 7) 128 8 exFix).bind fun x =>
      (run 128 exFix x.1 ([Op.append (some [1, 2, 3, 4]), .append (some [5, 6, 7, 8])] ++ [.zeroOut])).bind fun u =>
        (Api.tombCount u.1 128 exFix).map fun z => (u.2, z)) = some ([1, 1, 1], 0) ∧
    ((Api.initPage (List.replicate 128 7) 128 8 exFix).bind fun x => (Api.initPage (List.replicate 128 9) 128 8 exFix).bind fun y =>
      (run 128 exFix x.1 (exFixOps ++ [.append none, .zeroOut])).bind fun u =>
        (run 128 exFix y.1 (exFixOps ++ [.append none, .zeroOut])).map fun v => decide (u.1 = v.1)) = some false := by
  refine ⟨exFix_legal, fun op ho => ?_, by decide +kernel, by decide +kernel⟩
  simp only [List.mem_cons, List.not_mem_nil, or_false] at ho
  rcases ho with rfl | rfl <;> (intro t ht; cases ht; constructor <;> decide)

/-- Appending NULL to a page of the fixed array layout leaves all slots as they are. -/
theorem fixed_null_keeps (r : Fixed.Rep ps h d pg s) {pg' : Bytes} (hp : Fixed.append pg ps d none = some (pg', true)) {i : Nat}
    (hi : Fixed.tAddr ps h d 0 ≤ i) : Fixed.Rep ps h d pg' (s ++ [none]) ∧ pg'[i]? = pg[i]? := by
  have hc : s.length < Fixed.cap ps h d := by
    apply Classical.byContradiction
    intro hn
    rw [(r.append (ext := none) (by intro t ht; cases ht)).2 hn] at hp
    cases hp
  obtain ⟨q, h1, h2, -⟩ := (r.append (ext := none) (by intro t ht; cases ht)).1 hc
  rw [h1] at hp; cases hp
  refine ⟨h2, ?_⟩
  obtain ⟨e1, e2, e3⟩ := r.pow_facts
  have b0 := r.base
  have b1 := b0.setWord 0 (s.length + 1)
  have hbl := Fixed.Base.bit_lt b1 hc
  have b2 := Fixed.Base.withBit b1 s.length false
  have hcl := r.length_lt
  simp only [Fixed.append, r.canAppend, Option.bind_eq_bind, Option.bind_some, decide_eq_true hc, Bool.not_true, Bool.false_eq_true, if_false,
    Fixed.offCount_eq b0, loadVal_word b0 (show 0 < 2 by omega), r.cnt, u32_eq (show s.length + 1 < 4294967296 by have := b0.lt; omega),
    Nat.add_sub_cancel, storeVal_word b0 (show 0 < 2 by omega), Fixed.offBits_eq b1, resetBit_eq hbl, Fixed.offTomb_eq b2,
    loadVal_word b2 (show 1 < 2 by omega), storeVal_word b2 (show 1 < 2 by omega), Option.bind_eq_some_iff] at h1
  obtain ⟨z, -, hz⟩ := h1
  simp only [Option.pure_def, Option.some.injEq, Prod.mk.injEq, and_true] at hz
  rw [← hz]
  have hs1 : wAddr ps h 1 = wAddr ps h 0 + vsz ps := wAddr_succ ps h 0
  have hs2 : wAddr ps h 2 = wAddr ps h 1 + vsz ps := wAddr_succ ps h 1
  have hb := Fixed.bit_in (ps := ps) (h := h) hc
  have h0 := Fixed.tAddr0_ge (ps := ps) (h := h) (d := d)
  unfold setWord withBit
  rw [wr_getElem?, if_neg (by rw [leEnc_length]; omega), wr_getElem?, if_neg (by simp only [List.length_cons, List.length_nil]; omega),
    wr_getElem?, if_neg (by rw [leEnc_length]; omega)]

/-- C84. The exception is real. In the fixed array layout the slots of tomb stones are never written: a page on which NULL
was appended `n` times holds in its slots, even after its free space is zeroed, the `n` times `d.size` bytes that the memory
held before the page was initialised. -/
theorem C84_leak (l : Legal ps h d) (hf : d.isVar = false) (h1 : m1.length = ps) (hi : Api.initPage m1 ps h d = some (p1, true)) {n : Nat}
    (hr : run ps d p1 (List.replicate n (.append none)) = some (a, List.replicate n 1)) {v : Bool} {al : Nat}
    (hz : Api.zeroOut a ps d = some (b, v)) (hal : Api.spaceAllotted b ps d = some al) {i : Nat} (hlo : ps - al ≤ i)
    (hhi : i < ps - al + n * d.size) : b[i]? = m1[i]? := by
  have hfit := l.fit
  obtain ⟨hw, hpos⟩ := hfit.fix hf
  obtain ⟨p', ok, m, k1, k2, k3, -, k5⟩ := hfit.init h1
  rw [hi] at k1; cases k1
  obtain ⟨rp, -⟩ := k5 rfl
  have hm := k3.mp rfl
  rcases rp with rp | ⟨rp, -⟩
  · rw [rp.var] at hf; cases hf
  have hv := slotted_fix rp
  have hcap := Fixed.tAddr_cap (d := d) hw
  have hmn := Fixed.tAddr_mono (ps := ps) (h := h) (d := d) (Nat.zero_le (Fixed.cap ps h d))
  have base : ∀ j, Fixed.tAddr ps h d 0 ≤ j → p1[j]? = m1[j]? := by
    intro j hj
    simp only [Api.initPage, hv, Bool.false_eq_true, if_false] at hi
    simp only [Api.minPageSize, hv, Bool.false_eq_true, if_false] at k2
    rw [Fixed.init_eq hpos h1 hfit.lt hw k2 hm] at hi
    cases hi
    have hge := wAddr_ge ps h 0
    have hs1 : wAddr ps h 1 = wAddr ps h 0 + vsz ps := wAddr_succ ps h 0
    have hs2 : wAddr ps h 2 = wAddr ps h 1 + vsz ps := wAddr_succ ps h 1
    unfold Fixed.tAddr at hj
    simp only [setWord, wr_getElem?, wr_length, leEnc_length, List.length_replicate]
    rw [if_neg (by omega), if_neg (by omega), if_neg (by omega), if_neg (by omega), if_neg (by omega)]
  have main : ∀ n p s, Fixed.Rep ps h d p s → run ps d p (List.replicate n (.append none)) = some (a, List.replicate n 1) →
      Fixed.Rep ps h d a (s ++ List.replicate n none) ∧ ∀ j, Fixed.tAddr ps h d 0 ≤ j → a[j]? = p[j]? := by
    clear hr hhi
    intro n
    induction n with
    | zero => intro p s r hp; simp [run] at hp; subst hp; simpa using r
    | succ n ih =>
      intro p s r hp
      simp only [List.replicate_succ, run, Option.bind_eq_bind, Option.bind_eq_some_iff] at hp
      obtain ⟨⟨u, w⟩, g1, ⟨u', w'⟩, g2, g3⟩ := hp
      simp at g3
      obtain ⟨rfl, rfl, rfl⟩ := g3
      simp only [step, Api.append, hv, Bool.false_eq_true, if_false, Option.bind_eq_bind, Option.bind_eq_some_iff] at g1
      obtain ⟨⟨u'', q⟩, g4, g5⟩ := g1
      simp at g5
      obtain ⟨rfl, g5⟩ := g5
      cases q with
      | false => simp at g5
      | true =>
        have r' := (fixed_null_keeps r g4 (Nat.le_refl _)).1
        obtain ⟨z1, z2⟩ := ih u'' _ r' g2
        refine ⟨?_, fun j hj => (z2 j hj).trans (fixed_null_keeps r g4 hj).2⟩
        simpa [List.replicate_succ] using z1
  obtain ⟨ra, hb⟩ := main n p1 [] rp hr
  obtain ⟨u, o, e1, e2, -, -, -, e3⟩ := ra.zeroOut
  simp only [Api.zeroOut, hv, Bool.false_eq_true, if_false, e1, Option.some.injEq, Prod.mk.injEq] at hz
  obtain ⟨rfl, -⟩ := hz
  have hw' : AllWF d ([] ++ List.replicate n (none : Option Bytes)) := by
    intro x hx t ht
    simp only [List.nil_append, List.mem_replicate] at hx
    rw [hx.2] at ht; cases ht
  have R : PRep ps h d u ([] ++ List.replicate n none) := .inr ⟨e2, hw'⟩
  have hA := R.areaStart_le
  rw [R.spaceAllotted] at hal
  cases hal
  rw [show ps - (ps - areaStart ps h d) = areaStart ps h d by omega] at hlo hhi
  simp only [areaStart, hf, Bool.false_eq_true, if_false] at hlo hhi
  have e4 := Fixed.tAddr_add (ps := ps) (h := h) (d := d) 0 n
  rw [Nat.zero_add] at e4
  rw [e3 i (by simp; omega), hb i hlo, base i hlo]

/-- Three tomb stones: after zeroing, the twelve bytes at the start of the allotted space are still those of the memory. -/
example : ((Api.initPage (List.replicate 128 7) 128 8 exFix).bind fun x =>
    (run 128 exFix x.1 (List.replicate 3 (.append none))).bind fun u => (Api.zeroOut u.1 128 exFix).bind fun w =>
      (Api.spaceAllotted w.1 128 exFix).map fun al => (u.2, rd w.1 (128 - al) 14)) =
    some ([1, 1, 1], List.replicate 12 7 ++ [0, 0]) := by decide +kernel

end Props
end TS
