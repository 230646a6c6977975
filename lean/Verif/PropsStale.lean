import Verif.StaleGrow
import Verif.PropsFrame
import Verif.PropsHist
/-
C76. Nothing of what the memory held before gets into a tuple.
-/
namespace TS
namespace Props
open Dti

/-- The two memories start with the same tuple, byte by byte. -/
def SameT (d : Dti) (m1 m2 : Bytes) : Prop :=
  ∃ n, d.getSize m1 = some n ∧ d.getSize m2 = some n ∧ n ≤ m1.length ∧ n ≤ m2.length ∧ m1.take n = m2.take n

/-- What is known of memory of the same length holds of memories of any two lengths. -/
theorem same_lift {d : Dti} {f : Bytes → Option (Bytes × Bool)} (hfr : ∀ m r, FP r m.length (f m) (f (m ++ r))) {m1 m2 : Bytes} {S B : Nat}
    (hS : S ≤ B) (h1 : B ≤ m1.length) (h2 : B ≤ m2.length) (heq : m1.take S = m2.take S)
    (hex : ∃ c q, f (m1.take B) = some (c, q))
    (hs : ∀ t r1 r2, t.length = S → t = m1.take S → r1.length = r2.length → (t ++ r1).length = B → SameD d S (f (t ++ r1)) (f (t ++ r2))) :
    ∃ x1 x2 q, f m1 = some (x1, q) ∧ f m2 = some (x2, q) ∧ SameT d x1 x2 := by
  obtain ⟨c, q, hc⟩ := hex
  have e1 : m1.take B = m1.take S ++ (m1.take B).drop S := by
    conv => lhs; rw [← List.take_append_drop S (m1.take B)]
    rw [List.take_take, Nat.min_eq_left hS]
  have e2 : m2.take B = m1.take S ++ (m2.take B).drop S := by
    conv => lhs; rw [← List.take_append_drop S (m2.take B)]
    rw [List.take_take, Nat.min_eq_left hS, heq]
  have hs' := hs (m1.take S) ((m1.take B).drop S) ((m2.take B).drop S) (by simp; omega) rfl (by simp; omega) (by rw [← e1]; simp; omega)
  rw [← e1, ← e2] at hs'
  obtain ⟨c2, n, g1, g2, g3, g4, g5, g6, _⟩ := hs' c q hc
  have k1 := (hfr (m1.take B) (m1.drop B) _ _ hc).2
  have k2 := (hfr (m2.take B) (m2.drop B) _ _ g1).2
  rw [List.take_append_drop] at k1 k2
  refine ⟨_, _, q, k1, k2, n, getSize_frame d c _ _ g3, getSize_frame d c2 _ _ g4, by simp; omega, by simp; omega, ?_⟩
  rw [List.take_append_of_le_length g5, List.take_append_of_le_length (by omega), g6]

/-- C76. An element is set in two memories that start with the same tuple: the answers are the same, and afterwards the
tuples are the same byte by byte, whatever the bytes behind the tuple were. -/
theorem C76_set {d : Dti} {m1 m2 : Bytes} {S inc : Nat} {pa : List Nat} {v : Datum} (ha : SetArgs d m1 S pa v inc)
    (hb : SetArgs d m2 S pa v inc) (heq : m1.take S = m2.take S) :
    ∃ x1 x2 q, d.setElem m1 pa v inc = some (x1, q) ∧ d.setElem m2 pa v inc = some (x2, q) ∧ SameT d x1 x2 := by
  obtain ⟨b1, b2⟩ := need_le ha.tuple.1 ha.room
  obtain ⟨_, c2⟩ := need_le hb.tuple.1 hb.room
  obtain ⟨l1, val, he⟩ := ha.tuple
  have hd := ha.usable.ok
  obtain ⟨_, c, q, _, hc, _⟩ := C74_set_needs ha
  refine same_lift (fun m r => setElem_frame d m r pa v inc) b1 b2 c2 heq ⟨c, q, hc⟩ ?_
  rintro t r1 r2 ht rfl hl hB
  have := setElem_stale (pa := pa) (inc := inc) (v := v) hd he (fun ty h => (ha.datum ty h).den (typeAt_ok pa hd h).1) hl (by
    intro ty h1 h2
    have h3 := (typeAt_ok pa hd h1).2 h2
    rw [hB, ht]
    simp only [need, h3, if_true]; omega)
  rwa [ht] at this

/-- The memory behind the tuple of the examples of C34, wiped. -/
def exMemDirty : Bytes := exMem.take 11 ++ List.replicate 50 7

theorem exMemDirty_tuple : IsTuple exFinal exMemDirty 11 := by
  obtain ⟨_, v, e⟩ := exMem_tuple
  exact ⟨by decide, v, e⟩

/-- The string is set in 41 bytes and in 61 bytes of memory that agree in the 11 bytes of the tuple only. -/
example : SetArgs exFinal exMem 11 [2] (.bytes [97, 98]) 20 ∧ SetArgs exFinal exMemDirty 11 [2] (.bytes [97, 98]) 20 ∧
    exMem.take 11 = exMemDirty.take 11 ∧ exMem.take 12 ≠ exMemDirty.take 12 ∧
    (exFinal.setElem exMem [2] (.bytes [97, 98]) 20).map (fun x => (x.1.take 14, x.2)) =
      some ([14, 0, 0, 0, 0, 0, 0, 11, 0, 0, 0, 2, 97, 98], true) := by
  refine ⟨⟨exFinal_usable, exMem_tuple, fun t ht => ?_, by decide⟩, ⟨exFinal_usable, exMemDirty_tuple, fun t ht => ?_, by decide⟩, rfl,
    by decide, by decide +kernel⟩
  all_goals
    cases ht
    exact .inr (.inr ⟨_, rfl, by decide⟩)

/-- C76. Slots are added to a container within the tuple. -/
theorem C76_expand {d : Dti} {m1 m2 : Bytes} {S inc i n : Nat} {pa : List Nat} (ha : GrowArgs d m1 S pa n inc)
    (hb : GrowArgs d m2 S pa n inc) (heq : m1.take S = m2.take S) :
    ∃ x1 x2 q, d.expandElem m1 pa i n inc = some (x1, q) ∧ d.expandElem m2 pa i n inc = some (x2, q) ∧ SameT d x1 x2 := by
  obtain ⟨b1, b2⟩ := need_le ha.tuple.1 ha.room
  obtain ⟨_, c2⟩ := need_le hb.tuple.1 hb.room
  obtain ⟨l1, val, he⟩ := ha.tuple
  have hd := ha.usable.ok
  obtain ⟨_, c, q, _, hc, _⟩ := C74_expand_needs (i := i) ha
  refine same_lift (fun m r => expandElem_frame d m r pa i n inc) b1 b2 c2 heq ⟨c, q, hc⟩ ?_
  rintro t r1 r2 ht rfl hl hB
  have hz := (enc_size hd he).1
  unfold expandElem
  cases hty : d.typeAt pa with
  | none => exact SameD.tail hl rfl rfl hz (by omega) (fun _ => ht)
  | some ty =>
    simp only []
    cases hvc : ty.isVarCount with
    | false =>
      simp only [Bool.not_false, if_true]
      exact SameD.tail hl rfl rfl hz (by omega) (fun _ => ht)
    | true =>
      simp only [Bool.not_true, Bool.false_eq_true, if_false]
      obtain ⟨htc, htv, c', hcd, _⟩ := varCount_cont (typeAt_ok pa hd hty).1 hvc
      have := expandElemI_stale pa (index := i) (slots := n) (inc := inc) hd he hty hvc hcd (by
        intro vs hvs
        refine ha.limit ty vs.length hty hvc ?_
        rw [elemCount_ok pa hd l1 he hty htc, hvs]; rfl) hl (by
        have h3 := (typeAt_ok pa hd hty).2 htv
        rw [hB, ht]
        simp only [need, h3, if_true]; omega)
      rwa [ht] at this

/-- The array of the examples of C38 with other bytes behind it. -/
def exMemArrB : Bytes := exMemArr.take 18 ++ List.replicate 40 7

theorem exMemArrB_tuple : IsTuple exFinal exMemArrB 18 := by
  obtain ⟨_, v, e⟩ := exMemArr_tuple
  exact ⟨by decide, v, e⟩

/-- Three slots in the middle of the array. -/
example : GrowArgs exFinal exMemArr 18 [3] 3 20 ∧ GrowArgs exFinal exMemArrB 18 [3] 3 20 ∧ exMemArr.take 18 = exMemArrB.take 18 ∧
    (exFinal.expandElem exMemArr [3] 1 3 20).map Prod.snd = some true ∧
    (exFinal.expandElem exMemArr [3] 1 3 20).bind (fun x => (exFinal.expandElem exMemArrB [3] 1 3 20).map (fun y =>
      (decide (x.1.take 24 = y.1.take 24), decide (x.1.take 25 = y.1.take 25)))) = some (true, false) := by
  refine ⟨exMemArr_grow, ⟨exFinal_usable, exMemArrB_tuple, ?_, by decide⟩, rfl, by decide +kernel, by decide +kernel⟩
  intro t n ht hv hn
  exact exMemArr_grow.limit t n ht hv (by
    have h1 : exFinal.elemCount exMemArrB [3] = exFinal.elemCount exMemArr [3] := by cases ht; decide +kernel
    cases ht
    rw [← h1]; exact hn)

/-- C76. Slots are taken out of a container within the tuple. -/
theorem C76_discard {d : Dti} {m1 m2 : Bytes} {S i n : Nat} {pa : List Nat} (hu : Usable d) (h1 : IsTuple d m1 S) (h2 : IsTuple d m2 S)
    (hbits : ∀ t c, d.typeAt pa = some t → t.cont = some c → c.isBit = true → c.eltBits ≤ 64) (heq : m1.take S = m2.take S) :
    ∃ x1 x2 q, d.discardElem m1 pa i n = some (x1, q) ∧ d.discardElem m2 pa i n = some (x2, q) ∧ SameT d x1 x2 := by
  obtain ⟨l1, val, he⟩ := h1
  have hd := hu.ok
  obtain ⟨c, q, _, hc, _⟩ := C74_discard_needs (i := i) (n := n) hu ⟨l1, val, he⟩ hbits
  refine same_lift (fun m r => discardElem_frame d m r pa i n) (Nat.le_refl S) l1 h2.1 heq ⟨c, q, hc⟩ ?_
  rintro t r1 r2 ht rfl hl hB
  have hz := (enc_size hd he).1
  unfold discardElem
  cases hty : d.typeAt pa with
  | none => exact SameD.tail hl rfl rfl hz (by omega) (fun _ => ht)
  | some ty =>
    simp only []
    cases hvc : ty.isVarCount with
    | false =>
      simp only [Bool.not_false, if_true]
      exact SameD.tail hl rfl rfl hz (by omega) (fun _ => ht)
    | true =>
      simp only [Bool.not_true, Bool.false_eq_true, if_false]
      obtain ⟨htc, htv, c', hcd, _⟩ := varCount_cont (typeAt_ok pa hd hty).1 hvc
      have := discardElemI_stale (pa := pa) (index := i) (slots := n) hd he hty hvc hcd (hbits ty c' hty hcd) hl
      rwa [ht] at this

example : IsTuple exFinal exMemArr 18 ∧ IsTuple exFinal exMemArrB 18 ∧ exMemArr.take 18 = exMemArrB.take 18 ∧
    (∀ t c, exFinal.typeAt [3] = some t → t.cont = some c → c.isBit = false) ∧
    (exFinal.discardElem exMemArrB [3] 0 1).map Prod.snd = some true := by
  refine ⟨exMemArr_tuple, exMemArrB_tuple, rfl, fun t c h1 h2 => ?_, by decide +kernel⟩
  cases h1; cases h2; rfl

/-- C76. An element is set to one of another tuple. -/
theorem C76_copy {cv : Conv} (hcv : cv.Ok) {d d2 : Dti} {m1 m2 ms : Bytes} {S S2 inc : Nat} {pa pa2 : List Nat} (ha : CopyArgs d m1 S pa d2 ms S2 inc)
    (hb : CopyArgs d m2 S pa d2 ms S2 inc) (heq : m1.take S = m2.take S) :
    ∃ x1 x2 q, d.setFromTuple cv m1 pa d2 ms pa2 inc = some (x1, q) ∧ d.setFromTuple cv m2 pa d2 ms pa2 inc = some (x2, q) ∧
      SameT d x1 x2 := by
  obtain ⟨v, q, x1, h1, h2⟩ := (C49_is_set hcv (pa2 := pa2) ha).1
  obtain ⟨v', q', x2, g1, g2⟩ := (C49_is_set hcv (pa2 := pa2) hb).1
  rcases h2 with ⟨rfl, rfl, hno⟩ | ⟨h2, h3, t, t2, dt, e1, e2, e3, e4⟩
  · rcases g2 with ⟨rfl, rfl, _⟩ | ⟨_, _, t, t2, dt, e1, e2, e3, e4⟩
    · exact ⟨_, _, false, h1, g1, S, (ha.tuple.size ha.usable.ok).1, (hb.tuple.size hb.usable.ok).1, ha.tuple.1, hb.tuple.1, heq⟩
    · exact (hno _ _ _ _ e1 e2 e3 e4).elim
  · rcases g2 with ⟨rfl, rfl, hno⟩ | ⟨g2, g3, t', t2', dt', f1, f2, f3, f4⟩
    · exact (hno _ _ _ _ e1 e2 e3 e4).elim
    · rw [e1] at f1; rw [e2] at f2; rw [e3] at f3
      cases f1; cases f2; cases f3
      cases carried_unique e4 f4
      obtain ⟨y1, y2, p, k1, k2, k3⟩ := C76_set h2 g2 heq
      rw [h3] at k1; rw [g3] at k2
      cases k1; cases k2
      exact ⟨_, _, _, h1, g1, k3⟩

example : CopyArgs exFinal exMem 11 [1] exFinal exMemArr 18 0 ∧ CopyArgs exFinal exMemDirty 11 [1] exFinal exMemArr 18 0 ∧
    (exFinal.setFromTuple ieee exMem [1] exFinal exMemArr [0] 0).map Prod.snd = some true := by
  have hm : Made exFinal := raw_finalize _ _ exType_raw exType_finalize
  refine ⟨⟨exFinal_usable, hm, exMem_tuple, by decide, ?_, exFinal_usable, hm, exMemArr_tuple⟩,
    ⟨exFinal_usable, hm, exMemDirty_tuple, by decide, ?_, exFinal_usable, hm, exMemArr_tuple⟩, by decide +kernel⟩
  all_goals
    intro t ht
    cases ht
    simp [ShortNames, cname, strn]

/-- C76. Any of the calls. -/
theorem C76_call {cv : Conv} (hcv : cv.Ok) {d : Dti} {m1 m2 : Bytes} {S : Nat} {val : Val} (hu : Usable d) (h1 : S ≤ m1.length)
    (h2 : S ≤ m2.length) (he : Enc d (m1.take S) val) (hr1 : d.isVar = true → d.hdr.maxSize ≤ m1.length)
    (hr2 : d.isVar = true → d.hdr.maxSize ≤ m2.length) (heq : m1.take S = m2.take S) (c : Call) (hp : c.Pre d val) :
    ∃ x1 x2 q, c.run cv d m1 = some (x1, q) ∧ c.run cv d m2 = some (x2, q) ∧ SameT d x1 x2 := by
  have he2 : Enc d (m2.take S) val := by rw [← heq]; exact he
  have hd := hu.ok
  have hr : ∀ m : Bytes, (d.isVar = true → d.hdr.maxSize ≤ m.length) → ∀ inc, d.isVar = true → min (S + inc) d.hdr.maxSize ≤ m.length := by
    intro m hm inc hv; have := hm hv; omega
  cases c with
  | set pa v inc =>
    exact C76_set ⟨hu, ⟨h1, val, he⟩, hp, hr m1 hr1 inc⟩ ⟨hu, ⟨h2, val, he2⟩, hp, hr m2 hr2 inc⟩ heq
  | expand pa index slots inc =>
    have hg : ∀ m : Bytes, S ≤ m.length → Enc d (m.take S) val → (d.isVar = true → d.hdr.maxSize ≤ m.length) → GrowArgs d m S pa slots inc := by
      intro m hS he hm
      refine ⟨hu, ⟨hS, val, he⟩, ?_, hr m hm inc⟩
      intro t n ht hvc hn
      obtain ⟨htc, _⟩ := varCount_cont (typeAt_ok pa hd ht).1 hvc
      rw [elemCount_ok pa hd hS he ht htc] at hn
      cases hn
      exact hp t ht hvc
    exact C76_expand (hg m1 h1 he hr1) (hg m2 h2 he2 hr2) heq
  | discard pa index slots => exact C76_discard hu ⟨h1, val, he⟩ ⟨h2, val, he2⟩ hp heq
  | copy pa d2 ms pa2 inc =>
    obtain ⟨p1, p2, p3, p4, S2, p5⟩ := hp
    exact C76_copy hcv ⟨hu, p1, ⟨h1, val, he⟩, hr m1 hr1 inc, p2, p3, p4, p5⟩ ⟨hu, p1, ⟨h2, val, he2⟩, hr m2 hr2 inc, p2, p3, p4, p5⟩ heq

/-- C76. Any sequence of calls. -/
theorem C76_history {cv : Conv} (hcv : cv.Ok) {d : Dti} (hu : Usable d) (cs : List Call) :
    ∀ {m1 m2 : Bytes} {S : Nat} {val : Val}, S ≤ m1.length → S ≤ m2.length → Enc d (m1.take S) val →
    (d.isVar = true → d.hdr.maxSize ≤ m1.length) → (d.isVar = true → d.hdr.maxSize ≤ m2.length) →
    m1.take S = m2.take S → Careful cv d val cs →
    ∃ x1 x2 qs, runAll cv d m1 cs = some (x1, qs) ∧ runAll cv d m2 cs = some (x2, qs) ∧ SameT d x1 x2 := by
  have hd := hu.ok
  induction cs with
  | nil =>
    intro m1 m2 S val h1 h2 he hr1 hr2 heq _
    have he2 : Enc d (m2.take S) val := by rw [← heq]; exact he
    exact ⟨m1, m2, [], rfl, rfl, S, size_eq hd h1 he, size_eq hd h2 he2, h1, h2, heq⟩
  | cons c r ih =>
    intro m1 m2 S val h1 h2 he hr1 hr2 heq hcar
    have he2 : Enc d (m2.take S) val := by rw [← heq]; exact he
    obtain ⟨hp, hrest⟩ := hcar
    obtain ⟨x1, x2, q, k1, k2, n, s1, s2, s3, s4, s5⟩ := C76_call hcv hu h1 h2 he hr1 hr2 heq c hp
    obtain ⟨y1, q1, S1, val1, g1, g2, g3, g4, g5, _⟩ := call_ok hcv hu h1 he hr1 c hp
    obtain ⟨y2, q2, S2, val2, f1, f2, _⟩ := call_ok hcv hu h2 he2 hr2 c hp
    rw [k1] at g1
    rw [k2] at f1
    cases g1; cases f1
    have hn : n = S1 := by
      have := size_eq hd (by omega) g4
      rw [s1] at this; exact Option.some.inj this
    subst hn
    obtain ⟨z1, z2, qs, e1, e2, e3⟩ := ih s3 s4 g4 (by rw [g2]; exact hr1) (by rw [f2]; exact hr2) s5 (hrest q val1 g5 ⟨_, g4⟩)
    exact ⟨z1, z2, q :: qs, by simp only [runAll, k1, e1], by simp only [runAll, k2, e2], e3⟩

/-- C76. A new tuple, and what any calls make of it, is the same byte by byte whatever the memory held before it
was made. -/
theorem C76_from_scratch {cv : Conv} (hcv : cv.Ok) {d : Dti} (hb : Built d) (hl : Limits d) (hc : d.isCont = true)
    {d0 sd : SizeDef} {d' : Dti} (h : initTupleDef d0 d = some (d', sd)) {m1 m2 : Bytes} (hm1 : maxTupleSize sd ≤ m1.length)
    (hm2 : maxTupleSize sd ≤ m2.length) (cs : List Call) (hcs : ∀ c ∈ cs, c.Modest d') :
    ∃ y1 y2 x1 x2 qs n, initTuple (d', sd) m1 = some (y1, n) ∧ initTuple (d', sd) m2 = some (y2, n) ∧ y1.take n = y2.take n ∧
      runAll cv d' y1 cs = some (x1, qs) ∧ runAll cv d' y2 cs = some (x2, qs) ∧ SameT d' x1 x2 := by
  have hf := limits_fits d hl
  obtain ⟨h1, h2, _, h4, h5, h6, h7⟩ := (C62_tuple_def hb hf d0).2 d' sd h
  have hu := (C62_usable hb hl).2 d' h1
  have hd := hu.ok
  obtain ⟨k0, k2, k3⟩ := (finalize_spec hb hf).2 d' h1
  have hmx := finalize_max d d' h1
  obtain ⟨y1, e1, e2, ⟨e3, val, e4⟩, _⟩ := C62_first_tuple hb hl hc h (m := m1) (by omega)
  obtain ⟨y2, f1, f2, ⟨f3, val', f4⟩, _⟩ := C62_first_tuple hb hl hc h (m := m2) (by omega)
  have hroom : ∀ m : Bytes, maxTupleSize sd ≤ m.length → d'.isVar = true → d'.hdr.maxSize ≤ m.length := by
    intro m hm hv
    rw [k2] at hv
    rw [hv] at h6
    simp only [if_true] at h6
    omega
  have hsame : y1.take (Least d) = y2.take (Least d) := by
    have hc' : d'.isCont = true := by rw [finalize_isCont d d' h1]; exact hc
    simp only [initTuple] at e1 f1
    rw [initMin_eq hd hc' (by omega)] at e1 f1
    simp only [Option.some.injEq, Prod.mk.injEq] at e1 f1
    have hlen := minB_length hd hc'
    rw [← e1.1, ← f1.1, ← e1.2, ← rd_zero_eq_take, ← rd_zero_eq_take, ← hlen, rd_wr_same _ _ _ (by omega), rd_wr_same _ _ _ (by omega)]
  obtain ⟨x1, x2, qs, g1, g2, g3⟩ := C76_history hcv hu cs e3 f3 e4 (hroom y1 (by omega)) (hroom y2 (by omega)) hsame
    (C63_modest cv hu cs hcs val ⟨_, e4⟩)
  exact ⟨y1, y2, x1, x2, qs, Least d, e1, f1, hsame, g1, g2, g3⟩

/-- The hypotheses hold of the type and the seven calls of C63, in memory full of ones and memory full of sevens; the
19 bytes of the tuple are the same, the one behind it is not. -/
example : Built exType ∧ exType.isCont = true ∧
    initTupleDef ⟨true, 7, 7, false, true, true, true, 7⟩ exType = some (exFinal, ⟨true, 11, 900, true, false, true, true, 7⟩) ∧
    (∀ c ∈ exCalls, c.Modest exFinal) ∧
    [List.replicate 901 255, List.replicate 900 7].map (fun m =>
      (initTuple (exFinal, ⟨true, 11, 900, true, false, true, true, 7⟩) m).bind (fun r =>
        (runAll ieee exFinal r.1 exCalls).map (fun x => (x.2, x.1.take 19, x.1[25]?)))) =
      [some ([true, true, true, true, true, true, false], [19, 0, 0, 0, 0, 0, 0, 11, 0, 14, 0, 2, 97, 98, 1, 0, 3, 5, 0], some 255),
       some ([true, true, true, true, true, true, false], [19, 0, 0, 0, 0, 0, 0, 11, 0, 14, 0, 2, 97, 98, 1, 0, 3, 5, 0], some 7)] := by
  refine ⟨exType_built, rfl, rfl, exCalls_modest, by decide +kernel⟩

end Props
end TS
