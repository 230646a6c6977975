import Verif.PropsCopy
import Verif.PropsExpand
import Verif.PropsFin
import Verif.PropsGrow
/-
Property C63: any sequence of calls that edit a tuple does to it what the same edits do to a tree of
values.
-/
namespace TS
namespace Props
open Dti

/-- A call that edits a tuple. -/
inductive Call
  /-- `set_element_in_tuple` -/
  | set (pa : List Nat) (v : Datum) (inc : Nat)
  /-- `expand_element_count_for_element_in_tuple` -/
  | expand (pa : List Nat) (index slots inc : Nat)
  /-- `discard_elements_from_element_in_tuple` -/
  | discard (pa : List Nat) (index slots : Nat)
  /-- `set_element_in_tuple_from_tuple` from the tuple at `m2` -/
  | copy (pa : List Nat) (d2 : Dti) (m2 : Bytes) (pa2 : List Nat) (inc : Nat)

/-- Make the call on the tuple of type `d` at `m`. -/
def Call.run (cv : Conv) (d : Dti) (m : Bytes) : Call → Option (Bytes × Bool)
  | .set pa v inc => d.setElem m pa v inc
  | .expand pa index slots inc => d.expandElem m pa index slots inc
  | .discard pa index slots => d.discardElem m pa index slots
  | .copy pa d2 m2 pa2 inc => d.setFromTuple cv m pa d2 m2 pa2 inc

/-- Make the calls one after the other; the answers are collected. -/
def runAll (cv : Conv) (d : Dti) : Bytes → List Call → Option (Bytes × List Bool)
  | m, [] => some (m, [])
  | m, c :: r =>
    match c.run cv d m with
    | none => none
    | some (m1, q) =>
      match runAll cv d m1 r with
      | none => none
      | some (m2, qs) => some (m2, q :: qs)

/-- What a caller has to see to, if the tuple holds the tree `val`: a datum suits the type of the
element, an expansion obeys the documented limit, arrays of bit fields have at most 64 bits per
element, the source of a copy is a tuple. -/
def Call.Pre (d : Dti) (val : Val) : Call → Prop
  | .set pa v _ => ∀ t, d.typeAt pa = some t → Accepts t v
  | .expand pa _ slots _ =>
    ∀ t, d.typeAt pa = some t → t.isVarCount = true → GrowPre t (valCount (val.at' pa)) slots
  | .discard pa _ _ => ∀ t c, d.typeAt pa = some t → t.cont = some c → c.isBit = true → c.eltBits ≤ 64
  | .copy pa d2 m2 _ _ =>
    Made d ∧ (∀ t, d.typeAt pa = some t → ShortNames t) ∧ Usable d2 ∧ Made d2 ∧ ∃ S2, IsTuple d2 m2 S2

/-- What a call that is answered with 1 does to the tree: it replaces the value at the position by
the one given; inserts slots without contents; removes slots; replaces the value by the one at the
position in the source. -/
def Call.Does (cv : Conv) (d : Dti) (val val' : Val) : Call → Prop
  | .set pa v _ => val.has pa ∧ ∃ t y, d.typeAt pa = some t ∧ EDen t v y ∧ val' = val.upd pa y
  | .expand pa index slots _ => ∃ t c, d.typeAt pa = some t ∧ t.isVarCount = true ∧ t.cont = some c ∧
      AtPath (Ins c index slots) pa val val'
  | .discard pa index slots => ∃ t, d.typeAt pa = some t ∧ t.isVarCount = true ∧ AtPath (Rem index slots) pa val val'
  | .copy pa d2 m2 pa2 _ => val.has pa ∧ ∃ t t2 dt v y, d.typeAt pa = some t ∧ d2.typeAt pa2 = some t2 ∧
      d2.getElem m2 pa2 = some (some dt) ∧ Carried cv t t2 dt v ∧ EDen t v y ∧ val' = val.upd pa y

/-- When a call is to be answered with 1, in terms of the tree: a value can be set as `SetCond` says
(it is there, it may be NULL if NULL is given, it fits its own type, the increment and everything
around it); slots can be inserted if the container is there, the index is in range, and the growth
fits; removed if they are there; a copy can be made if the value in the source can be carried over
and can then be set. -/
def Call.Can (cv : Conv) (d : Dti) (val : Val) : Call → Prop
  | .set pa v inc => ∃ t, d.typeAt pa = some t ∧ SetCond d t val inc v pa
  | .expand pa index slots inc => ∃ t vs, d.typeAt pa = some t ∧ t.isVarCount = true ∧ val.at' pa = some (.node vs) ∧
      index ≤ vs.length ∧ fixedEnd t (vs.length + slots) - fixedEnd t vs.length ≤ inc ∧
      Spare d val pa (fixedEnd t (vs.length + slots) - fixedEnd t vs.length)
  | .discard pa index slots => ∃ t vs, d.typeAt pa = some t ∧ t.isVarCount = true ∧ val.at' pa = some (.node vs) ∧
      index < vs.length ∧ index + slots ≤ vs.length
  | .copy pa d2 m2 pa2 inc => ∃ t t2 dt v, d.typeAt pa = some t ∧ d2.typeAt pa2 = some t2 ∧
      d2.getElem m2 pa2 = some (some dt) ∧ Carried cv t t2 dt v ∧ SetCond d t val inc v pa

/-- The tree after a call that was answered with `q`. -/
def Call.Next (cv : Conv) (d : Dti) (c : Call) (q : Bool) (val val' : Val) : Prop :=
  (q = true ∧ c.Can cv d val ∧ c.Does cv d val val') ∨ (q = false ∧ ¬ c.Can cv d val ∧ val' = val)

/-- The tree goes from `val` to `val'` with the calls and their answers. -/
inductive Goes (cv : Conv) (d : Dti) : Val → List Call → List Bool → Val → Prop
  | nil (val) : Goes cv d val [] [] val
  | cons {val val1 val' c r q qs} : c.Next cv d q val val1 → Goes cv d val1 r qs val' →
      Goes cv d val (c :: r) (q :: qs) val'

/-- The caller sees to its duties in every call, whatever the answers are. -/
def Careful (cv : Conv) (d : Dti) : Val → List Call → Prop
  | _, [] => True
  | val, c :: r => c.Pre d val ∧ ∀ q val', c.Next cv d q val val' → (∃ b, Enc d b val') → Careful cv d val' r

theorem set_can {d : Dti} {m m' : Bytes} {S inc : Nat} {v : Datum} {pa : List Nat} {val : Val} {q : Bool}
    (ha : SetArgs d m S pa v inc) (he : Enc d (m.take S) val) (h : d.setElem m pa v inc = some (m', q)) :
    q = true ↔ ∃ t, d.typeAt pa = some t ∧ SetCond d t val inc v pa := by
  cases ht : d.typeAt pa with
  | none =>
    rw [C61_no_type ha ht] at h
    cases h
    simp
  | some t =>
    have := C61_set_iff ha ht
    rw [← setCond_iff ha.usable.ok ha.tuple.1 he ht, h] at this
    simpa using this

theorem expand_can {d : Dti} {m : Bytes} {S index slots inc : Nat} {pa : List Nat} {val : Val} {q : Bool}
    (ha : GrowArgs d m S pa slots inc) (he : Enc d (m.take S) val)
    (h : d.canExpandElem m pa index slots inc = some q) :
    q = true ↔ ∃ t vs, d.typeAt pa = some t ∧ t.isVarCount = true ∧ val.at' pa = some (.node vs) ∧
      index ≤ vs.length ∧ fixedEnd t (vs.length + slots) - fixedEnd t vs.length ≤ inc ∧
      Spare d val pa (fixedEnd t (vs.length + slots) - fixedEnd t vs.length) := by
  have hd := ha.usable.ok
  have hS := ha.tuple.1
  obtain ⟨m', q', S', val', k1, k2, _⟩ := expandElem_main (index := index) ha he
  rw [h] at k2
  cases k2
  have hr := C40_expand_room (index := index) ha
  rw [k1] at hr
  simp only [Option.some.injEq, Prod.mk.injEq, exists_and_right, exists_eq', true_and] at hr
  rw [hr]
  constructor
  · intro ⟨t, n, h1, h2, h3, h4, h5, h6, h7, h8⟩
    obtain ⟨htc, htv, _⟩ := varCount_cont (typeAt_ok pa hd h1).1 h2
    obtain ⟨vs, hvs⟩ := (node_iff_read hd hS he h1 htc).mpr ⟨h4, h5⟩
    rw [elemCount_ok pa hd hS he h1 htc, hvs] at h3
    simp only [valCount, Option.some.injEq] at h3
    subst h3
    exact ⟨t, vs, h1, h2, hvs, h6, h7, (spare_iff hd hS he h1 htv).mpr h8⟩
  · intro ⟨t, vs, h1, h2, h3, h4, h5, h6⟩
    obtain ⟨htc, htv, _⟩ := varCount_cont (typeAt_ok pa hd h1).1 h2
    obtain ⟨r1, r2⟩ := (node_iff_read hd hS he h1 htc).mp ⟨vs, h3⟩
    exact ⟨t, vs.length, h1, h2, by rw [elemCount_ok pa hd hS he h1 htc, h3]; rfl, r1, r2, h4, h5,
      (spare_iff hd hS he h1 htv).mp h6⟩

theorem discard_can {d : Dti} {m : Bytes} {S index slots : Nat} {pa : List Nat} {val : Val} {q : Bool}
    (hu : Usable d) (hS : S ≤ m.length) (he : Enc d (m.take S) val)
    (h : d.canDiscardElem m pa index slots = some q) :
    q = true ↔ ∃ t vs, d.typeAt pa = some t ∧ t.isVarCount = true ∧ val.at' pa = some (.node vs) ∧
      index < vs.length ∧ index + slots ≤ vs.length := by
  have hd := hu.ok
  have hr := C39_discard_iff (index := index) (slots := slots) (pa := pa) hu ⟨hS, val, he⟩
  rw [h, Option.some.injEq] at hr
  rw [hr]
  constructor
  · intro ⟨t, n, h1, h2, h3, h4, h5, h6, h7⟩
    obtain ⟨htc, htv, _⟩ := varCount_cont (typeAt_ok pa hd h1).1 h2
    obtain ⟨vs, hvs⟩ := (node_iff_read hd hS he h1 htc).mpr ⟨h4, h5⟩
    rw [elemCount_ok pa hd hS he h1 htc, hvs] at h3
    simp only [valCount, Option.some.injEq] at h3
    subst h3
    exact ⟨t, vs, h1, h2, hvs, h6, h7⟩
  · intro ⟨t, vs, h1, h2, h3, h4, h5⟩
    obtain ⟨htc, htv, _⟩ := varCount_cont (typeAt_ok pa hd h1).1 h2
    obtain ⟨r1, r2⟩ := (node_iff_read hd hS he h1 htc).mp ⟨vs, h3⟩
    exact ⟨t, vs.length, h1, h2, by rw [elemCount_ok pa hd hS he h1 htc, h3]; rfl, r1, r2, h4, h5⟩

theorem carried_unique {cv : Conv} {t t2 : Dti} {dt v v' : Datum} (h : Carried cv t t2 dt v) (h' : Carried cv t t2 dt v') :
    v = v' := by
  rcases h with ⟨a, rfl⟩ | ⟨a, b, c, e⟩ | ⟨a, b, c, rfl⟩
  · rcases h' with ⟨a', rfl⟩ | ⟨a', _⟩ | ⟨a', _⟩
    · rfl
    · rw [a] at a'; cases a'
    · rw [a] at a'; cases a'
  · rcases h' with ⟨a', _⟩ | ⟨_, _, _, e'⟩ | ⟨_, b', _⟩
    · rw [a] at a'; cases a'
    · rw [e] at e'; cases e'; rfl
    · cases t <;> simp_all [isNum, isStr]
  · rcases h' with ⟨a', _⟩ | ⟨_, b', _⟩ | ⟨_, _, _, rfl⟩
    · rw [a] at a'; cases a'
    · cases t <;> simp_all [isNum, isStr]
    · rfl

/-- One call. -/
theorem call_ok {cv : Conv} (hcv : cv.Ok) {d : Dti} {m : Bytes} {S : Nat} {val : Val} (hu : Usable d) (hS : S ≤ m.length)
    (he : Enc d (m.take S) val) (hroom : d.isVar = true → d.hdr.maxSize ≤ m.length) (c : Call) (hp : c.Pre d val) :
    ∃ m' q S' val', c.run cv d m = some (m', q) ∧ m'.length = m.length ∧ S' ≤ m.length ∧ Enc d (m'.take S') val' ∧
      c.Next cv d q val val' ∧ ∀ x, S ≤ x → S' ≤ x → m'[x]? = m[x]? := by
  have hd := hu.ok
  have hr : ∀ inc, d.isVar = true → min (S + inc) d.hdr.maxSize ≤ m.length := by
    intro inc hv; have := hroom hv; omega
  have htup : IsTuple d m S := ⟨hS, val, he⟩
  cases c with
  | set pa v inc =>
    obtain ⟨m', q, S', val', k1, k2, k3, k4, k5, k6, k7, k8, k9⟩ := setElem_main (inc := inc) hd hS he hp (hr inc)
    refine ⟨m', q, S', val', k1, k3, k4, k5, ?_, k7⟩
    have hcan := set_can (inc := inc) ⟨hu, htup, hp, hr inc⟩ he k1
    cases q with
    | false => exact .inr ⟨rfl, fun ⟨t, h1, h2⟩ => by (have := hcan.mpr ⟨t, h1, h2⟩; cases this), (k8 rfl).2⟩
    | true => exact .inl ⟨rfl, hcan.mp rfl, k9 rfl⟩
  | expand pa index slots inc =>
    have ha : GrowArgs d m S pa slots inc := by
      refine ⟨hu, htup, ?_, hr inc⟩
      intro t n ht hvc hn
      obtain ⟨htc, _⟩ := varCount_cont (typeAt_ok pa hd ht).1 hvc
      rw [elemCount_ok pa hd hS he ht htc] at hn
      cases hn
      exact hp t ht hvc
    obtain ⟨m', q, S', val', k1, k2, k3, k4, k5, k6, k7, k8, k9⟩ := expandElem_main (index := index) ha he
    refine ⟨m', q, S', val', k1, k3, k4, k5, ?_, k7⟩
    have hcan := expand_can ha he k2
    cases q with
    | false => exact .inr ⟨rfl, fun h => by (have := hcan.mpr h; cases this), (k8 rfl).2⟩
    | true => exact .inl ⟨rfl, hcan.mp rfl, k9 rfl⟩
  | discard pa index slots =>
    obtain ⟨m', q, S', val', k1, k2, k3, k4, k5, k6, k7, k8, k9⟩ :=
      discardElem_main (index := index) (slots := slots) hd hS he hp
    refine ⟨m', q, S', val', k1, k3, k4, k5, ?_, fun x h1 _ => k7 x h1⟩
    have hcan := discard_can hu hS he k2
    cases q with
    | false => exact .inr ⟨rfl, fun h => by (have := hcan.mpr h; cases this), (k8 rfl).2⟩
    | true =>
      obtain ⟨t, c, h1, h2, _, h3⟩ := k9 rfl
      exact .inl ⟨rfl, hcan.mp rfl, t, h1, h2, h3⟩
  | copy pa d2 m2 pa2 inc =>
    obtain ⟨p1, p2, p3, p4, S2, p5⟩ := hp
    have ha : CopyArgs d m S pa d2 m2 S2 inc := ⟨hu, p1, htup, hr inc, p2, p3, p4, p5⟩
    obtain ⟨v, q, m', h1, h2⟩ := (C49_is_set hcv (pa2 := pa2) ha).1
    rcases h2 with ⟨rfl, rfl, hno⟩ | ⟨h2, h3, t, t2, dt, g1, g2, g3, g4⟩
    · exact ⟨_, false, S, val, h1, rfl, hS, he,
        .inr ⟨rfl, fun ⟨t, t2, dt, v, e1, e2, e3, e4, _⟩ => hno t t2 dt v e1 e2 e3 e4, rfl⟩, fun _ _ _ => rfl⟩
    · obtain ⟨m1, q1, S', val', k1, k2, k3, k4, k5, k6, k7, k8, k9⟩ := setElem_main (inc := inc) hd hS he h2.datum (hr inc)
      rw [h3] at k1
      cases k1
      refine ⟨m', q, S', val', h1, k3, k4, k5, ?_, k7⟩
      have hcan := set_can h2 he h3
      cases q with
      | false =>
        refine .inr ⟨rfl, ?_, (k8 rfl).2⟩
        intro ⟨t', t2', dt', v', e1, e2, e3, e4, e5⟩
        rw [g1] at e1
        rw [g2] at e2
        rw [g3] at e3
        cases e1; cases e2; cases e3
        have := carried_unique g4 e4
        subst this
        have := hcan.mpr ⟨t, g1, e5⟩
        cases this
      | true =>
        obtain ⟨t1, c1, c2⟩ := hcan.mp rfl
        rw [g1] at c1
        cases c1
        obtain ⟨e1, t', y, e2, e3, e4⟩ := k9 rfl
        rw [g1] at e2
        cases e2
        exact .inl ⟨rfl, ⟨t, t2, dt, v, g1, g2, g3, g4, c2⟩, e1, t, t2, dt, v, y, g1, g2, g3, g4, e3, e4⟩

/-- C63. A tuple in memory of its maximum size is edited by any sequence of calls. No call leaves the
memory; each is answered; the tuple holds the tree that the calls answered with 1 make of the former
one; every read shows that tree; memory behind the maximum size stays as it was. -/
theorem C63_history {cv : Conv} (hcv : cv.Ok) {d : Dti} (hu : Usable d) (cs : List Call) :
    ∀ {m : Bytes} {S : Nat} {val : Val}, S ≤ m.length → Enc d (m.take S) val →
    (d.isVar = true → d.hdr.maxSize ≤ m.length) → Careful cv d val cs →
    ∃ m' qs S' val', runAll cv d m cs = some (m', qs) ∧ Goes cv d val cs qs val' ∧ m'.length = m.length ∧
      IsTuple d m' S' ∧ d.getSize m' = some S' ∧ Enc d (m'.take S') val' ∧ (∀ pa, GetOk d m' val' pa) ∧
      (∀ pa t, d.typeAt pa = some t → t.isCont = true → d.elemCount m' pa = some (valCount (val'.at' pa))) ∧
      ∀ x, (if d.isVar then d.hdr.maxSize else d.hdr.size) ≤ x → m'[x]? = m[x]? := by
  have hd := hu.ok
  induction cs with
  | nil =>
    intro m S val hS he hroom _
    refine ⟨m, [], S, val, rfl, .nil val, rfl, ⟨hS, val, he⟩, (IsTuple.size hd (⟨hS, val, he⟩ : IsTuple d m S)).1, he,
      fun pa => getElem_ok pa hd hS he, fun pa t ht htc => elemCount_ok pa hd hS he ht htc, fun _ _ => rfl⟩
  | cons c r ih =>
    intro m S val hS he hroom hcar
    obtain ⟨hp, hrest⟩ := hcar
    obtain ⟨m1, q, S1, val1, k1, k2, k3, k4, k5, k6⟩ := call_ok hcv hu hS he hroom c hp
    obtain ⟨m', qs, S', val', g1, g2, g3, g4, g5, g6, g7, g8, g9⟩ :=
      ih (m := m1) (S := S1) (val := val1) (by omega) k4 (by rw [k2]; exact hroom) (hrest q val1 k5 ⟨_, k4⟩)
    refine ⟨m', q :: qs, S', val', ?_, .cons k5 g2, by omega, g4, g5, g6, g7, g8, ?_⟩
    · simp only [runAll, k1, g1]
    · intro x hx
      rw [g9 x hx]
      obtain ⟨_, _, z1, z2⟩ := IsTuple.size hd (⟨hS, val, he⟩ : IsTuple d m S)
      obtain ⟨_, _, y1, y2⟩ := IsTuple.size hd (⟨by omega, val1, k4⟩ : IsTuple d m1 S1)
      cases hv : d.isVar with
      | true =>
        rw [hv] at hx
        have := z1 hv; have := y1 hv
        exact k6 x (by simp only [if_true] at hx; omega) (by simp only [if_true] at hx; omega)
      | false =>
        rw [hv] at hx
        have := z2 hv; have := y2 hv
        exact k6 x (by simp only [Bool.false_eq_true, if_false] at hx; omega)
          (by simp only [Bool.false_eq_true, if_false] at hx; omega)

/-- A call whose arguments are modest enough whatever the tuple holds. -/
def Call.Modest (d : Dti) : Call → Prop
  | .set pa v _ => ∀ t, d.typeAt pa = some t → Accepts t v
  | .expand pa _ slots _ => ∀ t, d.typeAt pa = some t → t.isVarCount = true →
      t.hdr.maxSize + fixedEnd t slots < lim ∧
      ∀ c, t.cont = some c → c.isBit = true → c.eltBits ≤ 64 ∧ 8 * t.hdr.maxSize + slots < 256 ^ t.w
  | .discard pa _ _ => ∀ t c, d.typeAt pa = some t → t.cont = some c → c.isBit = true → c.eltBits ≤ 64
  | .copy pa d2 m2 _ _ =>
    Made d ∧ (∀ t, d.typeAt pa = some t → ShortNames t) ∧ Usable d2 ∧ Made d2 ∧ ∃ S2, IsTuple d2 m2 S2

theorem bitmapBytes_add (a b : Nat) : bitmapBytes (a + b) ≤ bitmapBytes a + bitmapBytes b := by
  unfold bitmapBytes; omega

theorem fixedEnd_add {t : Dti} (n s : Nat) (hv : t.isVarCount = true) : fixedEnd t (n + s) ≤ fixedEnd t n + fixedEnd t s := by
  cases t with
  | prim => simp [isVarCount] at hv
  | tup => simp [isVarCount] at hv
  | str b h => simp only [fixedEnd]; omega
  | arr h c =>
    simp only [fixedEnd, bitsOf]
    split
    · have := bitmapBytes_add (n * (c.needsValid.toNat + c.hdr.size)) (s * (c.needsValid.toNat + c.hdr.size))
      rw [Nat.add_mul]; omega
    · have := bitmapBytes_add (n * c.needsValid.toNat) (s * c.needsValid.toNat)
      rw [Nat.add_mul, Nat.add_mul]; omega

/-- The elements a container has fit its maximum size. -/
theorem count_fits {d t : Dti} {b : Bytes} {val : Val} {pa : List Nat} (hd : TyOk d) (he : Enc d b val)
    (ht : d.typeAt pa = some t) (hv : t.isVarCount = true) :
    fixedEnd t (valCount (val.at' pa)) ≤ t.hdr.maxSize := by
  have htk := (typeAt_ok pa hd ht).1
  obtain ⟨htc, htv, _⟩ := varCount_cont htk hv
  have hmax := htk.maxSize htv
  have h0 : fixedEnd t 0 ≤ t.hdr.maxSize := by
    have := fixedEnd_min htk
    have hm : minCount t = 0 := by simp [minCount, hv]
    rw [hm] at this
    omega
  cases ha : val.at' pa with
  | none => exact h0
  | some y =>
    rcases held_at pa hd (.inr (.inr ⟨b, he⟩)) ha ht with rfl | ⟨v, rfl, _⟩ | ⟨b', hb'⟩
    · exact h0
    · exact h0
    · obtain ⟨cs, o, vs, rfl, r, hvs⟩ := enc_cont htc hb'
      have h1 := r.mx htv
      have h2 := r.sum
      simp only [valCount, hvs.1]
      omega

/-- C63. Modest arguments are enough in every state, so that a caller need not look at the tuple
between the calls. -/
theorem C63_modest (cv : Conv) {d : Dti} (hu : Usable d) (cs : List Call) (hm : ∀ c ∈ cs, c.Modest d) :
    ∀ val, (∃ b, Enc d b val) → Careful cv d val cs := by
  have hd := hu.ok
  induction cs with
  | nil => intro _ _; trivial
  | cons c r ih =>
    intro val ⟨b, he⟩
    refine ⟨?_, fun q val' _ hv => ih (fun c hc => hm c (List.mem_cons_of_mem _ hc)) val' hv⟩
    have h := hm c (by simp)
    cases c with
    | set => exact h
    | discard => exact h
    | copy => exact h
    | expand pa index slots inc =>
      intro t ht hv
      obtain ⟨h1, h2⟩ := h t ht hv
      have h3 := count_fits hd he ht hv
      have h4 := fixedEnd_add (t := t) (valCount (val.at' pa)) slots hv
      refine ⟨by omega, fun c hc hb => ?_⟩
      obtain ⟨h5, h6⟩ := h2 c hc hb
      refine ⟨h5, ?_⟩
      have hk := (typeAt_ok pa hd ht).1
      obtain ⟨_, _, c', hc', hok, _⟩ := varCount_cont hk hv
      rw [hc] at hc'
      cases hc'
      have h7 : valCount (val.at' pa) ≤ 8 * t.hdr.maxSize := by
        cases t with
        | prim => simp [isVarCount] at hv
        | tup => simp [isVarCount] at hv
        | str b h => simp [cont] at hc; subst hc; simp [isBit, u8] at hb
        | arr h c0 =>
          simp only [cont, Option.some.injEq] at hc
          subst hc
          simp only [fixedEnd, bitsOf, hb, if_true] at h3
          have hs : 1 ≤ c0.needsValid.toNat + c0.hdr.size := by have := hok.size_pos; omega
          have := Nat.le_mul_of_pos_right (valCount (val.at' pa)) hs
          unfold bitmapBytes at h3
          have : (Dti.arr h c0).hdr = h := rfl
          rw [this] at h3 ⊢
          omega
      omega

/-- C63. From a type as a user builds it: a definition, a first tuple in any memory of the maximum size,
and any calls with modest arguments. -/
theorem C63_from_scratch {cv : Conv} (hcv : cv.Ok) {d : Dti} (hb : Built d) (hl : Limits d) (hc : d.isCont = true)
    {d0 sd : SizeDef} {d' : Dti} (h : initTupleDef d0 d = some (d', sd)) {m : Bytes} (hm : maxTupleSize sd ≤ m.length)
    (cs : List Call) (hcs : ∀ c ∈ cs, c.Modest d') :
    ∃ m0 m' qs val val', initTuple (d', sd) m = some (m0, Least d) ∧ (∀ pa, GetOk d' m0 val pa) ∧
      (∀ i pa, Blank d' m0 (i :: pa)) ∧
      runAll cv d' m0 cs = some (m', qs) ∧ Goes cv d' val cs qs val' ∧ (∀ pa, GetOk d' m' val' pa) ∧
      (∃ s, tupleSizeOf (d', sd) m' = some s ∧ minTupleSize sd ≤ s ∧ s ≤ maxTupleSize sd) ∧
      m'.length = m.length ∧ ∀ x, maxTupleSize sd ≤ x → m'[x]? = m[x]? := by
  have hf := limits_fits d hl
  obtain ⟨h1, h2, _, h4, h5, h6, h7⟩ := (C62_tuple_def hb hf d0).2 d' sd h
  have hu := (C62_usable hb hl).2 d' h1
  have hd := hu.ok
  obtain ⟨m0, e1, e2, ⟨e3, val, e4⟩, _, e6, e7⟩ := C62_first_tuple hb hl hc h (m := m) (by omega)
  obtain ⟨_, k2, k3⟩ := (finalize_spec hb hf).2 d' h1
  have hmx := finalize_max d d' h1
  have hroom : d'.isVar = true → d'.hdr.maxSize ≤ m0.length := by
    intro hv
    rw [k2] at hv
    rw [hv] at h6
    simp only [if_true] at h6
    omega
  obtain ⟨m', qs, S', val', g1, g2, g3, g4, g5, g6, g7, g8, g9⟩ :=
    C63_history hcv hu cs e3 e4 hroom (C63_modest cv hu cs hcs val ⟨_, e4⟩)
  have hmax : (if d'.isVar = true then d'.hdr.maxSize else d'.hdr.size) = maxTupleSize sd := by
    rw [h6, k2, hmx, k3]
  refine ⟨m0, m', qs, val, val', e1, fun pa => getElem_ok pa hd e3 e4, e7, g1, g2, g7, ⟨S', ?_, ?_, ?_⟩, by omega, ?_⟩
  · unfold initTupleDef initSizeDef at h
    split at h
    · cases h
    · simp only [Option.bind_eq_bind, Option.bind_eq_some_iff, Option.pure_def, Option.some.injEq, Prod.mk.injEq] at h
      obtain ⟨d2, a1, sd2, a2, rfl, rfl⟩ := h
      simp only [tupleSizeOf]
      rw [getSize_sizeDef a2, g5]
  · obtain ⟨_, _, z1, z2⟩ := g4.size hd
    rw [h4, ← k3]
    cases hv : d'.isVar with
    | true => exact (z1 hv).1
    | false => rw [z2 hv]; exact Nat.le_refl _
  · obtain ⟨_, _, z1, z2⟩ := g4.size hd
    rw [← hmax]
    cases hv : d'.isVar with
    | true => exact (z1 hv).2
    | false => rw [z2 hv]; exact Nat.le_refl _
  · intro x hx
    rw [g9 x (by rw [hmax]; exact hx)]
    exact e6 x (by omega)

/-- The calls of the example: the array is made and expanded, an element and the string are set, a value
is copied from another tuple, an element is discarded; the last one is refused. -/
def exCalls : List Call :=
  [.set [3] .empty 20, .expand [3] 0 2 20, .set [3, 1] (.uint 5) 0, .set [2] (.bytes [97, 98]) 20,
    .copy [1] exFinal exMem [0] 0, .discard [3] 0 1, .set [3, 1] (.uint 6) 0]

theorem exCalls_modest : ∀ c ∈ exCalls, c.Modest exFinal := by
  have hm : Made exFinal := raw_finalize _ _ exType_raw exType_finalize
  intro c hc
  simp only [exCalls, List.mem_cons, List.not_mem_nil, or_false] at hc
  rcases hc with rfl | rfl | rfl | rfl | rfl | rfl | rfl
  · intro t ht; exact .inr (.inl rfl)
  · intro t ht _
    cases ht
    refine ⟨by decide, fun c hc hb => ?_⟩
    cases hc; cases hb
  · intro t ht
    cases ht
    exact .inr (.inr ⟨_, rfl⟩)
  · intro t ht
    cases ht
    exact .inr (.inr ⟨_, rfl, by decide⟩)
  · refine ⟨hm, ?_, exFinal_usable, hm, 11, exMem_tuple⟩
    intro t ht
    cases ht
    simp [ShortNames, cname, strn]
  · intro t c ht hc hb
    cases ht; cases hc; cases hb
  · intro t ht
    cases ht
    exact .inr (.inr ⟨_, rfl⟩)

/-- The hypotheses of C63 hold of a type with all kinds of fields, memory of 901 bytes and seven calls; and
what they do. -/
example : Built exType ∧ Limits exType ∧ exType.isCont = true ∧
    initTupleDef ⟨true, 7, 7, false, true, true, true, 7⟩ exType = some (exFinal, ⟨true, 11, 900, true, false, true, true, 7⟩) ∧
    (∀ c ∈ exCalls, c.Modest exFinal) ∧
    (initTuple (exFinal, ⟨true, 11, 900, true, false, true, true, 7⟩) (List.replicate 901 255)).bind (fun r =>
      (runAll ieee exFinal r.1 exCalls).map (fun x => (x.2, x.1.take 19, x.1[900]?))) =
      some ([true, true, true, true, true, true, false],
        [19, 0, 0, 0, 0, 0, 0, 11, 0, 14, 0, 2, 97, 98, 1, 0, 3, 5, 0], some 255) := by
  refine ⟨exType_built, ?_, rfl, ?_, exCalls_modest, ?_⟩
  · have h4 : vsz 900 = 2 := by decide
    have h6 : vsz 300 = 2 := by decide
    have hl : lim = 2147483648 := rfl
    simp [Limits, LimitsAll, exType, Least, LeastAll, BitsAll, BitsOf, Varies, VariesAny, isBit, hdr, bitmapBytes, h4, h6, hl]
  · rfl
  · decide +kernel

end Props
end TS
