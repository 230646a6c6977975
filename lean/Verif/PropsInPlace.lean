import Verif.PropsPage3
import Verif.PropsElem
/-
Properties C50 and C53: the page layer and the element layer together.
-/
namespace TS
namespace Props
open Dti

variable {ps h : Nat} {ty : Dti} {d0 sd : SizeDef} {pg : Bytes} {s : Slots}

/-- The element update the page functions run: `can_set_element_in_tuple` and
`set_element_in_tuple` at position `pa` with the value `v` and no growth allowed,
/repo/src/page_layout_slotted.c:586-590, /repo/src/page_layout_fixed_array.c:429. -/
def elemEdit (ty : Dti) (pa : List Nat) (v : Datum) : Api.Edit :=
  ⟨fun t => ty.canSetElem t 0 v pa, fun t => ty.setElem t pa v 0⟩

/-- All bytes of `t` are one well formed tuple of type `ty`. -/
def Typed (ty : Dti) (t : Bytes) : Prop := IsTuple ty t t.length

theorem Typed.wellFormed (hu : Usable ty) (hsd : sizeDefOf d0 ty = some sd) {t : Bytes} (ht : Typed ty t) :
    WellFormed sd t := by
  obtain ⟨_, v, e⟩ := ht
  rw [List.take_length] at e
  obtain ⟨z1, z2, z3, z4, z5, z6⟩ := enc_size hu.ok e
  have hmin : minTupleSize sd = ty.hdr.size := by
    unfold sizeDefOf at hsd
    rw [z4] at hsd
    simp only [Bool.false_eq_true, if_false] at hsd
    unfold minTupleSize
    cases hv : ty.isVar with
    | false =>
      simp only [hv, Bool.not_false, if_true] at hsd
      split at hsd
      · cases hsd
      · cases hsd; rfl
    | true =>
      simp only [hv, Bool.not_true, Bool.false_eq_true, if_false] at hsd
      split at hsd
      · cases hsd
      · split at hsd
        · cases hsd; rfl
        · cases hc : ty.cont with
          | none => simp [hc] at hsd
          | some c => simp [hc] at hsd; rw [← hsd]
  refine ⟨by rw [getSize_sizeDef hsd]; exact z1, ?_, ?_⟩
  · rw [hmin]
    cases hv : ty.isVar with
    | true => exact (z5 hv).1
    | false => rw [z6 hv]; exact Nat.le_refl _
  · unfold lim at z3; exact z3

/-- What an element update does to the bytes of one tuple. -/
theorem elemEdit_spec (hu : Usable ty) {t : Bytes} (ht : Typed ty t) {pa : List Nat} {v : Datum}
    (hv : ∀ x, ty.typeAt pa = some x → Accepts x v) :
    ∃ m q n, ty.setElem t pa v 0 = some (m, q) ∧ ty.canSetElem t 0 v pa = some q ∧ m.length = t.length ∧
      n ≤ t.length ∧ Typed ty (m.take n) ∧ ty.getSize m = some n ∧ (q = false → n = t.length) ∧
      (∀ pb, Same (ty.getElem (m.take n) pb) (ty.getElem m pb)) ∧ SetArgs ty t t.length pa v 0 := by
  have ha : SetArgs ty t t.length pa v 0 := ⟨hu, ht, hv, fun _ => by simp; omega⟩
  have hd := hu.ok
  obtain ⟨hS, val, he⟩ := ht
  obtain ⟨m, q, S', val', k1, k2, k3, k4, k5, k6, k7, k8, k9⟩ := setElem_main hd hS he hv ha.room
  have hl : (m.take S').length = S' := by simp; omega
  have ht' : Typed ty (m.take S') := ⟨Nat.le_refl _, val', by rw [List.take_length]; exact k5⟩
  refine ⟨m, q, S', k1, k2, k3, by omega, ht', ?_, fun hq => (k8 hq).1, ?_, ha⟩
  · exact (IsTuple.size hd ⟨by rw [k3]; exact k4, val', k5⟩).1
  · intro pb
    exact getElem_same hd hd (S := S') (by omega) (by rw [List.take_take, Nat.min_self]; exact k5) (by omega) k5 rfl rfl

open Classical in
/-- The same update, refusing anything but well formed tuples. -/
noncomputable def guarded (ty : Dti) (pa : List Nat) (v : Datum) : Api.Edit :=
  ⟨fun t => if Typed ty t then ty.canSetElem t 0 v pa else some false,
   fun t => if Typed ty t then ty.setElem t pa v 0 else some (t, false)⟩

theorem guarded_ok (hu : Usable ty) (hsd : sizeDefOf d0 ty = some sd) {pa : List Nat} {v : Datum}
    (hv : ∀ x, ty.typeAt pa = some x → Accepts x v) : EditOk sd (guarded ty pa v) := by
  intro t hw
  by_cases ht : Typed ty t
  · obtain ⟨m, q, n, k1, k2, k3, k4, k5, k6, k7, _⟩ := elemEdit_spec hu ht hv
    refine ⟨⟨q, by simp [guarded, ht, k2]⟩, m, q, n, by simp [guarded, ht, k1], k3, k4, k5.wellFormed hu hsd, k7⟩
  · refine ⟨⟨false, by simp [guarded, ht]⟩, t, false, t.length, by simp [guarded, ht], rfl, Nat.le_refl _, ?_, fun _ => rfl⟩
    rw [List.take_length]; exact hw

/-- The page function only looks at what the setter does with the tuple addressed. -/
theorem setInPlace_congr {d : SizeDef} {i : Nat} {e e' : Api.Edit}
    (h : ∀ t, Api.readNth pg ps d i = some (some t) → e.can t = e'.can t ∧ e.set t = e'.set t) :
    Api.setInPlace pg ps d i e = Api.setInPlace pg ps d i e' := by
  unfold Api.setInPlace
  unfold Api.readNth Api.getNth at h
  cases hs : Api.slotted d with
  | true =>
    simp only [hs, if_true] at h
    simp only [if_true, Api.setInPlaceSlotted, Option.bind_eq_bind]
    cases h1 : Slotted.getNth pg ps i with
    | none => rfl
    | some x =>
      simp only [h1, Option.bind_eq_bind, Option.bind_some] at h ⊢
      cases x with
      | none => rfl
      | some o =>
        simp only at h ⊢
        cases h2 : tupleSize d (pg.drop o) with
        | none => rfl
        | some n =>
          simp only [h2, Option.bind_some] at h ⊢
          cases h3 : load pg o n with
          | none => rfl
          | some t =>
            simp only [h3, Option.bind_some] at h ⊢
            obtain ⟨a, b⟩ := h t rfl
            rw [a, b]
  | false =>
    simp only [hs, Bool.false_eq_true, if_false] at h
    have hf : d.isVar = false := hs
    simp only [Bool.false_eq_true, if_false, Api.setInPlaceFixed, Option.bind_eq_bind]
    cases h1 : Fixed.getNth pg ps d i with
    | none => rfl
    | some x =>
      simp only [h1, Option.bind_eq_bind, Option.bind_some] at h ⊢
      cases x with
      | none => rfl
      | some o =>
        simp only [tupleSize, hf, if_true, Option.bind_some] at h ⊢
        cases h3 : load pg o d.size with
        | none => rfl
        | some t =>
          simp only [h3, Option.bind_some] at h ⊢
          obtain ⟨a, b⟩ := h t rfl
          rw [b]

theorem guarded_eq {t : Bytes} (ht : Typed ty t) (pa : List Nat) (v : Datum) :
    (elemEdit ty pa v).can t = (guarded ty pa v).can t ∧ (elemEdit ty pa v).set t = (guarded ty pa v).set t := by
  simp [elemEdit, guarded, ht]

/-- Legal arguments of a call on a page of tuples of type `ty`: tuples given are well formed,
element updates are calls of `set_element_in_tuple_in_place_on_page` with a value that fits the
type of the element. -/
def TypedOp (h : Nat) (ty : Dti) : Op → Prop
  | .append ext | .insert _ ext | .update _ ext => ∀ t, ext = some t → Typed ty t
  | .setElem _ e => ∃ pa v, e = elemEdit ty pa v ∧ ∀ x, ty.typeAt pa = some x → Accepts x v
  | .writeHeader off bs => off + bs.length ≤ h
  | _ => True

/-- The page was obtained from a successful `init_page` by calls with legal arguments; the
specification of those calls, with the values actually returned, gives the logical page. -/
inductive TReach (ps h : Nat) (ty : Dti) (sd : SizeDef) : Bytes → Slots → Prop
  | init {pg0 pg1 : Bytes} : pg0.length = ps → Api.initPage pg0 ps h sd = some (pg1, true) →
      TReach ps h ty sd pg1 []
  | step {pg pg' : Bytes} {s s' : Slots} {op : Op} {r : Nat} : TReach ps h ty sd pg s → TypedOp h ty op →
      step ps sd pg op = some (pg', r) → SpecStep sd s op r s' → TReach ps h ty sd pg' s'

/-- All tuples of a logical page are well formed. -/
def AllTyped (ty : Dti) (s : Slots) : Prop := ∀ i t, lookup s i = some t → Typed ty t

theorem lookup_mem {i : Nat} {t : Bytes} (h : lookup s i = some t) : some t ∈ s :=
  List.mem_of_getElem? (lookup_eq_some.mp h)

theorem AllTyped.iff : AllTyped ty s ↔ ∀ t, some t ∈ s → Typed ty t := by
  constructor
  · intro h t ht
    obtain ⟨i, hi⟩ := List.getElem?_of_mem ht
    exact h i t (lookup_eq_some.mpr hi)
  · intro h i t hi
    exact h t (lookup_mem hi)

theorem mem_dropTrailing {x : Option Bytes} (h : x ∈ dropTrailing s) : x ∈ s := by
  unfold dropTrailing at h
  rw [List.mem_reverse] at h
  exact List.mem_reverse.mp ((List.dropWhile_sublist _).subset h)

theorem mem_swapSlots {i j : Nat} {x : Option Bytes} (h : x ∈ swapSlots s i j) : x ∈ s := by
  unfold swapSlots at h
  split at h
  · rename_i a b hi hj
    rcases List.mem_or_eq_of_mem_set h with h | rfl
    · rcases List.mem_or_eq_of_mem_set h with h | rfl
      · exact h
      · exact List.mem_of_getElem? hj
    · exact List.mem_of_getElem? hi
  · exact h

/-- Every legal call on a page of well formed tuples is defined, does what the specification says,
and leaves well formed tuples; stated with any invariant `J` of the page layer. -/
theorem typed_step_of {J : Bytes → Slots → Prop}
    (hstep : ∀ {pg s}, J pg s → ∀ {op}, OpOk h sd op → ∃ pg' r s', step ps sd pg op = some (pg', r) ∧ SpecStep sd s op r s' ∧ J pg' s')
    (hobs : ∀ {pg s}, J pg s → Observe ps sd pg s) (hu : Usable ty) (hsd : sizeDefOf d0 ty = some sd)
    (hr : J pg s) (ht : AllTyped ty s) {op : Op} (ho : TypedOp h ty op) :
    ∃ pg' r s', step ps sd pg op = some (pg', r) ∧ SpecStep sd s op r s' ∧ J pg' s' ∧ AllTyped ty s' := by
  have hext : ∀ ext : Option Bytes, (∀ t, ext = some t → Typed ty t) → ExtOk sd ext :=
    fun ext hx t hh => (hx t hh).wellFormed hu hsd
  rw [AllTyped.iff] at ht
  cases op with
  | append ext =>
    obtain ⟨pg', r, s', h1, h2, h3⟩ := hstep hr (op := .append ext) (hext ext ho)
    refine ⟨pg', r, s', h1, h2, h3, AllTyped.iff.mpr fun t hm => ?_⟩
    rcases h2 with ⟨_, rfl⟩ | ⟨_, rfl⟩
    · rcases List.mem_append.mp hm with hm | hm
      · exact ht t hm
      · exact ho t (by simpa using (List.mem_singleton.mp hm).symm)
    · exact ht t hm
  | insert i ext =>
    obtain ⟨pg', r, s', h1, h2, h3⟩ := hstep hr (op := .insert i ext) (hext ext ho)
    refine ⟨pg', r, s', h1, h2, h3, AllTyped.iff.mpr fun t hm => ?_⟩
    rcases h2 with ⟨_, _, rfl⟩ | ⟨_, rfl⟩
    · rcases List.mem_append.mp hm with hm | hm
      · exact ht t (List.mem_of_mem_take hm)
      · rcases List.mem_cons.mp hm with hm | hm
        · exact ho t hm.symm
        · exact ht t (List.mem_of_mem_drop hm)
    · exact ht t hm
  | update i ext =>
    obtain ⟨pg', r, s', h1, h2, h3⟩ := hstep hr (op := .update i ext) (hext ext ho)
    refine ⟨pg', r, s', h1, h2, h3, AllTyped.iff.mpr fun t hm => ?_⟩
    rcases h2 with ⟨_, _, rfl⟩ | ⟨_, rfl⟩
    · rcases List.mem_or_eq_of_mem_set hm with hm | hm
      · exact ht t hm
      · exact ho t hm.symm
    · exact ht t hm
  | discard i =>
    obtain ⟨pg', r, s', h1, h2, h3⟩ := hstep hr (op := .discard i) trivial
    refine ⟨pg', r, s', h1, h2, h3, AllTyped.iff.mpr fun t hm => ?_⟩
    rcases h2 with ⟨_, _, rfl⟩ | ⟨_, _, rfl⟩
    · exact ht t (List.mem_of_mem_eraseIdx hm)
    · exact ht t hm
  | discardAll =>
    obtain ⟨pg', r, s', h1, h2, h3⟩ := hstep hr (op := .discardAll) trivial
    refine ⟨pg', r, s', h1, h2, h3, AllTyped.iff.mpr fun t hm => ?_⟩
    rw [h2.2] at hm; cases hm
  | discardTrailing =>
    obtain ⟨pg', r, s', h1, h2, h3⟩ := hstep hr (op := .discardTrailing) trivial
    refine ⟨pg', r, s', h1, h2, h3, AllTyped.iff.mpr fun t hm => ?_⟩
    rw [h2.2] at hm
    exact ht t (mem_dropTrailing hm)
  | swap i j =>
    obtain ⟨pg', r, s', h1, h2, h3⟩ := hstep hr (op := .swap i j) trivial
    refine ⟨pg', r, s', h1, h2, h3, AllTyped.iff.mpr fun t hm => ?_⟩
    rcases h2 with ⟨_, _, _, rfl⟩ | ⟨_, _, rfl⟩
    · exact ht t (mem_swapSlots hm)
    · exact ht t hm
  | compact mem =>
    obtain ⟨pg', r, s', h1, h2, h3⟩ := hstep hr (op := .compact mem) trivial
    refine ⟨pg', r, s', h1, h2, h3, AllTyped.iff.mpr fun t hm => ?_⟩
    rw [h2.2.2] at hm; exact ht t hm
  | zeroOut =>
    obtain ⟨pg', r, s', h1, h2, h3⟩ := hstep hr (op := .zeroOut) trivial
    refine ⟨pg', r, s', h1, h2, h3, AllTyped.iff.mpr fun t hm => ?_⟩
    rw [h2.2] at hm; exact ht t hm
  | writeHeader off bs =>
    obtain ⟨pg', r, s', h1, h2, h3⟩ := hstep hr (op := .writeHeader off bs) ho
    refine ⟨pg', r, s', h1, h2, h3, AllTyped.iff.mpr fun t hm => ?_⟩
    rw [h2.2] at hm; exact ht t hm
  | setElem i e =>
    obtain ⟨pa, v, rfl, hv⟩ := ho
    have hg := guarded_ok hu hsd hv
    obtain ⟨pg', r, s', h1, h2, h3⟩ := hstep hr (op := .setElem i (guarded ty pa v)) hg
    have hread := (hobs hr).read i
    have hcong : Api.setInPlace pg ps sd i (elemEdit ty pa v) = Api.setInPlace pg ps sd i (guarded ty pa v) := by
      refine setInPlace_congr fun t hx => ?_
      rw [hread] at hx
      exact guarded_eq (ht t (lookup_mem (by simpa using hx))) pa v
    refine ⟨pg', r, s', by simpa only [step, hcong] using h1, ?_, h3, ?_⟩
    · rcases h2 with h2 | ⟨t, t', a1, a2, a3⟩
      · exact Or.inl h2
      · refine Or.inr ⟨t, t', a1, ?_, a3⟩
        obtain ⟨g1, g2⟩ := guarded_eq (ht t (lookup_mem a1)) pa v
        unfold EditEffect at a2 ⊢
        rw [g1, g2]; exact a2
    · rw [AllTyped.iff]
      intro u hm
      rcases h2 with ⟨_, _, rfl⟩ | ⟨t, t', a1, a2, rfl⟩
      · exact ht u hm
      · rcases List.mem_or_eq_of_mem_set hm with hm | hm
        · exact ht u hm
        · cases hm
          have htt := ht t (lookup_mem a1)
          obtain ⟨m, q, n, k1, k2, k3, k4, k5, k6, k7, _⟩ := elemEdit_spec hu htt hv
          unfold EditEffect at a2
          split at a2
          · rw [a2.2]; exact htt
          · obtain ⟨m2, ok, n2, b1, b2, b3, b4⟩ := a2
            rw [← (guarded_eq htt pa v).2] at b1
            simp only [elemEdit, k1, Option.some.injEq, Prod.mk.injEq] at b1
            obtain ⟨rfl, rfl⟩ := b1
            rw [getSize_sizeDef hsd, k6] at b2
            cases b2
            rw [b3]; exact k5

/-- The same with the reachability of the page layer. -/
theorem typed_step (l : Legal ps h sd) (hu : Usable ty) (hsd : sizeDefOf d0 ty = some sd)
    (hr : Reach ps h sd pg s) (ht : AllTyped ty s) {op : Op} (ho : TypedOp h ty op) :
    ∃ pg' r s', step ps sd pg op = some (pg', r) ∧ SpecStep sd s op r s' ∧ Reach ps h sd pg' s' ∧ AllTyped ty s' :=
  typed_step_of (J := Reach ps h sd) (fun hr _ ho => reach_step l hr ho) (fun hr => (hr.rep l.fit).observe) hu hsd hr ht ho

/-- A page of well formed tuples is reachable in the sense of the page layer, so everything proved
about reachable pages (C02-C24) holds with `set_element_in_tuple_in_place_on_page` among the
calls; and its tuples stay well formed. -/
theorem TReach.reach (l : Legal ps h sd) (hu : Usable ty) (hsd : sizeDefOf d0 ty = some sd)
    (hr : TReach ps h ty sd pg s) : Reach ps h sd pg s ∧ AllTyped ty s := by
  induction hr with
  | init h1 h2 =>
    exact ⟨⟨_, _, [], [], h1, h2, by simp, rfl, .nil _⟩, fun i t hx => by simp [lookup] at hx⟩
  | step _ ho hs hsp ih =>
    obtain ⟨r1, r2⟩ := ih
    obtain ⟨pg', r, s', h1, h2, h3, h4⟩ := typed_step l hu hsd r1 r2 ho
    rw [hs] at h1
    cases h1
    have := SpecStep.det hsp h2
    subst this
    exact ⟨h3, h4⟩

/-- C53. On a page whose tuples were all given well formed, every further legal call, including
in-place updates of elements, is defined (no access outside of the page, no arithmetic wrap), does
what the specification says, and leaves a page whose tuples are well formed. -/
theorem C53_typed_pages (l : Legal ps h sd) (hu : Usable ty) (hsd : sizeDefOf d0 ty = some sd)
    (hr : TReach ps h ty sd pg s) :
    (∀ i t, lookup s i = some t → Typed ty t) ∧ Observe ps sd pg s ∧
    ∀ op, TypedOp h ty op → ∃ pg' r s', step ps sd pg op = some (pg', r) ∧ SpecStep sd s op r s' ∧
      TReach ps h ty sd pg' s' := by
  obtain ⟨r1, r2⟩ := hr.reach l hu hsd
  refine ⟨r2, (r1.rep l.fit).observe, fun op ho => ?_⟩
  obtain ⟨pg', r, s', h1, h2, _, _⟩ := typed_step l hu hsd r1 r2 ho
  exact ⟨pg', r, s', h1, h2, .step hr ho h1 h2⟩

/-- C50. `set_element_in_tuple_in_place_on_page` on a page of well formed tuples. If there is a tuple
`t` at the index: the call succeeds exactly if `can_set_element_in_tuple` says so without growth;
the tuple becomes what `set_element_in_tuple` makes of it, a well formed tuple that is not larger;
every other tuple and the page header are unchanged and the occupied space is exact; a failing call
leaves every element of every tuple as it was. If there is no tuple at the index it fails and
changes no byte. -/
theorem C50_set_in_place (l : Legal ps h sd) (hu : Usable ty) (hsd : sizeDefOf d0 ty = some sd)
    (hr : TReach ps h ty sd pg s) (i : Nat) {pa : List Nat} {v : Datum}
    (hv : ∀ x, ty.typeAt pa = some x → Accepts x v) :
    (∀ t, lookup s i = some t → ∃ pg' b t', Api.setInPlace pg ps sd i (elemEdit ty pa v) = some (pg', b) ∧
      ty.canSetElem t 0 v pa = some b ∧ TReach ps h ty sd pg' (s.set i (some t')) ∧
      Api.readNth pg' ps sd i = some (some t') ∧ Typed ty t' ∧ t'.length ≤ t.length ∧
      (∃ m, ty.setElem t pa v 0 = some (m, b) ∧ ∀ pb, Same (ty.getElem t' pb) (ty.getElem m pb)) ∧
      (∀ pb, b = false ∨ (¬ pa <+: pb ∧ ¬ pb <+: pa) → Same (ty.getElem t' pb) (ty.getElem t pb)) ∧
      (∀ j, j ≠ i → Api.readNth pg' ps sd j = Api.readNth pg ps sd j) ∧
      Api.spaceOcc pg' ps sd = some (usedSpace ps sd (s.set i (some t'))) ∧
      Api.readHeader pg' ps = Api.readHeader pg ps) ∧
    (lookup s i = none → Api.setInPlace pg ps sd i (elemEdit ty pa v) = some (pg, false)) := by
  obtain ⟨r1, r2⟩ := hr.reach l hu hsd
  have hg := guarded_ok hu hsd hv
  have hread := ((r1.rep l.fit).observe).read i
  have hcong : Api.setInPlace pg ps sd i (elemEdit ty pa v) = Api.setInPlace pg ps sd i (guarded ty pa v) := by
    refine setInPlace_congr fun t hx => ?_
    rw [hread] at hx
    exact guarded_eq (r2 i t (by simpa using hx)) pa v
  obtain ⟨c1, c2⟩ := C50_in_place l r1 i hg
  refine ⟨fun t hi => ?_, fun hi => by rw [hcong]; exact c2 hi⟩
  obtain ⟨pg', b, t', e1, e2, e3, e4, e5, e6, e7⟩ := c1 t hi
  have htt := r2 i t hi
  obtain ⟨m, q, n, k1, k2, k3, k4, k5, k6, k7, k8, ha⟩ := elemEdit_spec hu htt hv
  have hil : i < s.length := (List.getElem?_eq_some_iff.mp (lookup_eq_some.mp hi)).1
  obtain ⟨g1, g2⟩ := guarded_eq htt pa v
  have heff : EditEffect sd (elemEdit ty pa v) t b.toNat t' := by
    unfold EditEffect at e2 ⊢
    rw [g1, g2]; exact e2
  -- the verdict and the tuple left behind
  have hbq : b = q ∧ ((q = false ∧ t' = t) ∨ t' = m.take n) := by
    unfold EditEffect at e2
    rw [← g1, ← g2] at e2
    simp only [elemEdit, k1, k2] at e2
    split at e2
    · rename_i hc
      have hq : q = false := by simpa using hc.2
      refine ⟨?_, Or.inl ⟨hq, e2.2⟩⟩
      subst hq
      cases b <;> simp_all
    · obtain ⟨m2, ok, n2, b1, b2, b3, b4⟩ := e2
      simp only [Option.some.injEq, Prod.mk.injEq] at b1
      obtain ⟨rfl, rfl⟩ := b1
      rw [getSize_sizeDef hsd, k6] at b2
      cases b2
      refine ⟨?_, Or.inr b3⟩
      cases b <;> cases q <;> simp_all
  obtain ⟨rfl, hcase⟩ := hbq
  have hold : ∀ pb, b = false ∨ (¬ pa <+: pb ∧ ¬ pb <+: pa) → Same (ty.getElem m pb) (ty.getElem t pb) :=
    fun pb hp => C35_others_unchanged ha k1 hp
  have hsame : ∀ pb, Same (ty.getElem t' pb) (ty.getElem m pb) := by
    intro pb
    rcases hcase with ⟨hq, rfl⟩ | rfl
    · rcases hold pb (Or.inl hq) with hh | ⟨x, y, h1, h2⟩
      · exact Or.inl hh.symm
      · exact Or.inr ⟨y, x, h2, h1⟩
    · exact k8 pb
  have htyp : Typed ty t' := by
    rcases hcase with ⟨_, rfl⟩ | rfl
    · exact htt
    · exact k5
  refine ⟨pg', b, t', by rw [hcong]; exact e1, k2, ?_, ?_, htyp, ?_, ⟨m, k1, hsame⟩, ?_, e6, e5, e7⟩
  · refine .step hr (op := .setElem i (elemEdit ty pa v)) ⟨pa, v, rfl, hv⟩ (r := b.toNat) ?_ ?_
    · simp [step, hcong, e1]
    · exact Or.inr ⟨t, t', hi, heff, rfl⟩
  · rw [e3.read i]; simp [lookup, hil]
  · rcases hcase with ⟨_, rfl⟩ | rfl
    · exact Nat.le_refl _
    · simp; omega
  · intro pb hp
    rcases hcase with ⟨_, rfl⟩ | rfl
    · exact Or.inl rfl
    · rcases hsame pb with h1 | ⟨x, y, h1, h2⟩
      · rw [h1]; exact hold pb hp
      · rcases hold pb hp with h3 | ⟨x', y', h3, h4⟩
        · exact Or.inr ⟨x, y, h1, by rw [← h3]; exact h2⟩
        · exact Or.inr ⟨x, y', h1, h4⟩

/-! ### example: a page of 128 bytes with a tuple whose integer is set in place -/

/-- The size definition of the example type. -/
def exSd : SizeDef := ⟨true, 11, 900, true, false, false, false, 0⟩

/-- The minimal tuple of the example type. -/
def exTup : Bytes := [11, 0, 0, 0, 0, 0, 0, 0, 0, 0, 0]

theorem exSd_of : sizeDefOf ⟨false, 0, 0, false, false, false, false, 0⟩ exFinal = some exSd := rfl

theorem exTup_typed : Typed exFinal exTup := by
  refine ⟨by decide, ?_⟩
  exact min_enc exFinal_usable.ok rfl

theorem exPage_legal : Legal 128 4 exSd := ⟨by decide, by decide, by decide, by decide, by decide⟩

/-- The page after `init_page` and one `append_tuple_on_page`. -/
def exPage1 : Option Bytes := do
  let (p, _) ← Api.initPage (List.replicate 128 85) 128 4 exSd
  let (p, _) ← Api.append p 128 exSd (some exTup)
  pure p

theorem exPage_reach : ∃ pg, exPage1 = some pg ∧ TReach 128 4 exFinal exSd pg [some exTup] := by
  have h0 : ∃ p, Api.initPage (List.replicate 128 85) 128 4 exSd = some (p, true) := by
    cases hx : Api.initPage (List.replicate 128 85) 128 4 exSd with
    | none => exact absurd hx (by decide +kernel)
    | some x =>
      obtain ⟨p, b⟩ := x
      have : (Api.initPage (List.replicate 128 85) 128 4 exSd).map Prod.snd = some true := by decide +kernel
      rw [hx] at this
      simp at this
      exact ⟨p, by rw [this]⟩
  obtain ⟨p, hp⟩ := h0
  have hr : TReach 128 4 exFinal exSd p [] := .init (by decide +kernel) hp
  obtain ⟨_, _, hstep⟩ := C53_typed_pages exPage_legal exFinal_usable exSd_of hr
  have hop : TypedOp 4 exFinal (.append (some exTup)) := fun t ht => by cases ht; exact exTup_typed
  obtain ⟨p', r, s', h1, h2, h3⟩ := hstep _ hop
  have hx : ((Api.initPage (List.replicate 128 85) 128 4 exSd).bind (fun x =>
      Api.append x.1 128 exSd (some exTup))).map Prod.snd = some true := by decide +kernel
  rw [hp] at hx
  simp only [Option.bind_some] at hx
  simp only [step, Option.bind_eq_bind] at h1
  cases ha : Api.append p 128 exSd (some exTup) with
  | none => rw [ha] at h1; cases h1
  | some y =>
    rw [ha] at h1 hx
    obtain ⟨p2, b⟩ := y
    simp only [Option.map_some, Option.some.injEq] at hx
    subst hx
    simp only [Option.bind_some, Option.pure_def, Option.some.injEq, Prod.mk.injEq] at h1
    obtain ⟨rfl, rfl⟩ := h1
    rcases h2 with ⟨_, rfl⟩ | ⟨h2, _⟩
    · exact ⟨p2, by unfold exPage1; rw [hp]; simp only [Option.bind_eq_bind, Option.bind_some]; rw [ha]; rfl, by simpa using h3⟩
    · simp at h2

/-- The integer is set in place and read back; the string can not be, since the tuple would grow. -/
example : exPage1.bind (fun p => (Api.setInPlace p 128 exSd 0 (elemEdit exFinal [1] (.int (-7)))).bind (fun x =>
    (Api.readNth x.1 128 exSd 0).bind (fun t => (exFinal.getElem (t.getD []) [1]).map (fun v => (x.2, v))))) =
      some (true, some (.int (-7))) ∧
    (exPage1.bind (fun p => Api.setInPlace p 128 exSd 0 (elemEdit exFinal [2] (.bytes [97])))).map Prod.snd =
      some false := by
  constructor <;> decide +kernel

end Props
end TS
