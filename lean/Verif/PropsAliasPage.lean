import Verif.AliasPage
import Verif.PropsAlias2
import Verif.PropsPointer
/-
C75. Setting an element of a tuple of a page to a datum that points into the same page.
-/
namespace TS
namespace Props
open Dti

variable {ps h : Nat} {ty : Dti} {d0 sd : SizeDef} {pg : Bytes} {s : Slots}

/-- The page functions give the element functions all of the page behind the tuple; that is as good as the
tuple alone. -/
theorem inPlaceAt_eq (l : Legal ps h sd) (hu : Usable ty) (hsd : sizeDefOf d0 ty = some sd) (hr : TReach ps h ty sd pg s)
    {i o : Nat} {t : Bytes} (hi : lookup s i = some t) (hg : Api.getNth pg ps sd i = some (some o)) {pa : List Nat} {v : Loc}
    {w : Datum} (hden : v.den pg = some w) (hv : ∀ x, ty.typeAt pa = some x → Accepts x w)
    (hset : ty.setElemAt pg o pa v 0 = atOff pg o (fun c => ty.setElem c pa w 0)) :
    Api.setInPlaceAt pg ps sd ty i pa v = Api.setInPlace pg ps sd i (elemEdit ty pa w) := by
  obtain ⟨r1, r2⟩ := hr.reach l hu hsd
  have r := r1.rep l.fit
  rcases r.getNth i with ⟨o', t', h1, h2, h3, h4, h5⟩ | h1
  case inr => rw [hg] at h1; cases h1.1
  rw [hg] at h1; cases h1
  rw [lookup_some h2] at hi; cases hi
  obtain ⟨m, q, n, k1, k2, k3, k4, k5, k6, k7, k8, -⟩ := elemEdit_spec hu (r2 i t (lookup_some h2)) hv
  have hdrop : pg.drop o = t ++ pg.drop (o + t.length) := by
    rw [← List.drop_drop]
    conv => lhs; rw [← List.take_append_drop t.length (pg.drop o)]
    congr 1
  have hcan : ty.canSetElem (pg.drop o) 0 w pa = some q := by
    rw [hdrop]; exact canSetElem_frame pa w ty t _ 0 q k2
  have hs := (setElem_frame ty t (pg.drop (o + t.length)) pa w 0 m q k1).2
  rw [← hdrop] at hs
  have hat : ty.setElemAt pg o pa v 0 = some (wr pg o m, q) := by
    rw [hset, atOff_eq, hs]
    rw [wr_eq _ _ _ (by omega), k3]
    simp only [Option.map_some, List.append_assoc]
  have hsz : ∀ x, tupleSize sd x = ty.getSize x := fun x => getSize_sizeDef hsd x
  have hst : store pg o m = some (wr pg o m) := store_eq (by omega)
  have hld : load pg o t.length = some t := by rw [load_eq h3, h4]
  unfold Api.setInPlaceAt Api.setInPlace
  cases hsl : Api.slotted sd with
  | true =>
    simp only [Api.getNth, hsl, if_true] at hg
    simp only [if_true, Api.setInPlaceSlottedAt, Api.setInPlaceSlotted, hg, Option.bind_eq_bind, Option.bind_some, hden, hcan, hat, elemEdit,
      h5, hld, k1, k2, hst, ← hsz]
  | false =>
    simp only [Api.getNth, hsl, Bool.false_eq_true, if_false] at hg
    simp only [Bool.false_eq_true, if_false, Api.setInPlaceFixedAt, Api.setInPlaceFixed, hg, Option.bind_eq_bind, Option.bind_some, hat, elemEdit]
    have hlen : t.length = sd.size := by
      simp only [Api.slotted] at hsl
      simp only [tupleSize, hsl, if_true, Option.some.injEq] at h5
      omega
    rw [← hlen, hld]
    simp only [Option.bind_some, k1, hst, Option.pure_def]

/-- The bytes of two tuples of a page do not overlap. -/
theorem tuples_apart (r : PRep ps h sd pg s) {i j o oj : Nat} {t tj : Bytes} (hij : i ≠ j) (hi : lookup s i = some t)
    (hj : lookup s j = some tj) (hg : Api.getNth pg ps sd i = some (some o)) (hgj : Api.getNth pg ps sd j = some (some oj)) :
    oj + tj.length ≤ o ∨ o + t.length ≤ oj := by
  have hi' := lookup_eq_some.mp hi
  have hj' := lookup_eq_some.mp hj
  rcases r with r | ⟨r, hw⟩
  · have hpl : ∀ {k a : Nat} {u : Bytes}, s[k]? = some (some u) → Api.getNth pg ps sd k = some (some a) → a = word ps h pg (4 + k) := by
      intro k a u hk ha
      have hlv := r.live hk
      have hp := r.off_pos hk
      have : Slotted.getNth pg ps k = some (some (word ps h pg (4 + k))) := by
        simp only [Slotted.getNth, r.tupleCount, Option.bind_eq_bind, Option.bind_some]
        rw [if_neg (by omega), r.tupOff hlv.2.2.2.2]
        simp; omega
      simp only [Api.getNth, slotted_var r, if_true, this, Option.some.injEq] at ha
      omega
    have e1 := hpl hi' hg
    have e2 := hpl hj' hgj
    have := r.lay.disj i j t tj hij hi' hj'
    omega
  · have g1 := getNth_slot r hi'
    have g2 := getNth_slot r hj'
    rw [hg] at g1; rw [hgj] at g2
    cases g1; cases g2
    have z1 : t.length = sd.size := (r.data i t hi').1
    have z2 : tj.length = sd.size := (r.data j tj hj').1
    rcases Nat.lt_or_gt_of_ne hij with c | c
    · have := Fixed.tAddr_mono (ps := ps) (h := h) (d := sd) (show i + 1 ≤ j from c)
      rw [Fixed.tAddr_succ] at this
      omega
    · have := Fixed.tAddr_mono (ps := ps) (h := h) (d := sd) (show j + 1 ≤ i from c)
      rw [Fixed.tAddr_succ] at this
      omega

/-- The bytes of a tuple where the page has it. -/
theorem tuple_at (l : Legal ps h sd) (hu : Usable ty) (hsd : sizeDefOf d0 ty = some sd) (hr : TReach ps h ty sd pg s) {i o : Nat} {t : Bytes}
    (hi : lookup s i = some t) (hg : Api.getNth pg ps sd i = some (some o)) :
    o + t.length ≤ pg.length ∧ (pg.drop o).take t.length = t ∧ ∃ val, Enc ty t val := by
  obtain ⟨r1, r2⟩ := hr.reach l hu hsd
  rcases (r1.rep l.fit).getNth i with ⟨o', t', h1, h2, h3, h4, h5⟩ | h1
  case inr => rw [hg] at h1; cases h1.1
  rw [hg] at h1; cases h1
  rw [lookup_some h2] at hi; cases hi
  obtain ⟨-, val, e⟩ := r2 i t (lookup_some h2)
  rw [List.take_length] at e
  exact ⟨h3, h4, val, e⟩

/-- C75. Setting an element of a tuple in place to a datum that points into the same page, at bytes that are
none of that tuple, does what setting it to those bytes out of another buffer does. -/
theorem C75_elsewhere (l : Legal ps h sd) (hu : Usable ty) (hsd : sizeDefOf d0 ty = some sd) (hr : TReach ps h ty sd pg s)
    {i o x e : Nat} {t : Bytes} (hi : lookup s i = some t) (hg : Api.getNth pg ps sd i = some (some o)) {pa : List Nat} {u : Dti}
    (hty : ty.typeAt pa = some u) {v : Loc} {w : Datum} (hden : v.den pg = some w) (hv : Accepts u w) (hw : v.within u pg x e)
    (hx : e ≤ o ∨ o + t.length ≤ x) :
    Api.setInPlaceAt pg ps sd ty i pa v = Api.setInPlace pg ps sd i (elemEdit ty pa w) := by
  obtain ⟨k1, k2, val, k3⟩ := tuple_at l hu hsd hr hi hg
  refine inPlaceAt_eq l hu hsd hr hi hg hden (fun y hy => by rw [hty] at hy; cases hy; exact hv) ?_
  exact setElemAt_clear hu.ok k1 (by rw [k2]; exact k3) hty hden hv hw (by omega)

/-- C75. If there is no tuple at the index or no element at the position nothing is changed, wherever the datum lies. -/
theorem C75_nothing (l : Legal ps h sd) (hu : Usable ty) (hsd : sizeDefOf d0 ty = some sd) (hr : TReach ps h ty sd pg s)
    {i : Nat} {pa : List Nat} (hn : lookup s i = none ∨ ty.typeAt pa = none) {v : Loc} {w : Datum} (hden : v.den pg = some w) :
    Api.setInPlaceAt pg ps sd ty i pa v = some (pg, false) := by
  cases hi : lookup s i with
  | none =>
    have hp := (hr.reach l hu hsd).1.rep l.fit
    rcases hp.getNth i with ⟨o, t, h1, h2, -⟩ | ⟨h1, -⟩
    · rw [lookup_some h2] at hi; cases hi
    · unfold Api.setInPlaceAt
      cases hsl : Api.slotted sd with
      | true =>
        simp only [Api.getNth, hsl, if_true] at h1
        simp only [if_true, Api.setInPlaceSlottedAt, h1, Option.bind_eq_bind, Option.bind_some, Option.pure_def]
      | false =>
        simp only [Api.getNth, hsl, Bool.false_eq_true, if_false] at h1
        simp only [Bool.false_eq_true, if_false, Api.setInPlaceFixedAt, h1, Option.bind_eq_bind, Option.bind_some, Option.pure_def]
  | some t =>
    have hty : ty.typeAt pa = none := by
      rcases hn with hn | hn
      · rw [hi] at hn; cases hn
      · exact hn
    have hp := (hr.reach l hu hsd).1.rep l.fit
    rcases hp.getNth i with ⟨o, t', h1, h2, h3, h4, h5⟩ | ⟨h1, h2⟩
    · have hset : ty.setElemAt pg o pa v 0 = atOff pg o (fun c => ty.setElem c pa w 0) := by
        have : atOff pg o (fun c => ty.setElem c pa w 0) = some (pg, false) := by
          simp only [atOff_eq, setElem, hty, Option.map_some, List.take_append_drop]
        rw [this]
        unfold setElemAt
        cases v with
        | val y => cases hden; exact this
        | bytes a k => simp only [hty]
        | ptr a => simp only [hty]
      rw [inPlaceAt_eq l hu hsd hr hi h1 hden (fun y hy => by rw [hty] at hy; cases hy) hset]
      rw [lookup_some h2] at hi; cases hi
      have hst : ty.setElem t pa w 0 = some (t, false) := by simp only [setElem, hty]
      obtain ⟨m, q, n, k1, k2, -⟩ := elemEdit_spec hu ((hr.reach l hu hsd).2 i t (lookup_some h2)) (pa := pa) (v := w)
        (fun y hy => by rw [hty] at hy; cases hy)
      rw [hst] at k1; cases k1
      have hld : load pg o t.length = some t := by rw [load_eq h3, h4]
      unfold Api.setInPlace
      cases hsl : Api.slotted sd with
      | true =>
        simp only [Api.getNth, hsl, if_true] at h1
        simp only [if_true, Api.setInPlaceSlotted, h1, h5, hld, elemEdit, k2, Option.bind_eq_bind, Option.bind_some, Option.pure_def,
          Bool.not_false]
      | false =>
        simp only [Api.getNth, hsl, Bool.false_eq_true, if_false] at h1
        have hlen : t.length = sd.size := by
          simp only [Api.slotted] at hsl
          simp only [tupleSize, hsl, if_true, Option.some.injEq] at h5
          omega
        have hw : wr pg o t = pg := by
          have hd : t ++ pg.drop (o + t.length) = pg.drop o := by
            rw [← List.drop_drop]
            conv => rhs; rw [← List.take_append_drop t.length (pg.drop o)]
            congr 1
            exact h4.symm
          rw [wr_eq _ _ _ h3, List.append_assoc, hd, List.take_append_drop]
        rw [hlen] at hld
        simp only [Bool.false_eq_true, if_false, Api.setInPlaceFixed, h1, hld, elemEdit, hst, store_eq h3, hw, Option.bind_eq_bind,
          Option.bind_some, Option.pure_def]
    · exact absurd (lookup_eq_some.mp hi) (h2 t)

/-- What an element of a tuple of the page reads as, by address and by value. -/
theorem read_loc (l : Legal ps h sd) (hu : Usable ty) (hm : Made ty) (hsd : sizeDefOf d0 ty = some sd) (hr : TReach ps h ty sd pg s)
    {j oj : Nat} {t tj : Bytes} (ht : Typed ty t) (hj : lookup s j = some tj)
    (hgj : Api.getNth pg ps sd j = some (some oj)) {pa pa2 : List Nat} {u u2 : Dti}
    (hty : ty.typeAt pa = some u) (hn : ShortNames u) (hty2 : ty.typeAt pa2 = some u2)
    (hid : ident u u2 = some true ∨ (u.isStr = true ∧ u2.isStr = true)) {v : Loc}
    (hv : ty.getElemLoc pg oj pa2 = some (some v)) :
    ∃ w, v.den pg = some w ∧ ty.getElem (pg.drop oj) pa2 = some (some w) ∧ Accepts u w ∧ IsTuple ty (pg.drop oj) tj.length ∧
      ((∃ x, v = .val x) ∨ v.within u pg oj (oj + tj.length)) := by
  obtain ⟨k1, k2, val, k3⟩ := tuple_at l hu hsd hr hj hgj
  have hl : tj.length ≤ (pg.drop oj).length := by simp; omega
  have henc : Enc ty ((pg.drop oj).take tj.length) val := by rw [k2]; exact k3
  have hag := getElem_loc (S := tj.length) (val := val) pa2 (o := oj) hu.ok k1 henc
  rw [hv] at hag
  obtain ⟨w, w1, w2⟩ := hag
  have hit : IsTuple ty (pg.drop oj) tj.length := ⟨hl, val, henc⟩
  have hc : CopyArgs ty t t.length pa ty (pg.drop oj) tj.length 0 :=
    ⟨hu, hm, ht, fun _ => by omega, fun y hy => by rw [hty] at hy; cases hy; exact hn, hu, hm, hit⟩
  have hacc : Accepts u w := by
    rcases hid with hid | ⟨g1, g2⟩
    · exact (copy_ident hc hty hty2 w2 hid).datum u hty
    · cases u <;> simp only [isStr, Bool.false_eq_true] at g1
      cases u2 <;> simp only [isStr, Bool.false_eq_true] at g2
      exact (C49_string ieee hc hty hty2 w2).2.1.datum _ hty
  refine ⟨w, w1, w2, hacc, hit, ?_⟩
  rcases getElem_points (S := tj.length) (val := val) pa2 (o := oj) hu.ok k1 henc hv with hx | ⟨a, n, u', hs, hp⟩
  · exact .inl hx
  · obtain ⟨s1, s2, s3, s4, s5, y, s6⟩ := spot_in pa2 hu.ok hl henc hs
    rw [hty2] at s4; cases s4
    cases v with
    | val x => exact .inl ⟨x, rfl⟩
    | bytes a k => obtain ⟨p1, p2, -⟩ := hp; exact .inr ⟨k1, by omega, by omega⟩
    | ptr a' =>
      refine .inr ⟨k1, ?_⟩
      obtain ⟨p1, p2, -⟩ := hp
      have hid : ident u u2 = some true := by
        rcases hid with hid | ⟨-, hid⟩
        · exact hid
        · rw [p2] at hid; cases hid
      have hsame := ident_same (hm.sub pa hty) (hm.sub pa2 hty2) hid
      refine ⟨by omega, n, ?_, by omega⟩
      rw [SameTy.getSize (show SameTy false u u2 from hsame), p1, ← List.drop_drop]
      exact s5

/-- C75. In particular an element of one tuple of a page can be set in place to what `get_value_from_element_from_tuple`
returned for an element of another tuple of the page, if their types are identical or both are strings: that
does what setting it to a copy of that value does. -/
theorem C75_other_tuple (l : Legal ps h sd) (hu : Usable ty) (hm : Made ty) (hsd : sizeDefOf d0 ty = some sd)
    (hr : TReach ps h ty sd pg s) {i j o oj : Nat} {t tj : Bytes} (hij : i ≠ j) (hi : lookup s i = some t) (hj : lookup s j = some tj)
    (hg : Api.getNth pg ps sd i = some (some o)) (hgj : Api.getNth pg ps sd j = some (some oj)) {pa pa2 : List Nat} {u u2 : Dti}
    (hty : ty.typeAt pa = some u) (hn : ShortNames u) (hty2 : ty.typeAt pa2 = some u2)
    (hid : ident u u2 = some true ∨ (u.isStr = true ∧ u2.isStr = true)) {v : Loc}
    (hv : ty.getElemLoc pg oj pa2 = some (some v)) :
    ∃ w, v.den pg = some w ∧ ty.getElem (pg.drop oj) pa2 = some (some w) ∧ Accepts u w ∧
      Api.setInPlaceAt pg ps sd ty i pa v = Api.setInPlace pg ps sd i (elemEdit ty pa w) := by
  obtain ⟨r1, r2⟩ := hr.reach l hu hsd
  obtain ⟨w, w1, w2, w3, w4, w5⟩ := read_loc l hu hm hsd hr (r2 i t hi) hj hgj hty hn hty2 hid hv
  refine ⟨w, w1, w2, w3, ?_⟩
  rcases w5 with ⟨x, rfl⟩ | w5
  · cases w1
    exact inPlaceAt_eq l hu hsd hr hi hg rfl (fun y hy => by rw [hty] at hy; cases hy; exact w3) rfl
  · exact C75_elsewhere l hu hsd hr hi hg hty w1 w3 w5 (tuples_apart (r1.rep l.fit) hij hi hj hg hgj)

/-- C75. If the types are identical and the call succeeds, the element of the one tuple reads like that of the other,
strings aside so does everything inside of it, and all other tuples are as they were. -/
theorem C75_reads (l : Legal ps h sd) (hu : Usable ty) (hm : Made ty) (hsd : sizeDefOf d0 ty = some sd)
    (hr : TReach ps h ty sd pg s) {i j o oj : Nat} {t tj : Bytes} (hij : i ≠ j) (hi : lookup s i = some t) (hj : lookup s j = some tj)
    (hg : Api.getNth pg ps sd i = some (some o)) (hgj : Api.getNth pg ps sd j = some (some oj)) {pa pa2 : List Nat} {u u2 : Dti}
    (hty : ty.typeAt pa = some u) (hn : ShortNames u) (hty2 : ty.typeAt pa2 = some u2)
    (hid : ident u u2 = some true) {v : Loc} (hv : ty.getElemLoc pg oj pa2 = some (some v)) :
    ∃ pg' b t', Api.setInPlaceAt pg ps sd ty i pa v = some (pg', b) ∧ TReach ps h ty sd pg' (s.set i (some t')) ∧
      (b = true → Same (ty.getElem t' pa) (ty.getElem tj pa2) ∧
        ((∀ b h, u ≠ .str b h) → ∀ pb, Same (ty.getElem t' (pa ++ pb)) (ty.getElem tj (pa2 ++ pb)))) ∧
      (∀ pb, b = false ∨ (¬ pa <+: pb ∧ ¬ pb <+: pa) → Same (ty.getElem t' pb) (ty.getElem t pb)) := by
  obtain ⟨w, w1, w2, w3, w4⟩ := C75_other_tuple l hu hm hsd hr hij hi hj hg hgj hty hn hty2 (.inl hid) hv
  obtain ⟨r1, r2⟩ := hr.reach l hu hsd
  obtain ⟨pg', b, t', e1, -, e3, e4, e5, -, ⟨m, e7, e8⟩, e9, -⟩ := (C50_set_in_place l hu hsd hr i
    (fun y hy => by rw [hty] at hy; cases hy; exact w3)).1 t hi
  refine ⟨pg', b, t', by rw [w4]; exact e1, e3, ?_, e9⟩
  rintro rfl
  obtain ⟨k1, k2, val, k3⟩ := tuple_at l hu hsd hr hj hgj
  have hl : tj.length ≤ (pg.drop oj).length := by simp; omega
  have henc : Enc ty ((pg.drop oj).take tj.length) val := by rw [k2]; exact k3
  have hc : CopyArgs ty t t.length pa ty (pg.drop oj) tj.length 0 :=
    ⟨hu, hm, r2 i t hi, fun _ => by omega, fun y hy => by rw [hty] at hy; cases hy; exact hn, hu, hm, hl, val, henc⟩
  obtain ⟨f1, -, f3⟩ := C49_identical ieee hc hty hty2 w2 hid
  obtain ⟨g1, -, g3⟩ := f3 m (by rw [f1]; exact e7)
  have hsrc : ∀ pb, Same (ty.getElem (pg.drop oj) pb) (ty.getElem tj pb) := fun pb =>
    getElem_same hu.ok hu.ok hl henc (Nat.le_refl tj.length) (by rw [List.take_length]; exact k3) rfl rfl
  exact ⟨same_trans' (e8 _) (same_trans' g1 (hsrc _)), fun hs pb => same_trans' (e8 _) (same_trans' (g3 hs pb) (hsrc _))⟩

/-- The same datum, seen from the tuple at `o`. -/
def Loc.back (o : Nat) : Loc → Loc
  | .val v => .val v
  | .bytes a k => .bytes (a - o) k
  | .ptr a => .ptr (a - o)

theorem back_points {v : Loc} {o a n : Nat} {t : Dti} (hp : PointsTo v o a n t) : PointsTo (Loc.back o v) 0 a n t := by
  cases v with
  | val x => trivial
  | bytes x k => exact ⟨by have := hp.1; omega, hp.2.1, hp.2.2⟩
  | ptr x => exact ⟨by have := hp.1; omega, hp.2.1, hp.2.2⟩

/-- C75. An element of a tuple can also be set in place to what was read from an element of the same tuple, if it
has a fixed size. -/
theorem C75_same_fixed (l : Legal ps h sd) (hu : Usable ty) (hm : Made ty) (hsd : sizeDefOf d0 ty = some sd)
    (hr : TReach ps h ty sd pg s) {i o : Nat} {t : Bytes} (hi : lookup s i = some t)
    (hg : Api.getNth pg ps sd i = some (some o)) {pa pa2 : List Nat} {u u2 : Dti}
    (hty : ty.typeAt pa = some u) (hf : u.isVar = false) (hn : ShortNames u) (hty2 : ty.typeAt pa2 = some u2)
    (hid : ident u u2 = some true ∨ (u.isStr = true ∧ u2.isStr = true)) {v : Loc}
    (hv : ty.getElemLoc pg o pa2 = some (some v)) :
    ∃ w, v.den pg = some w ∧ ty.getElem (pg.drop o) pa2 = some (some w) ∧ Accepts u w ∧
      Api.setInPlaceAt pg ps sd ty i pa v = Api.setInPlace pg ps sd i (elemEdit ty pa w) := by
  obtain ⟨r1, r2⟩ := hr.reach l hu hsd
  obtain ⟨w, w1, w2, w3, w4, w5⟩ := read_loc l hu hm hsd hr (r2 i t hi) hi hg hty hn hty2 hid hv
  refine ⟨w, w1, w2, w3, inPlaceAt_eq l hu hsd hr hi hg w1 (fun y hy => by rw [hty] at hy; cases hy; exact w3) ?_⟩
  obtain ⟨k1, k2, val, k3⟩ := tuple_at l hu hsd hr hi hg
  have hl : t.length ≤ (pg.drop o).length := by simp; omega
  have henc : Enc ty ((pg.drop o).take t.length) val := by rw [k2]; exact k3
  rcases getElem_points (S := t.length) (val := val) pa2 (o := o) hu.ok k1 henc hv with ⟨x, rfl⟩ | ⟨a, n, u', hs, hp⟩
  · cases w1; rfl
  · have := (spot_in pa2 hu.ok hl henc hs).2.2.2.1
    rw [hty2] at this; cases this
    have hcl := copy_clear hu.ok hl henc hty hf hid hs (back_points hp)
    have key : v.points → ty.setElemILoc pg o 0 v false pa = atOff pg o (fun c => ty.setElemI c 0 w false pa) := by
      intro hpt
      refine setElemILoc_fixed hpt w1 hf pa hu.ok k1 henc hty ?_
      intro q i b k c n h1 h2 h3 x hx
      cases v with
      | val y => exact hx.elim
      | bytes y k =>
        have h0 := hp.1
        obtain ⟨x1, x2⟩ := hx
        have := hcl q i b _ c n h1 h2 h3 (x - o) ⟨by omega, by omega⟩
        omega
      | ptr y =>
        have h0 := hp.1
        obtain ⟨x1, x2⟩ := hx
        have := hcl q i b _ c n h1 h2 h3 (x - o) ⟨by omega, by omega⟩
        omega
    unfold setElemAt
    cases v with
    | val y => cases w1; rfl
    | bytes y k =>
      simp only [setElem, hty, hf]
      exact key (fun v => by simp)
    | ptr y =>
      simp only [setElem, hty, hf]
      exact key (fun v => by simp)

/-- C75. If it has a variable size, it can be set so if the element and every container around it within the tuple is
the last one in its container, or else begins behind the end of the source. -/
theorem C75_same_front (l : Legal ps h sd) (hu : Usable ty) (hm : Made ty) (hsd : sizeDefOf d0 ty = some sd)
    (hr : TReach ps h ty sd pg s) {i o a2 n2 : Nat} {t : Bytes} (hi : lookup s i = some t)
    (hg : Api.getNth pg ps sd i = some (some o)) {pa pa2 : List Nat} {u u2 : Dti}
    (hty : ty.typeAt pa = some u) (hf : u.isVar = true) (hn : ShortNames u) (hs2 : Spot ty (pg.drop o) pa2 a2 n2 u2)
    (hid : ident u u2 = some true ∨ (u.isStr = true ∧ u2.isStr = true))
    (hfr : ∀ q i a n u b k c, q ++ [i] <+: pa → Spot ty (pg.drop o) (q ++ [i]) a n u → u.isVar = true →
      Spot ty (pg.drop o) q b k c → a + n = b + k ∨ a2 + n2 ≤ a) {v : Loc}
    (hv : ty.getElemLoc pg o pa2 = some (some v)) :
    ∃ w, v.den pg = some w ∧ ty.getElem (pg.drop o) pa2 = some (some w) ∧ Accepts u w ∧
      Api.setInPlaceAt pg ps sd ty i pa v = Api.setInPlace pg ps sd i (elemEdit ty pa w) := by
  obtain ⟨r1, r2⟩ := hr.reach l hu hsd
  obtain ⟨k1, k2, val, k3⟩ := tuple_at l hu hsd hr hi hg
  have hl : t.length ≤ (pg.drop o).length := by simp; omega
  have henc : Enc ty ((pg.drop o).take t.length) val := by rw [k2]; exact k3
  obtain ⟨s1, s2, s3, hty2, s5, y, s6⟩ := spot_in pa2 hu.ok hl henc hs2
  obtain ⟨w, w1, w2, w3, w4, w5⟩ := read_loc l hu hm hsd hr (r2 i t hi) hi hg hty hn hty2 hid hv
  refine ⟨w, w1, w2, w3, inPlaceAt_eq l hu hsd hr hi hg w1 (fun y hy => by rw [hty] at hy; cases hy; exact w3) ?_⟩
  rcases getElem_points (S := t.length) (val := val) pa2 (o := o) hu.ok k1 henc hv with ⟨x, rfl⟩ | ⟨a', n', u', hs, hp⟩
  · cases w1; rfl
  · have h4 := (spot_in pa2 hu.ok hl henc hs).2.2.2.1
    rw [hty2] at h4; cases h4
    have hkey : v.points → ty.setElemILoc pg o 0 v true pa = atOff pg o (fun c => ty.setElemI c 0 w true pa) := by
      intro hpt
      by_cases hla : ty.Last (pg.drop o) pa
      · refine setElemILoc_var hpt w1 hf pa hu.ok k1 henc hty hla ?_
        intro q hq x k hx
        subst hx
        have := target_clear hu.ok hl henc hty hf hla hid hs (back_points hp) q hq _ _ rfl
        have h0 := hp.1
        omega
      · obtain ⟨a, hmv⟩ := moves_of_not_last pa hla
        obtain ⟨q, i, n, u', b, k, c, h1, h2, h3, h4, h5⟩ := moves_spot pa hu.ok hl henc hmv
        have hle : a2 + n2 ≤ a := (hfr q i a n u' b k c h1 h2 h3 h4).resolve_left h5
        obtain ⟨-, -, -, -, k5, -⟩ := spot_in pa2 hu.ok hl henc hs
        obtain ⟨-, -, e3⟩ := spot_under (pb := []) pa2 hu.ok hl henc hs2 (by simpa using hs)
        have hae : a' = a2 := by
          obtain ⟨e4, -, -⟩ := e3
          obtain ⟨e5, -, e6⟩ := spot_under (pb := []) pa2 hu.ok hl henc hs (by simpa using hs2)
          obtain ⟨e7, -, -⟩ := e6
          omega
        subst hae
        rw [s5] at k5; cases k5
        have hlow : LowAt u v w pg (o + a' + n2) ∧ v.from (o + a') := by
          cases v with
          | val v => exact absurd rfl (hpt v)
          | bytes x j =>
            obtain ⟨p1, p2, -⟩ := hp
            have hb : x + j ≤ pg.length := by omega
            simp only [Loc.den, load_eq hb, Option.bind_eq_bind, Option.bind_some, Option.pure_def, Option.some.injEq] at w1
            subst w1
            exact ⟨⟨by omega, by omega, rfl⟩, by show o + a' ≤ x; omega⟩
          | ptr x =>
            obtain ⟨p1, p2, -⟩ := hp
            have hid : ident u u2 = some true := by
              rcases hid with hi | ⟨_, hi⟩
              · exact hi
              · rw [p2] at hi; cases hi
            have hsame := ident_same (hm.sub pa hty) (hm.sub pa2 hty2) hid
            simp only [Loc.den, Option.some.injEq] at w1
            subst w1
            subst p1
            refine ⟨⟨by omega, n2, ?_, by omega, by rw [List.length_drop]; omega, rfl⟩, Nat.le_refl _⟩
            have hz := (enc_size s1 s6).1
            have hnl : (((pg.drop o).drop a').take n2).length = n2 := by rw [List.length_take, List.length_drop]; omega
            rw [hnl] at hz
            rw [SameTy.getSize (show SameTy false u u2 from hsame), ← List.drop_drop]
            exact hz
        exact setElemILoc_front hf hlow.1 hlow.2 pa hu.ok k1 henc hty hmv (by omega)
          (Or.inr ⟨pa2, a', n2, u2, hs2, by omega, by omega⟩)
    unfold setElemAt
    cases v with
    | val y => cases w1; rfl
    | bytes y k =>
      simp only [setElem, hty, hf]
      exact hkey (fun v => by simp)
    | ptr y =>
      simp only [setElem, hty, hf]
      exact hkey (fun v => by simp)

deriving instance DecidableEq for TS.Loc

/-! ### example: a page of 128 bytes with two tuples -/

/-- The size definition of the type of the examples. -/
def aliasSd : SizeDef := ⟨true, 15, 100, true, false, false, false, 0⟩

theorem aliasSd_of : sizeDefOf ⟨false, 0, 0, false, false, false, false, 0⟩ aliasFin = some aliasSd := rfl

theorem aliasPage_legal : Legal 128 4 aliasSd := ⟨by decide, by decide, by decide, by decide, by decide⟩

/-- The page of the examples, `init_page` and two `append_tuple_on_page`: `aliasTwo` and `aliasMem`. -/
def aliasPage : Bytes :=
  [4, 0, 0, 0, 0, 62, 2, 0, 68, 105, 68] ++ List.replicate 57 85 ++ aliasMem.take 37 ++ aliasTwo.take 23

theorem aliasPage_made : (Api.initPage (List.replicate 128 85) 128 4 aliasSd).bind (fun x =>
    (Api.append x.1 128 aliasSd (some (aliasTwo.take 23))).bind (fun y =>
      (Api.append y.1 128 aliasSd (some (aliasMem.take 37))).map (fun z => (z.1, x.2, y.2, z.2)))) =
    some (aliasPage, true, true, true) := by decide +kernel

/-- A successful `append_tuple_on_page` of a well formed tuple. -/
theorem append_reach (l : Legal ps h sd) (hu : Usable ty) (hsd : sizeDefOf d0 ty = some sd) (hr : TReach ps h ty sd pg s) {t pg' : Bytes}
    (ht : Typed ty t) (ha : Api.append pg ps sd (some t) = some (pg', true)) : TReach ps h ty sd pg' (s ++ [some t]) := by
  obtain ⟨_, _, hstep⟩ := C53_typed_pages l hu hsd hr
  obtain ⟨p', r, s', h1, h2, h3⟩ := hstep (.append (some t)) (fun x hx => by cases hx; exact ht)
  simp only [step, Option.bind_eq_bind, ha, Option.bind_some, Option.pure_def, Option.some.injEq, Prod.mk.injEq] at h1
  obtain ⟨rfl, rfl⟩ := h1
  rcases h2 with ⟨_, rfl⟩ | ⟨h2, _⟩
  · exact h3
  · simp at h2

theorem take_typed {d : Dti} {m : Bytes} {S : Nat} (hm : IsTuple d m S) : Typed d (m.take S) := by
  obtain ⟨hS, val, e⟩ := hm
  have hl : (m.take S).length = S := by simp; omega
  exact ⟨Nat.le_refl _, val, by rw [List.take_length]; exact e⟩

theorem aliasPage_reach : TReach 128 4 aliasFin aliasSd aliasPage [some (aliasTwo.take 23), some (aliasMem.take 37)] := by
  have hm := aliasPage_made
  cases h0 : Api.initPage (List.replicate 128 85) 128 4 aliasSd with
  | none => rw [h0] at hm; cases hm
  | some x =>
    rw [h0, Option.bind_some] at hm
    cases h1 : Api.append x.1 128 aliasSd (some (aliasTwo.take 23)) with
    | none => rw [h1] at hm; cases hm
    | some y =>
      rw [h1, Option.bind_some] at hm
      cases h2 : Api.append y.1 128 aliasSd (some (aliasMem.take 37)) with
      | none => rw [h2] at hm; cases hm
      | some z =>
        rw [h2, Option.map_some, Option.some.injEq, Prod.mk.injEq, Prod.mk.injEq, Prod.mk.injEq] at hm
        obtain ⟨x, bx⟩ := x
        obtain ⟨y, yx⟩ := y
        obtain ⟨z, bz⟩ := z
        obtain ⟨m1, m2, m3, m4⟩ := hm
        dsimp only at m1 m2 m3 m4
        subst m1; subst m2; subst m3; subst m4
        exact append_reach aliasPage_legal aliasFin_usable aliasSd_of
          (append_reach (s := []) aliasPage_legal aliasFin_usable aliasSd_of (.init (by decide +kernel) h0) (take_typed aliasTwo_tuple) h1)
          (take_typed aliasMem_tuple) h2

theorem aliasFin_made : Made aliasFin := raw_finalize _ _ aliasTy_raw aliasTy_finalize

/-- The hypotheses of `C75_elsewhere`, `C75_other_tuple` and `C75_reads` are met by setting the second string of the tuple at
index 0 to the string in the first array of the tuple at index 1; the answer is 1, and it reads like that
one afterwards. -/
example : Legal 128 4 aliasSd ∧ Usable aliasFin ∧ Made aliasFin ∧
    TReach 128 4 aliasFin aliasSd aliasPage [some (aliasTwo.take 23), some (aliasMem.take 37)] ∧
    Api.getNth aliasPage 128 aliasSd 0 = some (some 105) ∧ Api.getNth aliasPage 128 aliasSd 1 = some (some 68) ∧
    (∃ u, aliasFin.typeAt [1] = some u ∧ ShortNames u ∧ aliasFin.typeAt [4, 0] = some u ∧ ident u u = some true ∧
      aliasFin.getElemLoc aliasPage 68 [4, 0] = some (some (.bytes 95 2)) ∧ (Loc.bytes 95 2).within u aliasPage 95 97 ∧
      (Loc.bytes 95 2).den aliasPage = some (.bytes [65, 66]) ∧ Accepts u (.bytes [65, 66])) ∧
    (Api.setInPlaceAt aliasPage 128 aliasSd aliasFin 0 [1] (.bytes 95 2)).bind (fun x =>
      (Api.readNth x.1 128 aliasSd 0).bind (fun t => (aliasFin.getElem (t.getD []) [1]).map (fun v => (x.2, v)))) =
        some (true, some (.bytes [65, 66])) := by
  refine ⟨aliasPage_legal, aliasFin_usable, aliasFin_made, aliasPage_reach, by decide +kernel, by decide +kernel,
    ⟨_, rfl, by simp [ShortNames, cname, strn], rfl, by decide +kernel, by decide +kernel, ⟨by decide +kernel, by decide, by decide⟩, by decide +kernel, ?_⟩, by decide +kernel⟩
  exact .inr (.inr ⟨_, rfl, by decide⟩)

/-- There is no element at `[9]`, and no tuple at index 2. -/
example : aliasFin.typeAt [9] = none ∧ lookup [some (aliasTwo.take 23), some (aliasMem.take 37)] 2 = none ∧
    (Loc.bytes 95 2).den aliasPage = some (.bytes [65, 66]) := ⟨by decide, by decide, by decide +kernel⟩

/-- The hypotheses of `C75_same_fixed` are met by setting one BINARY of four bytes of the tuple at index 1 to
the other; the answer is 1. -/
example : (∃ u, aliasFin.typeAt [3] = some u ∧ u.isVar = false ∧ ShortNames u ∧ aliasFin.typeAt [2] = some u ∧ ident u u = some true ∧
      aliasFin.getElemLoc aliasPage 68 [2] = some (some (.bytes 72 4))) ∧
    (Api.setInPlaceAt aliasPage 128 aliasSd aliasFin 1 [3] (.bytes 72 4)).bind (fun x =>
      (Api.readNth x.1 128 aliasSd 1).bind (fun t => (aliasFin.getElem (t.getD []) [3]).map (fun v => (x.2, v)))) =
        some (true, some (.bytes [1, 2, 3, 4])) :=
  ⟨⟨_, rfl, rfl, by simp [ShortNames, cname, strn], rfl, by decide +kernel, by decide +kernel⟩, by decide +kernel⟩

/-- The hypotheses of `C75_same_front` are met by setting the second string of the tuple at index 1, which is not the last
element in memory, to the first one; the answer is 1. -/
example : (∃ u, aliasFin.typeAt [1] = some u ∧ u.isVar = true ∧ ShortNames u ∧ ident u u = some true ∧
      Spot aliasFin (aliasPage.drop 68) [0] 15 3 u ∧ aliasFin.getElemLoc aliasPage 68 [0] = some (some (.bytes 84 2))) ∧
    (∀ q i a n u b k c, q ++ [i] <+: [1] → Spot aliasFin (aliasPage.drop 68) (q ++ [i]) a n u → u.isVar = true →
      Spot aliasFin (aliasPage.drop 68) q b k c → a + n = b + k ∨ 15 + 3 ≤ a) ∧
    (Api.setInPlaceAt aliasPage 128 aliasSd aliasFin 1 [1] (.bytes 84 2)).bind (fun x =>
      (Api.readNth x.1 128 aliasSd 1).bind (fun t => (aliasFin.getElem (t.getD []) [1]).map (fun v => (x.2, v)))) =
        some (true, some (.bytes [97, 98])) := by
  refine ⟨⟨_, rfl, rfl, by simp [ShortNames, cname, strn], by decide +kernel, ?_, by decide +kernel⟩, ?_, by decide +kernel⟩
  · exact ⟨rfl, 7, posOf aliasFin 7 0, 15, 0, rfl, by decide, rfl, rfl, by decide +kernel, rfl, rfl, rfl, by decide +kernel⟩
  · intro q i a n u b k c h hs _ _
    have hl := h.length_le
    rw [List.length_append, List.length_singleton, List.length_singleton] at hl
    have hq : q = [] := List.eq_nil_of_length_eq_zero (by omega)
    subst hq
    have hi : i = 1 := by simpa using h
    subst hi
    obtain ⟨-, k, p, o, b', h1, h2, h3, h4, h5, h6, h7, -⟩ := hs
    have h3' : aliasFin.posInfo (aliasPage.drop 68) 1 = some (posOf aliasFin 7 1) := rfl
    rw [h3'] at h3; cases h3
    have h5' : aliasFin.ptrAt (aliasPage.drop 68) (posOf aliasFin 7 1) = some (some 18) := by decide +kernel
    rw [h5'] at h5; cases h5
    omega

/-- C75. Without such a condition the source is destroyed before it is copied: here a string of a tuple of a page
is set in place to what was just read from that very string. The answer is 1, and the string reads otherwise. -/
theorem C75_onto_itself : ∃ ps h d0 sd ty pg s i o pa v x y, Legal ps h sd ∧ Usable ty ∧ sizeDefOf d0 ty = some sd ∧ TReach ps h ty sd pg s ∧
    Api.getNth pg ps sd i = some (some o) ∧ ty.getElemLoc pg o pa = some (some v) ∧ v.den pg = some (.bytes x) ∧
    (Api.setInPlaceAt pg ps sd ty i pa v).bind (fun r => (Api.readNth r.1 ps sd i).bind (fun t =>
      (ty.getElem (t.getD []) pa).map (fun z => (r.2, z)))) = some (true, some (.bytes y)) ∧ x ≠ y :=
  ⟨128, 4, ⟨false, 0, 0, false, false, false, false, 0⟩, aliasSd, aliasFin, aliasPage,
    [some (aliasTwo.take 23), some (aliasMem.take 37)], 0, 105, [0], .bytes 121 2, [97, 98], [119, 120], aliasPage_legal, aliasFin_usable,
    aliasSd_of, aliasPage_reach, by decide +kernel, by decide +kernel, by decide +kernel, by decide +kernel, by decide⟩

end Props
end TS
