import Verif.AliasClear
import Verif.Frame
import Verif.PropsInPlace
/-
Setting an element of a tuple of a page to a datum that points into the same page.
-/
namespace TS

namespace Dti

/-- `set_element_in_tuple`, /repo/src/tuple.c:275-285, for the tuple at offset `o` of the memory `m` and a
datum that may point into the same memory. -/
def setElemAt (d : Dti) (m : Bytes) (o : Nat) (pa : List Nat) (v : Loc) (inc : Nat) : Option (Bytes × Bool) :=
  match v with
  | .val v => atOff m o (fun c => d.setElem c pa v inc)
  | v =>
    match d.typeAt pa with
    | none => some (m, false)
    | some t => d.setElemILoc m o inc v t.isVar pa

end Dti

namespace Api

/-- `set_element_in_tuple_in_place_slotted_page`, /repo/src/page_layout_slotted.c:574-605, with a value
that may point into the page: the element functions get the address of the tuple, and so all of the
page from there on. `get_tuple_size` is that of the type. -/
def setInPlaceSlottedAt (pg : Bytes) (ps : Nat) (ty : Dti) (i : Nat) (pa : List Nat) (v : Loc) : Option (Bytes × Bool) := do
  match ← Slotted.getNth pg ps i with
  | none => pure (pg, false)
  | some o => do
    let old ← ty.getSize (pg.drop o)
    if !(← ty.canSetElem (pg.drop o) 0 (← v.den pg) pa) then pure (pg, false)
    else do
      let (pg, ok) ← ty.setElemAt pg o pa v 0
      if ok then do
        let new ← ty.getSize (pg.drop o)
        let occ ← loadVal pg ps (← Slotted.offOcc pg ps)
        let pg ← storeVal pg ps (← Slotted.offOcc pg ps) ((occ + new + 4294967296 - old) % 4294967296)
        pure (pg, true)
      else pure (pg, false)

/-- `set_element_in_tuple_in_place_fixed_array_page`, /repo/src/page_layout_fixed_array.c:418-430, likewise. -/
def setInPlaceFixedAt (pg : Bytes) (ps : Nat) (sd : SizeDef) (ty : Dti) (i : Nat) (pa : List Nat) (v : Loc) :
    Option (Bytes × Bool) := do
  match ← Fixed.getNth pg ps sd i with
  | none => pure (pg, false)
  | some o => ty.setElemAt pg o pa v 0

/-- `set_element_in_tuple_in_place_on_page`, /repo/src/page_layout.c:248-258, likewise. -/
def setInPlaceAt (pg : Bytes) (ps : Nat) (sd : SizeDef) (ty : Dti) (i : Nat) (pa : List Nat) (v : Loc) : Option (Bytes × Bool) :=
  if slotted sd then setInPlaceSlottedAt pg ps ty i pa v else setInPlaceFixedAt pg ps sd ty i pa v

end Api

namespace Dti

/-- What setting an element of type `t` reads through the datum lies at `x` or behind it and in front of `e`. -/
def _root_.TS.Loc.within (l : Loc) (t : Dti) (m : Bytes) (x e : Nat) : Prop :=
  e ≤ m.length ∧
  match l with
  | .val _ => False
  | .bytes a k => x ≤ a ∧ a + k ≤ e
  | .ptr a => x ≤ a ∧ ∃ n, t.getSize (m.drop a) = some n ∧ a + n ≤ e

/-- Setting an element when the source is apart from the tuple and the room it may grow into. -/
theorem setElemAt_clear {d t : Dti} {m : Bytes} {o S inc x e : Nat} {val : Val} {l : Loc} {w : Datum} {pa : List Nat}
    (h : TyOk d) (hS : o + S ≤ m.length) (he : Enc d ((m.drop o).take S) val) (ht : d.typeAt pa = some t)
    (hd : l.den m = some w) (ha : Props.Accepts t w) (hw : l.within t m x e) (hx : e ≤ o ∨ o + S + inc ≤ x) :
    d.setElemAt m o pa l inc = atOff m o (fun c => d.setElem c pa w inc) := by
  have hp : l.points := by intro v hv; subst hv; exact hw.2
  obtain ⟨htok, htv⟩ := typeAt_ok pa h ht
  have hloc : d.setElemAt m o pa l inc = d.setElemILoc m o inc l t.isVar pa := by
    unfold setElemAt
    cases l with
    | val v => exact absurd rfl (hp v)
    | _ => simp only [ht]
  have hset : (fun c => d.setElem c pa w inc) = fun c => d.setElemI c inc w t.isVar pa := by
    funext c
    simp only [setElem, ht]
  rw [hloc, hset]
  obtain ⟨hel, hw⟩ := hw
  cases hv : t.isVar with
  | true =>
    have hlow : LowAt t l w m e ∧ l.from x := by
      refine ⟨⟨hel, ?_⟩, ?_⟩
      · cases l with
        | val v => exact absurd rfl (hp v)
        | bytes a k =>
          simp only [Loc.den, load_eq (show a + k ≤ m.length by omega), Option.bind_eq_bind, Option.bind_some, Option.pure_def,
            Option.some.injEq] at hd
          subst hd
          exact ⟨hw.2, rfl⟩
        | ptr a =>
          simp only [Loc.den, Option.some.injEq] at hd
          subst hd
          obtain ⟨w1, n, w2, w3⟩ := hw
          rcases ha with ha | ha | ha
          · cases ha
          · cases ha
          · have : Props.IsTuple t (m.drop a) n := by
              cases t with
              | prim k hh => cases htok with | prim _ _ _ h2 => simp only [isVar, hdr, h2, Bool.false_eq_true] at hv
              | str b hh => obtain ⟨_, ha, _⟩ := ha; cases ha
              | _ =>
                obtain ⟨src, s, hs, hi⟩ := ha
                cases hs
                have := (hi.size htok).1
                rw [w2] at this; cases this
                exact hi
            obtain ⟨i1, y, i2⟩ := this
            have hz := (enc_size htok i2).1
            rw [List.length_take, Nat.min_eq_left i1] at hz
            exact ⟨n, hz, w3, i1, rfl⟩
      · cases l with
        | val v => exact absurd rfl (hp v)
        | bytes a k => exact hw.1
        | ptr a => exact hw.1
    rcases hx with hx | hx
    · exact setElemILoc_low hv pa h hS he ht hlow.1 hx
    · exact setElemILoc_high hv hlow.2 pa h hS he ht hlow.1 hx
  | false =>
    refine setElemILoc_fixed hp hd hv pa h hS he ht ?_
    rintro q i b k u n rfl hs hcnt y hy
    have hS' : S ≤ (m.drop o).length := by simp; omega
    obtain ⟨k1, k2, k3, k4, k5, z, k6⟩ := spot_in q h hS' he hs
    have htu : u.typeAt [i] = some t := by simpa only [Props.typeAt_append, k4, Option.bind_some] using ht
    have hcu := typeAt_cont htu
    obtain ⟨cs, off, vs, _, r, hvs⟩ := crep_of_enc k1 hcu (by simp; omega) k6
    have := getCount_eq k1 hcu r
    rw [hcnt] at this; cases this
    have hfe := fixedEnd_le r
    have hbm := bitmap_le_fixedEnd k1 hcu r.countOk
    have hin : x ≤ y ∧ y < e := by
      cases l with
      | val v => exact hy.elim
      | bytes a k => obtain ⟨y1, y2⟩ := hy; obtain ⟨w1, w2⟩ := hw; omega
      | ptr a =>
        obtain ⟨y1, y2⟩ := hy
        obtain ⟨w1, n, w2, w3⟩ := hw
        have : n = t.hdr.size := by
          cases hb : t.isBit with
          | true =>
            simp only [Loc.den, Option.some.injEq] at hd
            subst hd
            rcases ha with ha | ha | ha
            · cases ha
            · cases ha
            · cases t with
              | prim k hh => cases k <;> simp [isBit] at hb; obtain ⟨_, ha⟩ := ha; cases ha
              | _ => simp [isBit] at hb
          | false => simp [getSize, hv, hb] at w2; omega
        omega
    omega

end Dti
end TS
