import Verif.AliasRep
import Verif.ContSet
/-
Setting an element to a datum that points into the same tuple.
-/
namespace TS
namespace Dti

/-! ### Functions run on the tuple from an offset on -/

theorem atOff_atOff (m : Bytes) (o a : Nat) (f : Bytes → Option (Bytes × Bool)) :
    atOff m o (fun c => atOff c a f) = atOff m (o + a) f := by
  unfold atOff
  simp only [List.drop_drop]
  cases f (m.drop (o + a)) with
  | none => rfl
  | some x =>
    simp only [Option.bind_eq_bind, Option.bind_some, Option.pure_def, Option.some.injEq, Prod.mk.injEq, and_true]
    rw [← List.append_assoc, List.take_add]

theorem cat_drop {m c : Bytes} {o : Nat} (ho : o ≤ m.length) : (m.take o ++ c).drop o = c := by
  rw [List.drop_left' (by simp; omega)]

theorem cat_take {m c : Bytes} {o : Nat} (ho : o ≤ m.length) : (m.take o ++ c).take o = m.take o := by
  rw [List.take_left' (by simp; omega)]

/-- A change of the tuple from an offset on. -/
theorem lift_cat {m c : Bytes} {o : Nat} (ho : o ≤ m.length) (f : Bytes → Option Bytes) :
    lift (m.take o ++ c) o f = (f c).map (m.take o ++ ·) := by
  unfold lift
  rw [cat_drop ho, cat_take ho]
  cases f c <;> rfl

theorem lift_id {m : Bytes} {o : Nat} (f : Bytes → Option Bytes) :
    lift m o f = (f (m.drop o)).map (m.take o ++ ·) := by
  unfold lift
  cases f (m.drop o) <;> rfl

/-! ### The bytes a datum stands for -/

/-- Where the bytes lie that setting an element of type `t` to the datum copies. -/
def _root_.TS.Loc.covers (l : Loc) (t : Dti) (x : Nat) : Prop :=
  match l with
  | .val _ => False
  | .bytes a k => a ≤ x ∧ x < a + k
  | .ptr a => a ≤ x ∧ x < a + t.hdr.size

theorem load_congr {m m' : Bytes} {a n : Nat} (hl : m'.length = m.length) (h : ∀ x, a ≤ x → x < a + n → m'[x]? = m[x]?) :
    load m' a n = load m a n := by
  unfold load
  rw [hl]
  split
  · congr 1
    apply rd_ext
    intro x hx
    exact h _ (by omega) (by omega)
  · rfl

theorem setDatum_ptr {t : Dti} {c a b : Bytes} {valid : Bool} {inc : Nat} (hv : t.isVar = false)
    (h : load a 0 t.hdr.size = load b 0 t.hdr.size) :
    t.setDatum c valid inc (.ptr a) = t.setDatum c valid inc (.ptr b) := by
  unfold setDatum
  simp only [Datum.isNull, Bool.false_eq_true, if_false, hv, Bool.not_false, if_true]
  cases t with
  | prim k hh => cases k <;> rfl
  | str bin hh => cases bin <;> rfl
  | tup hh fs => simp only [h]
  | arr hh c => simp only [h]

/-- A fixed sized element: everything that is read is read before the element is written. -/
theorem setDatumLoc_fixed {t : Dti} {m m1 : Bytes} {q inc : Nat} {l : Loc} {w : Datum} {valid : Bool}
    (hd : l.den m = some w) (hl : m1.length = m.length)
    (he : ∀ x, l.covers t x → m1[x]? = m[x]?) (hv : t.isVar = false) :
    t.setDatumLoc m1 q valid inc l = atOff m1 q (fun c => t.setDatum c valid inc w) := by
  cases l with
  | val v => cases hd; cases t <;> rfl
  | bytes a k =>
    have hld : load m1 a k = load m a k := load_congr hl (fun x h1 h2 => he x ⟨h1, h2⟩)
    simp only [Loc.den, Option.bind_eq_bind, Option.bind_eq_some_iff] at hd
    obtain ⟨b, hb, hd⟩ := hd
    cases hd
    cases t with
    | str bin hh =>
      have hv' : hh.isVar = false := hv
      simp only [setDatumLoc, hv', Bool.false_eq_true, if_false, hld, hb, Option.bind_eq_bind, Option.bind_some]
    | _ => simp only [setDatumLoc, Loc.den, hld, hb, Option.bind_eq_bind, Option.bind_some, Option.pure_def]
  | ptr a =>
    cases hd
    have hld : load (m1.drop a) 0 t.hdr.size = load (m.drop a) 0 t.hdr.size := by
      apply load_congr (by simp [hl])
      intro x h1 h2
      rw [List.getElem?_drop, List.getElem?_drop]
      exact he _ ⟨by omega, by omega⟩
    cases t with
    | _ =>
      simp only [setDatumLoc, Loc.den, Option.bind_eq_bind, Option.bind_some]
      congr 1
      funext c
      exact setDatum_ptr hv hld

/-- A variable sized element, when the count of a string is not written into the characters that are
still to be read. -/
theorem setDatumLoc_var {t : Dti} {m : Bytes} {q inc : Nat} {l : Loc} {w : Datum} {valid : Bool}
    (hd : l.den m = some w) (hq : q ≤ m.length)
    (he : ∀ a k, l = .bytes a k → a + k ≤ q ∨ q + vsz t.hdr.maxSize ≤ a) (hv : t.isVar = true) :
    t.setDatumLoc m q valid inc l = atOff m q (fun c => t.setDatum c valid inc w) := by
  cases l with
  | val v => cases hd; cases t <;> rfl
  | ptr a => cases hd; cases t <;> rfl
  | bytes a k =>
    simp only [Loc.den, Option.bind_eq_bind, Option.bind_eq_some_iff] at hd
    obtain ⟨b, hb, hd⟩ := hd
    cases hd
    cases t with
    | str bin hh =>
      have hv' : hh.isVar = true := hv
      have hcl := he a k rfl
      have hbl := load_len hb
      simp only [hdr] at hcl
      have hk : (if bin then k else (strn b).length) = (if bin then b else strn b).length := by
        cases bin
        · rfl
        · exact hbl.1.symm
      have hns : newSize (.str bin hh) (.bytes b) = u32 (vsz hh.maxSize + (if bin then b else strn b).length) := by
        cases bin <;> rfl
      have hle : (if bin then b else strn b).length ≤ k := by
        rw [← hbl.1]; cases bin
        · exact strn_le b
        · exact Nat.le_refl _
      have hpre : b.take (if bin then b else strn b).length = (if bin then b else strn b) := by
        cases bin
        · exact strn_pre b
        · simp
      simp only [setDatumLoc, hv', if_true, hb, Option.bind_eq_bind, Option.bind_some, hk]
      unfold atOff
      unfold setDatum
      simp only [Datum.isNull, Bool.false_eq_true, if_false, isBit, isVar, hdr, hv', Bool.not_true, hns, Datum.asBytes,
        Option.bind_eq_bind, Option.bind_some]
      generalize (if bin then b else strn b) = s at *
      cases oldSize (.str bin hh) (m.drop q) valid with
      | none => rfl
      | some old =>
        simp only [Option.bind_some]
        cases u32 (vsz hh.maxSize + s.length) with
        | none => rfl
        | some new =>
          simp only [Option.bind_some]
          cases hf : fits hh.maxSize old new inc with
          | false =>
            simp only [Bool.not_false, if_true, Option.pure_def, Option.bind_some, List.take_append_drop]
          | true =>
            simp only [Bool.not_true, Bool.false_eq_true, if_false]
            rw [lift_id]
            cases hst : storeVal (m.drop q) hh.maxSize 0 s.length with
            | none => rfl
            | some c =>
              simp only [Option.map_some, Option.bind_some]
              unfold storeVal store at hst
              split at hst
              · injection hst with hst
                rename_i hroom
                simp only [leEnc_length, List.length_drop] at hroom
                have hcl' : (m.take q ++ c).length = m.length := by
                  rw [← hst]; simp; omega
                have hld : load (m.take q ++ c) a s.length = load m a s.length := by
                  apply load_congr hcl'
                  intro x h1 h2
                  rw [← hst]
                  by_cases hx : x < q
                  · rw [List.getElem?_append_left (by simp; omega), List.getElem?_take_of_lt hx]
                  · rw [List.getElem?_append_right (by simp; omega)]
                    simp only [List.length_take, Nat.min_eq_left hq]
                    rw [wr_getElem?, if_neg (by simp only [leEnc_length]; omega), List.getElem?_drop]
                    congr 1; omega
                rw [hld, load_pre hb hle, hpre]
                simp only [Option.bind_some]
                rw [lift_cat hq]
                cases store c (vsz hh.maxSize) s <;> rfl
              · cases hst
    | prim k hh => simp only [setDatumLoc, Loc.den, hb, Option.bind_eq_bind, Option.bind_some, Option.pure_def]
    | tup hh fs => simp only [setDatumLoc, Loc.den, hb, Option.bind_eq_bind, Option.bind_some, Option.pure_def]
    | arr hh c => simp only [setDatumLoc, Loc.den, hb, Option.bind_eq_bind, Option.bind_some, Option.pure_def]

/-! ### Elements of a container -/

theorem atOff_eq (m : Bytes) (o : Nat) (f : Bytes → Option (Bytes × Bool)) :
    atOff m o f = (f (m.drop o)).map (fun x => (m.take o ++ x.1, x.2)) := by
  unfold atOff
  cases f (m.drop o) <;> rfl

theorem atOff_cat {m c : Bytes} {o : Nat} (ho : o ≤ m.length) (f : Bytes → Option (Bytes × Bool)) :
    atOff (m.take o ++ c) o f = (f c).map (fun x => (m.take o ++ x.1, x.2)) := by
  rw [atOff_eq, cat_drop ho, cat_take ho]

/-- A datum that points somewhere. -/
def _root_.TS.Loc.points (l : Loc) : Prop := ∀ v, l ≠ .val v

theorem den_kind {l : Loc} {m : Bytes} {w : Datum} (hp : l.points) (hd : l.den m = some w) :
    w.isNull = false ∧ w.asUint = none := by
  cases l with
  | val v => exact absurd rfl (hp v)
  | bytes a k =>
    simp only [Loc.den, Option.bind_eq_bind, Option.bind_eq_some_iff] at hd
    obtain ⟨b, hb, hd⟩ := hd
    cases hd
    exact ⟨rfl, rfl⟩
  | ptr a => cases hd; exact ⟨rfl, rfl⟩

theorem setAtLoc_fixed {d : Dti} {m : Bytes} {o i inc bb : Nat} {p : PosInfo} {l : Loc} {w : Datum}
    (ho : o ≤ m.length) (hp : l.points) (hd : l.den m = some w) (hv : p.ty.isVar = false)
    (hb : p.ty.needsValid = true → p.vbit < bb ∧ d.offBitmap + p.vbit / 8 < (m.drop o).length)
    (he : ∀ x, l.covers p.ty x → x < o + d.offBitmap ∨ o + d.offBitmap + bitmapBytes bb ≤ x) :
    d.setAtLoc m o i p inc l = atOff m o (fun c => d.setAt c i p inc w) := by
  obtain ⟨k1, k2⟩ := den_kind hp hd
  have key : ∀ c1 : Bytes, c1.length = (m.drop o).length →
      (∀ x, x < d.offBitmap ∨ d.offBitmap + bitmapBytes bb ≤ x → c1[x]? = (m.drop o)[x]?) →
      (if p.ty.isBit then none else do
        let a ← ← d.ptrAt ((m.take o ++ c1).drop o) p
        p.ty.setDatumLoc (m.take o ++ c1) (o + a) true inc l) =
      ((if p.ty.isBit then do
          let m ← setBits c1 d.offBitmap p.off p.ty.hdr.size (← w.asUint)
          pure (m, true)
        else do
          let a ← ← d.ptrAt c1 p
          atOff c1 a (fun c => p.ty.setDatum c true inc w)) : Option (Bytes × Bool)).map
        (fun x => (m.take o ++ x.1, x.2)) := by
    intro c1 hl hx
    rw [cat_drop ho]
    cases p.ty.isBit with
    | true => simp [k2]
    | false =>
      simp only [Bool.false_eq_true, if_false]
      cases d.ptrAt c1 p with
      | none => rfl
      | some a? =>
        cases a? with
        | none => rfl
        | some a =>
          simp only [Option.bind_eq_bind, Option.bind_some]
          have hlen : (m.take o ++ c1).length = m.length := by
            simp only [List.length_append, List.length_take, hl, List.length_drop]; omega
          rw [setDatumLoc_fixed hd hlen ?_ hv, ← atOff_atOff, atOff_cat ho]
          intro x hc
          by_cases hxo : x < o
          · rw [List.getElem?_append_left (by simp; omega), List.getElem?_take_of_lt hxo]
          · rw [List.getElem?_append_right (by simp; omega)]
            simp only [List.length_take, Nat.min_eq_left ho]
            have := he x hc
            rw [hx _ (by omega), List.getElem?_drop]
            congr 1; omega
  rw [atOff_eq]
  unfold setAtLoc setAt
  simp only [k1, Bool.false_eq_true, if_false, hv, Bool.not_false, if_true]
  cases hn : p.ty.needsValid with
  | false =>
    have := key (m.drop o) rfl (fun _ _ => rfl)
    simp only [List.take_append_drop] at this
    simpa using this
  | true =>
    obtain ⟨b1, b2⟩ := hb hn
    rw [lift_id]
    simp only [if_true, setBit_eq b2, Option.map_some, Option.bind_eq_bind, Option.bind_some]
    exact key _ (by simp) (fun x hx => withBit_get b1 hx)

theorem setAtLoc_var {d : Dti} {m : Bytes} {o i inc : Nat} {p : PosInfo} {l : Loc} {w : Datum}
    (ho : o ≤ m.length) (hp : l.points) (hd : l.den m = some w) (hv : p.ty.isVar = true)
    (hm : d.moveEnd (m.drop o) i p = some (m.drop o, false))
    (he : ∀ a? s, d.ptrAt (m.drop o) p = some a? → d.getSize (m.drop o) = some s →
      o + a?.getD s ≤ m.length ∧
      ∀ a k, l = .bytes a k → a + k ≤ o + a?.getD s ∨ o + a?.getD s + vsz p.ty.hdr.maxSize ≤ a) :
    d.setAtLoc m o i p inc l = atOff m o (fun c => d.setAt c i p inc w) := by
  obtain ⟨k1, k2⟩ := den_kind hp hd
  rw [atOff_eq]
  unfold setAtLoc setAt
  have hmv : atOff m o (fun c => d.moveEnd c i p) = some (m, false) := by
    rw [atOff_eq, hm]
    simp only [Option.map_some, List.take_append_drop]
  simp only [k1, Bool.false_eq_true, if_false, hv, Bool.not_true, hmv, hm, Option.bind_eq_bind, Option.bind_some]
  cases hs : d.getSize (m.drop o) with
  | none => rfl
  | some s =>
    simp only [Option.bind_some]
    cases sub32 d.hdr.maxSize s with
    | none => rfl
    | some z =>
      simp only [Option.bind_some]
      cases ha : d.ptrAt (m.drop o) p with
      | none => rfl
      | some a? =>
        obtain ⟨e1, e2⟩ := he a? s ha hs
        simp only [Option.bind_some]
        rw [setDatumLoc_var hd e1 e2 hv, ← atOff_atOff, atOff_eq m o]
        have tail : ∀ (cs : Nat) (c2 : Bytes) (r : Bool),
            (if (r && d.hasSizeP) = true then
                (p.ty.getSize (((m.take o ++ c2).drop o).drop (a?.getD s))).bind fun ns =>
                  (sub32 s cs).bind fun y => (u32 (y + ns)).bind fun z =>
                    (lift (m.take o ++ c2) o (fun c => storeVal c d.hdr.maxSize 0 z)).bind fun m => pure (m, r)
              else pure (m.take o ++ c2, r)) =
            (if (r && d.hasSizeP) = true then
                (p.ty.getSize (c2.drop (a?.getD s))).bind fun ns =>
                  (sub32 s cs).bind fun y => (u32 (y + ns)).bind fun z =>
                    (storeVal c2 d.hdr.maxSize 0 z).bind fun m => pure (m, r)
              else pure (c2, r) : Option (Bytes × Bool)).map (fun x => (m.take o ++ x.1, x.2)) := by
          intro cs c2 r
          rw [cat_drop ho]
          cases (r && d.hasSizeP) with
          | false => rfl
          | true =>
            simp only [if_true]
            cases p.ty.getSize (c2.drop (a?.getD s)) with
            | none => rfl
            | some ns =>
              simp only [Option.bind_some]
              cases sub32 s cs with
              | none => rfl
              | some y =>
                simp only [Option.bind_some]
                cases u32 (y + ns) with
                | none => rfl
                | some z =>
                  simp only [Option.bind_some, lift_cat ho]
                  cases storeVal c2 d.hdr.maxSize 0 z <;> rfl
        have mid : ∀ (cs : Nat) (x : Option (Bytes × Bool)),
            ((x.map (fun x => (m.take o ++ x.1, x.2))).bind fun x =>
              if (x.2 && a?.isNone) = true then
                (lift x.1 o (fun c => storeVal c d.hdr.maxSize p.off s)).bind fun m =>
                  if (x.2 && d.hasSizeP) = true then
                    (p.ty.getSize ((m.drop o).drop (a?.getD s))).bind fun ns =>
                      (sub32 s cs).bind fun y => (u32 (y + ns)).bind fun z =>
                        (lift m o (fun c => storeVal c d.hdr.maxSize 0 z)).bind fun m => pure (m, x.2)
                  else pure (m, x.2)
              else
                if (x.2 && d.hasSizeP) = true then
                  (p.ty.getSize ((x.1.drop o).drop (a?.getD s))).bind fun ns =>
                    (sub32 s cs).bind fun y => (u32 (y + ns)).bind fun z =>
                      (lift x.1 o (fun c => storeVal c d.hdr.maxSize 0 z)).bind fun m => pure (m, x.2)
                else pure (x.1, x.2)) =
            (x.bind fun x =>
              if (x.2 && a?.isNone) = true then
                (storeVal x.1 d.hdr.maxSize p.off s).bind fun m =>
                  if (x.2 && d.hasSizeP) = true then
                    (p.ty.getSize (m.drop (a?.getD s))).bind fun ns =>
                      (sub32 s cs).bind fun y => (u32 (y + ns)).bind fun z =>
                        (storeVal m d.hdr.maxSize 0 z).bind fun m => pure (m, x.2)
                  else pure (m, x.2)
              else
                if (x.2 && d.hasSizeP) = true then
                  (p.ty.getSize (x.1.drop (a?.getD s))).bind fun ns =>
                    (sub32 s cs).bind fun y => (u32 (y + ns)).bind fun z =>
                      (storeVal x.1 d.hdr.maxSize 0 z).bind fun m => pure (m, x.2)
                else pure (x.1, x.2) : Option (Bytes × Bool)).map (fun x => (m.take o ++ x.1, x.2)) := by
          intro cs x
          cases x with
          | none => rfl
          | some x =>
            obtain ⟨c, r⟩ := x
            simp only [Option.map_some, Option.bind_some]
            cases (r && a?.isNone) with
            | false =>
              simp only [Bool.false_eq_true, if_false]
              exact tail cs c r
            | true =>
              simp only [if_true, lift_cat ho]
              cases storeVal c d.hdr.maxSize p.off s with
              | none => rfl
              | some c2 =>
                simp only [Option.map_some, Option.bind_some]
                exact tail cs c2 r
        cases a? with
        | none => exact mid 0 _
        | some a =>
          cases hg : p.ty.getSize ((m.drop o).drop a) with
          | none => simp only [hg]; rfl
          | some cs => simp only [hg, Option.bind_some]; exact mid cs _

/-! ### Elements of a tuple -/

theorem typeAt_kid {d t : Dti} {n i : Nat} {pa : List Nat} (h : TyOk d) (hc : d.isCont = true) (hn : CountOk d n) (hi : i < n)
    (ht : d.typeAt (i :: pa) = some t) : (posOf d n i).ty.typeAt pa = some t := by
  simpa only [typeAt, tyAtNoData_pos h hc hn hi, Option.bind_eq_bind, Option.bind_some] using ht

theorem typeAt_cont {d t : Dti} {i : Nat} {pa : List Nat} (ht : d.typeAt (i :: pa) = some t) : d.isCont = true := by
  cases hc : d.isCont with
  | true => rfl
  | false => simp [typeAt, tyAtNoData, hc] at ht

theorem cont_not_bit {d : Dti} (hc : d.isCont = true) : d.isBit = false := isCont_not_bit hc

/-- Setting a fixed sized element, when no byte of the source lies in the bitmap of the container that
holds the element. -/
theorem setElemILoc_fixed {t : Dti} {l : Loc} {w : Datum} {m : Bytes} (hp : l.points) (hd : l.den m = some w)
    (hv : t.isVar = false) (pa : List Nat) : ∀ {d : Dti} {o S inc : Nat} {val : Val}, TyOk d → o + S ≤ m.length →
    Enc d ((m.drop o).take S) val → d.typeAt pa = some t →
    (∀ q i b k u n, pa = q ++ [i] → Spot d (m.drop o) q b k u → u.getCount ((m.drop o).drop b) = some n →
      ∀ x, l.covers t x → x < o + b + u.offBitmap ∨ o + b + u.offBitmap + bitmapBytes (bitsOf u n) ≤ x) →
    d.setElemILoc m o inc l false pa = atOff m o (fun c => d.setElemI c inc w false pa) := by
  obtain ⟨k1, k2⟩ := den_kind hp hd
  induction pa with
  | nil =>
    intro d o S inc val h hS e ht _
    simp only [typeAt, Option.some.injEq] at ht
    subst ht
    simp only [setElemILoc, setElemI, k1, Bool.false_eq_true, if_false]
    exact setDatumLoc_fixed hd rfl (fun _ _ => rfl) hv
  | cons i pa ih =>
    intro d o S inc val h hS e ht hcl
    have hc := typeAt_cont ht
    have hS' : S ≤ (m.drop o).length := by simp; omega
    have ho : o ≤ m.length := by omega
    obtain ⟨cs, off, vs, h1, r, hvs⟩ := crep_of_enc h hc hS' e
    have hcnt := getCount_eq h hc r
    have hgs := getSize_eq h hc r
    by_cases hlt : i < cs.length
    · have hpi := posInfo_eq h hc r hlt
      have hty := typeAt_kid h hc r.countOk hlt ht
      cases pa with
      | nil =>
        simp only [typeAt, Option.some.injEq] at hty
        subst hty
        have := setAtLoc_fixed (d := d) (m := m) (o := o) (i := i) (inc := inc) (bb := bitsOf d cs.length)
          ho hp hd hv (fun hn => ⟨(lay_of h hc r.countOk).vb i hlt hn, bit_ok h hc r ((lay_of h hc r.countOk).vb i hlt hn)⟩)
          (fun x hx => by
            have hs : Spot d (m.drop o) [] 0 S d := ⟨rfl, rfl, hgs⟩
            have := hcl [] i 0 S d cs.length rfl hs (by simpa using hcnt) x hx
            rw [Nat.add_zero] at this
            exact this)
        rw [atOff_eq] at this ⊢
        simp only [setElemILoc, setContLoc, setElemI, setCont, setContUnsafe, hc, hcnt, hpi, Bool.not_true, Bool.false_eq_true,
          if_false, Option.bind_eq_bind, Option.bind_some, ge_iff_le, Nat.not_le.mpr hlt]
        exact this
      | cons j pa =>
        have hb : (posOf d cs.length i).ty.isBit = false := cont_not_bit (typeAt_cont hty)
        have hpp := ptrAt_eq h hc r (List.getElem?_eq_getElem hlt)
        rw [atOff_eq]
        simp only [setElemILoc, setElemI]
        simp only [hc, Bool.not_true, Bool.false_eq_true, if_false]
        simp only [hcnt, Option.bind_eq_bind, Option.bind_some]
        simp only [ge_iff_le, Nat.not_le.mpr hlt, if_false]
        rw [hpi, hgs]
        have key : ∀ inc, (match eltPtr d (posOf d cs.length i) (off i) cs[i] with
              | none => pure (m, false)
              | some a => setElemILoc (posOf d cs.length i).ty m (o + a) inc l false (j :: pa)) =
            ((match eltPtr d (posOf d cs.length i) (off i) cs[i] with
              | none => pure (m.drop o, false)
              | some a => d.inChild (m.drop o) (posOf d cs.length i) a false
                  (fun c => setElemI (posOf d cs.length i).ty c inc w false (j :: pa))) : Option (Bytes × Bool)).map
              (fun x => (m.take o ++ x.1, x.2)) := by
          intro inc
          cases hq : eltPtr d (posOf d cs.length i) (off i) cs[i] with
          | none => simp
          | some a =>
            rw [hq] at hpp
            obtain ⟨n, y, a1, a2, a3, a4, a5, a6, a7, a8⟩ := kid_of h hc r hvs hlt hb hpp
            simp only [inChild, Bool.false_eq_true, if_false]
            rw [← atOff_eq m o (fun c => atOff c a _), atOff_atOff]
            rw [List.drop_drop] at a6
            simp only [List.length_drop] at a5
            refine ih (posOf_ok h hc r.countOk hlt) (by omega) a6 hty ?_
            intro q i' b k u n' hpa hs hcn x hx
            have := hcl (i :: q) i' (a + b) k u n' (by rw [hpa]; rfl)
              ⟨hc, _, _, a, b, hcnt, hlt, hpi, hb, hpp, rfl, by rw [List.drop_drop]; exact hs⟩
              (by rw [List.drop_drop] at hcn ⊢; rw [← Nat.add_assoc]; exact hcn) x hx
            omega
        cases hvv : d.isVar with
        | false =>
          rw [if_neg (by decide), if_neg (by decide)]
          repeat rw [Option.bind_some]
          rw [hpp]
          exact key inc
        | true =>
          rw [if_pos rfl, if_pos rfl]
          repeat rw [Option.bind_some]
          cases sub32 d.hdr.maxSize S with
          | none => rfl
          | some z =>
            repeat rw [Option.bind_some]
            rw [show (pure (min inc z) : Option Nat) = some (min inc z) from rfl]
            repeat rw [Option.bind_some]
            rw [hpp]
            exact key _
    · have hge : cs.length ≤ i := by omega
      rw [atOff_eq]
      cases pa <;> simp [setElemILoc, setContLoc, setElemI, setCont, hc, hcnt, hge]

/-- Along the position every variable sized element that is not NULL ends where its container ends. -/
def Last (d : Dti) (m : Bytes) : List Nat → Prop
  | [] => True
  | i :: pa => ∀ k p a n s, d.getCount m = some k → i < k → d.posInfo m i = some p → p.ty.isVar = true → d.ptrAt m p = some (some a) →
      p.ty.getSize (m.drop a) = some n → d.getSize m = some s → a + n = s ∧ Last p.ty (m.drop a) pa

/-- Where the element at `pa` is written if nothing is moved: where it is, or at the end of its
container if it is NULL. -/
def Target (d : Dti) (m : Bytes) : List Nat → Nat → Prop
  | [], q => q = 0
  | i :: pa, q => ∃ k p, d.getCount m = some k ∧ i < k ∧ d.posInfo m i = some p ∧ ((pa = [] ∧ d.ptrAt m p = some none ∧ d.getSize m = some q) ∨
      ∃ a c, d.ptrAt m p = some (some a) ∧ q = a + c ∧ Target p.ty (m.drop a) pa c)

theorem typeAt_var (pa : List Nat) {d t : Dti} (h : TyOk d) (ht : d.typeAt pa = some t) (hv : t.isVar = true) : d.isVar = true :=
  (typeAt_ok pa h ht).2 hv

theorem moveEnd_last {d : Dti} {m : Bytes} {S : Nat} {cs : List Elt} {off : Nat → Nat} {vs : List Val} (h : TyOk d)
    (hc : d.isCont = true) (r : CRep d m S cs off) (hvs : EVals d cs vs) {i : Nat} (hi : i < cs.length)
    (hv : (posOf d cs.length i).ty.isVar = true)
    (hl : ∀ a n, d.ptrAt m (posOf d cs.length i) = some (some a) →
      (posOf d cs.length i).ty.getSize (m.drop a) = some n → a + n = S) :
    d.moveEnd m i (posOf d cs.length i) = some (m, false) := by
  have hok := posOf_ok h hc r.countOk hi
  have hb := isVar_not_bit hok hv
  have hpp := ptrAt_eq h hc r (List.getElem?_eq_getElem hi)
  have hgs := getSize_eq h hc r
  have hlim := r.lt_lim h hc
  unfold moveEnd
  simp only [hv, Bool.not_true, Bool.false_eq_true, if_false]
  cases hq : eltPtr d (posOf d cs.length i) (off i) cs[i] with
  | none => rw [hq] at hpp; simp [hpp]
  | some a =>
    rw [hq] at hpp
    obtain ⟨n, y, a1, _⟩ := kid_of h hc r hvs hi hb hpp
    have := hl a n hpp a1
    have hu : u32 S = some S := by
      unfold u32; rw [if_pos (by simp only [lim] at hlim; omega)]
    simp only [hpp, a1, hgs, Option.bind_eq_bind, Option.bind_some, this, hu, if_true, Option.pure_def]

/-- Setting a variable sized element, when nothing has to be moved and the count of a string is not
written into the characters to be copied. -/
theorem setElemILoc_var {t : Dti} {l : Loc} {w : Datum} {m : Bytes} (hp : l.points) (hd : l.den m = some w)
    (hv : t.isVar = true) (pa : List Nat) : ∀ {d : Dti} {o S inc : Nat} {val : Val}, TyOk d → o + S ≤ m.length →
    Enc d ((m.drop o).take S) val → d.typeAt pa = some t → d.Last (m.drop o) pa →
    (∀ q, d.Target (m.drop o) pa q → ∀ a k, l = .bytes a k → a + k ≤ o + q ∨ o + q + vsz t.hdr.maxSize ≤ a) →
    d.setElemILoc m o inc l true pa = atOff m o (fun c => d.setElemI c inc w true pa) := by
  obtain ⟨k1, k2⟩ := den_kind hp hd
  induction pa with
  | nil =>
    intro d o S inc val h hS e ht _ hcl
    simp only [typeAt, Option.some.injEq] at ht
    subst ht
    simp only [setElemILoc, setElemI, k1, Bool.false_eq_true, if_false]
    exact setDatumLoc_var hd (by omega) (fun a k hk => by have := hcl 0 rfl a k hk; omega) hv
  | cons i pa ih =>
    intro d o S inc val h hS e ht hla hcl
    have hc := typeAt_cont ht
    have hS' : S ≤ (m.drop o).length := by simp; omega
    have ho : o ≤ m.length := by omega
    obtain ⟨cs, off, vs, h1, r, hvs⟩ := crep_of_enc h hc hS' e
    have hcnt := getCount_eq h hc r
    have hgs := getSize_eq h hc r
    by_cases hlt : i < cs.length
    · have hpi := posInfo_eq h hc r hlt
      have hty := typeAt_kid h hc r.countOk hlt ht
      have hok := posOf_ok h hc r.countOk hlt
      have hpv : (posOf d cs.length i).ty.isVar = true := typeAt_var pa hok hty hv
      have hb := isVar_not_bit hok hpv
      have hpp := ptrAt_eq h hc r (List.getElem?_eq_getElem hlt)
      have hmv : d.moveEnd (m.drop o) i (posOf d cs.length i) = some (m.drop o, false) :=
        moveEnd_last h hc r hvs hlt hpv (fun a n g1 g2 => (hla _ _ a n S hcnt hlt hpi hpv g1 g2 hgs).1)
      cases pa with
      | nil =>
        simp only [typeAt, Option.some.injEq] at hty
        subst hty
        have := setAtLoc_var (d := d) (m := m) (o := o) (i := i) (inc := inc) ho hp hd hv hmv (by
          intro a? s g1 g2
          rw [hgs] at g2; cases g2
          cases a? with
          | none => exact ⟨by simp; omega, fun a k hk => by have := hcl S ⟨_, _, hcnt, hlt, hpi, Or.inl ⟨rfl, g1, hgs⟩⟩ a k hk; simpa using this⟩
          | some a =>
            obtain ⟨n, y, a1, a2, a3, a4⟩ := kid_of h hc r hvs hlt hb g1
            refine ⟨by simp; omega, fun x k hk => ?_⟩
            have := hcl a ⟨_, _, hcnt, hlt, hpi, Or.inr ⟨a, 0, g1, rfl, rfl⟩⟩ x k hk
            simpa using this)
        rw [atOff_eq] at this ⊢
        simp only [setElemILoc, setContLoc, setElemI, setCont, setContUnsafe, hc, hcnt, hpi, Bool.not_true, Bool.false_eq_true,
          if_false, Option.bind_eq_bind, Option.bind_some, ge_iff_le, Nat.not_le.mpr hlt]
        exact this
      | cons j pa =>
        have hmv' : atOff m o (fun c => d.moveEnd c i (posOf d cs.length i)) = some (m, false) := by
          rw [atOff_eq, hmv]
          simp only [Option.map_some, List.take_append_drop]
        rw [atOff_eq]
        simp only [setElemILoc, setElemI]
        simp only [hc, Bool.not_true, Bool.false_eq_true, if_false]
        simp only [hcnt, Option.bind_eq_bind, Option.bind_some]
        simp only [ge_iff_le, Nat.not_le.mpr hlt, if_false]
        rw [hpi, hgs, if_pos (typeAt_var _ h ht hv), if_pos (typeAt_var _ h ht hv)]
        repeat rw [Option.bind_some]
        cases sub32 d.hdr.maxSize S with
        | none => rfl
        | some z =>
          repeat rw [Option.bind_some]
          rw [show (pure (min inc z) : Option Nat) = some (min inc z) from rfl]
          repeat rw [Option.bind_some]
          rw [if_pos trivial, if_pos trivial, hmv', hmv]
          repeat rw [Option.bind_some]
          rw [hpp]
          repeat rw [Option.bind_some]
          cases hq : eltPtr d (posOf d cs.length i) (off i) cs[i] with
          | none => simp
          | some a =>
            rw [hq] at hpp
            obtain ⟨n, y, a1, a2, a3, a4, a5, a6, a7, a8⟩ := kid_of h hc r hvs hlt hb hpp
            rw [List.drop_drop] at a6
            simp only [List.length_drop] at a5
            have hrec := ih (inc := min inc z) hok (by omega) a6 hty
              (by rw [← List.drop_drop]; exact (hla _ _ a n S hcnt hlt hpi hpv hpp a1 hgs).2)
              (by
                intro q hq x k hk
                rw [← List.drop_drop] at hq
                have := hcl (a + q) ⟨_, _, hcnt, hlt, hpi, Or.inr ⟨a, q, hpp, rfl, hq⟩⟩ x k hk
                omega)
            simp only [inChild, if_true, hgs, Option.bind_eq_bind]
            repeat rw [Option.bind_some]
            cases d.sizeAt (m.drop o) (posOf d cs.length i) with
            | none => rfl
            | some x =>
              simp only [Option.bind_some]
              rw [hrec, ← atOff_atOff, atOff_eq m o]
              cases atOff (m.drop o) a (fun c => setElemI (posOf d cs.length i).ty c (min inc z) w true (j :: pa)) with
              | none => rfl
              | some y =>
                obtain ⟨c, q⟩ := y
                simp only [Option.map_some, Option.bind_some, cat_drop ho]
                cases q with
                | false => rfl
                | true =>
                  simp only [if_true]
                  cases d.sizeAt c (posOf d cs.length i) with
                  | none => rfl
                  | some ns =>
                    simp only [Option.bind_some]
                    cases sub32 S x with
                    | none => rfl
                    | some y =>
                      simp only [Option.bind_some]
                      cases u32 (y + ns) with
                      | none => rfl
                      | some z =>
                        simp only [Option.bind_some, lift_cat ho]
                        cases d.overwriteSize c z <;> rfl
    · have hge : cs.length ≤ i := by omega
      rw [atOff_eq]
      cases pa <;> simp [setElemILoc, setContLoc, setElemI, setCont, hc, hcnt, hge]

end Dti
end TS
