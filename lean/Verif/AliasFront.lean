import Verif.AliasSet
import Verif.ContSpot
/-
Setting an element to a datum that points into the same tuple, in front of what has to be moved.
-/
namespace TS
namespace Dti

/-! ### Elements of a container -/

/-- A variable sized element of a container that becomes `c'` when the element is moved to its end. -/
theorem setAtLoc_moved {d : Dti} {m c' : Bytes} {o i inc : Nat} {p : PosInfo} {l : Loc} {w : Datum} {q : Bool}
    (ho : o ≤ m.length) (k1 : w.isNull = false) (hv : p.ty.isVar = true)
    (hm : d.moveEnd (m.drop o) i p = some (c', q))
    (he : ∀ a? s n, n ≤ inc → d.ptrAt c' p = some a? → d.getSize c' = some s →
      p.ty.setDatumLoc (m.take o ++ c') (o + a?.getD s) a?.isSome n l =
        atOff (m.take o ++ c') (o + a?.getD s) (fun c => p.ty.setDatum c a?.isSome n w)) :
    d.setAtLoc m o i p inc l = atOff m o (fun c => d.setAt c i p inc w) := by
  rw [atOff_eq]
  unfold setAtLoc setAt
  have hmv : atOff m o (fun c => d.moveEnd c i p) = some (m.take o ++ c', q) := by
    rw [atOff_eq, hm]
    rfl
  simp only [k1, Bool.false_eq_true, if_false, hv, Bool.not_true, hmv, hm, Option.bind_eq_bind, Option.bind_some, cat_drop ho]
  cases hs : d.getSize c' with
  | none => rfl
  | some s =>
    simp only [Option.bind_some]
    cases sub32 d.hdr.maxSize s with
    | none => rfl
    | some z =>
      simp only [Option.bind_some]
      cases ha : d.ptrAt c' p with
      | none => rfl
      | some a? =>
        simp only [Option.bind_some]
        rw [he a? s _ (Nat.min_le_left _ _) ha hs, ← atOff_atOff, atOff_eq _ o, cat_drop ho, cat_take ho]
        have tail : ∀ (cs : Nat) (c2 : Bytes) (r : Bool),
            (if (r && d.hasSizeP) = true then
                (p.ty.getSize (((m.take o ++ c2).drop o).drop (a?.getD s))).bind fun ns =>
                  (sub32 s cs).bind fun y => (u32 (y + ns)).bind fun z =>
                    (lift (m.take o ++ c2) o (fun c => storeVal c d.hdr.maxSize 0 z)).bind fun m => pure (m, r)
              else pure (m.take o ++ c2, r)) =
            (if (r && d.hasSizeP) = true then
                (p.ty.getSize (c2.drop (a?.getD s))).bind fun ns =>
                  (sub32 s cs).bind fun y => (u32 (y + ns)).bind fun z =>
                    (storeVal c2 d.hdr.maxSize 0 z).bind fun m => pure (m, r)
              else pure (c2, r) : Option (Bytes × Bool)).map (fun x => (m.take o ++ x.1, x.2)) := by
          intro cs c2 r
          rw [cat_drop ho]
          cases (r && d.hasSizeP) with
          | false => rfl
          | true =>
            simp only [if_true]
            cases p.ty.getSize (c2.drop (a?.getD s)) with
            | none => rfl
            | some ns =>
              simp only [Option.bind_some]
              cases sub32 s cs with
              | none => rfl
              | some y =>
                simp only [Option.bind_some]
                cases u32 (y + ns) with
                | none => rfl
                | some z =>
                  simp only [Option.bind_some, lift_cat ho]
                  cases storeVal c2 d.hdr.maxSize 0 z <;> rfl
        have mid : ∀ (cs : Nat) (x : Option (Bytes × Bool)),
            ((x.map (fun x => (m.take o ++ x.1, x.2))).bind fun x =>
              if (x.2 && a?.isNone) = true then
                (lift x.1 o (fun c => storeVal c d.hdr.maxSize p.off s)).bind fun m =>
                  if (x.2 && d.hasSizeP) = true then
                    (p.ty.getSize ((m.drop o).drop (a?.getD s))).bind fun ns =>
                      (sub32 s cs).bind fun y => (u32 (y + ns)).bind fun z =>
                        (lift m o (fun c => storeVal c d.hdr.maxSize 0 z)).bind fun m => pure (m, x.2)
                  else pure (m, x.2)
              else
                if (x.2 && d.hasSizeP) = true then
                  (p.ty.getSize ((x.1.drop o).drop (a?.getD s))).bind fun ns =>
                    (sub32 s cs).bind fun y => (u32 (y + ns)).bind fun z =>
                      (lift x.1 o (fun c => storeVal c d.hdr.maxSize 0 z)).bind fun m => pure (m, x.2)
                else pure (x.1, x.2)) =
            (x.bind fun x =>
              if (x.2 && a?.isNone) = true then
                (storeVal x.1 d.hdr.maxSize p.off s).bind fun m =>
                  if (x.2 && d.hasSizeP) = true then
                    (p.ty.getSize (m.drop (a?.getD s))).bind fun ns =>
                      (sub32 s cs).bind fun y => (u32 (y + ns)).bind fun z =>
                        (storeVal m d.hdr.maxSize 0 z).bind fun m => pure (m, x.2)
                  else pure (m, x.2)
              else
                if (x.2 && d.hasSizeP) = true then
                  (p.ty.getSize (x.1.drop (a?.getD s))).bind fun ns =>
                    (sub32 s cs).bind fun y => (u32 (y + ns)).bind fun z =>
                      (storeVal x.1 d.hdr.maxSize 0 z).bind fun m => pure (m, x.2)
                else pure (x.1, x.2) : Option (Bytes × Bool)).map (fun x => (m.take o ++ x.1, x.2)) := by
          intro cs x
          cases x with
          | none => rfl
          | some x =>
            obtain ⟨c, r⟩ := x
            simp only [Option.map_some, Option.bind_some]
            cases (r && a?.isNone) with
            | false =>
              simp only [Bool.false_eq_true, if_false]
              exact tail cs c r
            | true =>
              simp only [if_true, lift_cat ho]
              cases storeVal c d.hdr.maxSize p.off s with
              | none => rfl
              | some c2 =>
                simp only [Option.map_some, Option.bind_some]
                exact tail cs c2 r
        cases a? with
        | none => exact mid 0 _
        | some a =>
          cases hg : p.ty.getSize (c'.drop a) with
          | none => simp only [hg]; rfl
          | some cs => simp only [hg, Option.bind_some]; exact mid cs _

/-- The way into a containee, in a container that becomes `c'` when the containee is moved to its end. -/
theorem setElemILoc_step {d : Dti} {m c' : Bytes} {o i j inc k S : Nat} {pa : List Nat} {p : PosInfo} {l : Loc} {w : Datum}
    {q : Bool} (ho : o ≤ m.length) (hc : d.isCont = true) (hv : d.isVar = true)
    (hcnt : d.getCount (m.drop o) = some k) (hi : i < k) (hgs : d.getSize (m.drop o) = some S)
    (hpi : d.posInfo (m.drop o) i = some p) (hm : d.moveEnd (m.drop o) i p = some (c', q))
    (he : ∀ a n, n ≤ inc → d.ptrAt c' p = some (some a) →
      p.ty.setElemILoc (m.take o ++ c') (o + a) n l true (j :: pa) =
        atOff (m.take o ++ c') (o + a) (fun c => p.ty.setElemI c n w true (j :: pa))) :
    d.setElemILoc m o inc l true (i :: j :: pa) = atOff m o (fun c => d.setElemI c inc w true (i :: j :: pa)) := by
  have hmv : atOff m o (fun c => d.moveEnd c i p) = some (m.take o ++ c', q) := by
    rw [atOff_eq, hm]
    rfl
  rw [atOff_eq]
  simp only [setElemILoc, setElemI]
  simp only [hc, Bool.not_true, Bool.false_eq_true, if_false]
  simp only [hcnt, Option.bind_eq_bind, Option.bind_some]
  simp only [ge_iff_le, Nat.not_le.mpr hi, if_false]
  rw [hpi, hgs, if_pos hv, if_pos hv]
  repeat rw [Option.bind_some]
  cases sub32 d.hdr.maxSize S with
  | none => rfl
  | some z =>
    repeat rw [Option.bind_some]
    rw [show (pure (min inc z) : Option Nat) = some (min inc z) from rfl]
    repeat rw [Option.bind_some]
    rw [if_pos trivial, if_pos trivial, hmv, hm]
    repeat rw [Option.bind_some]
    simp only [cat_drop ho]
    cases hp : d.ptrAt c' p with
    | none => rfl
    | some a? =>
      repeat rw [Option.bind_some]
      cases a? with
      | none => rfl
      | some a =>
        have hrec := he a (min inc z) (Nat.min_le_left _ _) hp
        simp only [inChild, if_true, Option.bind_eq_bind]
        cases d.getSize c' with
        | none => rfl
        | some s =>
        repeat rw [Option.bind_some]
        cases d.sizeAt c' p with
        | none => rfl
        | some x =>
          simp only [Option.bind_some]
          rw [hrec, ← atOff_atOff, atOff_eq _ o, cat_drop ho, cat_take ho]
          cases atOff c' a (fun c => setElemI p.ty c (min inc z) w true (j :: pa)) with
          | none => rfl
          | some y =>
            obtain ⟨c, q⟩ := y
            simp only [Option.map_some, Option.bind_some, cat_drop ho]
            cases q with
            | false => rfl
            | true =>
              simp only [if_true]
              cases d.sizeAt c p with
              | none => rfl
              | some ns =>
                simp only [Option.bind_some]
                cases sub32 s x with
                | none => rfl
                | some y =>
                  simp only [Option.bind_some]
                  cases u32 (y + ns) with
                  | none => rfl
                  | some z =>
                    simp only [Option.bind_some, lift_cat ho]
                    cases d.overwriteSize c z <;> rfl

/-! ### Sources that are in front of everything that is written -/

/-- What setting an element of type `t` reads through the datum lies below `e`, and reads as `w`. -/
def LowAt (t : Dti) (l : Loc) (w : Datum) (m : Bytes) (e : Nat) : Prop :=
  e ≤ m.length ∧
  match l, w with
  | .bytes a k, .bytes b => a + k ≤ e ∧ rd m a k = b
  | .ptr a, .ptr src => ∃ n, t.getSize (src.take n) = some n ∧ a + n ≤ e ∧ n ≤ src.length ∧ rd m a n = src.take n
  | _, _ => False

theorem LowAt.notNull {t : Dti} {l : Loc} {w : Datum} {m : Bytes} {e : Nat} (h : LowAt t l w m e) : w.isNull = false := by
  obtain ⟨_, h⟩ := h
  cases l <;> cases w <;> first | rfl | exact h.elim

theorem LowAt.cat {t : Dti} {l : Loc} {w : Datum} {m c : Bytes} {e o : Nat} (h : LowAt t l w m e) (ho : o ≤ m.length)
    (he : e ≤ o) : LowAt t l w (m.take o ++ c) e := by
  obtain ⟨h1, h2⟩ := h
  have hrd : ∀ a n, a + n ≤ e → rd (m.take o ++ c) a n = rd m a n := by
    intro a n hn
    apply rd_ext
    intro x hx
    rw [List.getElem?_append_left (by simp; omega), List.getElem?_take_of_lt (by omega)]
  refine ⟨by simp; omega, ?_⟩
  cases l <;> cases w <;> first | exact h2.elim | skip
  · exact ⟨h2.1, by rw [hrd _ _ h2.1]; exact h2.2⟩
  · obtain ⟨n, g1, g2, g3, g4⟩ := h2
    exact ⟨n, g1, g2, g3, by rw [hrd _ _ g2]; exact g4⟩

theorem setDatum_src {t : Dti} {c a b : Bytes} {valid : Bool} {inc n : Nat} (hv : t.isVar = true)
    (ha : t.getSize a = some n) (hb : t.getSize b = some n) (h : load a 0 n = load b 0 n) :
    t.setDatum c valid inc (.ptr a) = t.setDatum c valid inc (.ptr b) := by
  unfold setDatum
  simp only [Datum.isNull, Bool.false_eq_true, if_false, hv, Bool.not_true]
  split
  · rfl
  · cases t with
    | prim k hh => rfl
    | str bin hh => cases bin <;> rfl
    | tup hh fs => simp only [newSize, ha, hb, Option.bind_eq_bind, Option.bind_some, h]
    | arr hh c => simp only [newSize, ha, hb, Option.bind_eq_bind, Option.bind_some, h]

theorem setDatumLoc_low {t : Dti} {m : Bytes} {q inc e : Nat} {l : Loc} {w : Datum} {valid : Bool}
    (h : LowAt t l w m e) (hv : t.isVar = true) (hq : q ≤ m.length) (he : e ≤ q) :
    t.setDatumLoc m q valid inc l = atOff m q (fun c => t.setDatum c valid inc w) := by
  obtain ⟨h1, h2⟩ := h
  cases l with
  | val v => exact h2.elim
  | bytes a k =>
    cases w with
    | bytes b =>
      obtain ⟨h2, rfl⟩ := h2
      refine setDatumLoc_var ?_ hq (fun x y hx => ?_) hv
      · rw [Loc.den, load_eq (by omega)]; rfl
      · cases hx; left; omega
    | _ => exact h2.elim
  | ptr a =>
    cases w with
    | ptr src =>
      obtain ⟨n, g1, g2, g3, g4⟩ := h2
      rw [setDatumLoc_var (w := .ptr (m.drop a)) rfl hq (fun x y hx => by cases hx) hv]
      have hl : (src.take n).length = n := by simp; omega
      have hsz : t.getSize (m.drop a) = some n := by
        have := getSize_at (m := m) (o := a) (b := src.take n) (by rw [g1, hl]) (by rw [hl]; exact g4)
        rwa [hl] at this
      congr 1
      funext c
      have hs2 : t.getSize src = some n := by
        have := getSize_append (r := src.drop n) g1
        rwa [List.take_append_drop] at this
      refine setDatum_src hv hsz hs2 ?_
      rw [load_eq (by simp; omega), load_eq (by omega)]
      exact congrArg some g4
    | _ => exact h2.elim

/-- Setting an element of variable size of data that starts behind the source. -/
theorem setElemILoc_low {t : Dti} {l : Loc} {w : Datum} {e : Nat} (hv : t.isVar = true) (pa : List Nat) :
    ∀ {d : Dti} {m : Bytes} {o S inc : Nat} {val : Val}, TyOk d → o + S ≤ m.length →
    Enc d ((m.drop o).take S) val → d.typeAt pa = some t → LowAt t l w m e → e ≤ o →
    d.setElemILoc m o inc l true pa = atOff m o (fun c => d.setElemI c inc w true pa) := by
  induction pa with
  | nil =>
    intro d m o S inc val h hS _ ht hl he
    simp only [typeAt, Option.some.injEq] at ht
    subst ht
    simp only [setElemILoc, setElemI, hl.notNull, Bool.false_eq_true, if_false]
    exact setDatumLoc_low hl hv (by omega) he
  | cons i pa ih =>
    intro d m o S inc val h hS e ht hl he
    have hc := typeAt_cont ht
    have hS' : S ≤ (m.drop o).length := by simp; omega
    have ho : o ≤ m.length := by omega
    obtain ⟨cs, off, vs, h1, r, hvs⟩ := crep_of_enc h hc hS' e
    have hcnt := getCount_eq h hc r
    have hgs := getSize_eq h hc r
    by_cases hlt : i < cs.length
    · have hpi := posInfo_eq h hc r hlt
      have hty := typeAt_kid h hc r.countOk hlt ht
      have hok := posOf_ok h hc r.countOk hlt
      have hpv : (posOf d cs.length i).ty.isVar = true := typeAt_var pa hok hty hv
      have hb := isVar_not_bit hok hpv
      obtain ⟨c', q, o', g1, r', -, g3, -, -⟩ := moveEnd_any h hc r (List.getElem?_eq_getElem hlt)
      have hlen : (m.take o ++ c').length = m.length := by simp [g3]; omega
      have hgs' := getSize_eq h hc r'
      have hl' : LowAt t l w (m.take o ++ c') _ := hl.cat ho he
      have hc'l : c'.length = m.length - o := by simpa using g3
      cases pa with
      | nil =>
        simp only [typeAt, Option.some.injEq] at hty
        subst hty
        have := setAtLoc_moved (d := d) (m := m) (o := o) (i := i) (inc := inc) (l := l) (w := w) ho hl.notNull hv g1 (by
          intro a? s inc _ p1 p2
          rw [hgs'] at p2; cases p2
          cases a? with
          | none => exact setDatumLoc_low hl' hv (by simp only [Option.getD_none]; omega) (by omega)
          | some a =>
            obtain ⟨n, y, a1, a2, a3, -⟩ := kid_of h hc r' hvs hlt hb p1
            exact setDatumLoc_low hl' hv (by simp only [Option.getD_some]; omega) (by omega))
        rw [atOff_eq] at this ⊢
        simp only [setElemILoc, setContLoc, setElemI, setCont, setContUnsafe, hc, hcnt, hpi, Bool.not_true, Bool.false_eq_true,
          if_false, Option.bind_eq_bind, Option.bind_some, ge_iff_le, Nat.not_le.mpr hlt]
        exact this
      | cons j pa =>
        refine setElemILoc_step ho hc (typeAt_var _ h ht hv) hcnt hlt hgs hpi g1 ?_
        intro a inc _ p1
        obtain ⟨n, y, a1, a2, a3, a4, a5, a6, -⟩ := kid_of h hc r' hvs hlt hb p1
        refine ih (val := y) hok (S := n) (by omega) ?_ hty hl' (by omega)
        rw [← List.drop_drop, cat_drop ho]
        exact a6
    · have hge : cs.length ≤ i := by omega
      rw [atOff_eq]
      cases pa <;> simp [setElemILoc, setContLoc, setElemI, setCont, hc, hcnt, hge]

/-- On the way to the element at `pa` nothing has to be moved, until a containee that starts at `a`. -/
def Moves (d : Dti) (m : Bytes) : List Nat → Nat → Prop
  | [], _ => False
  | i :: pa, a => ∃ k p b n s, d.getCount m = some k ∧ i < k ∧ d.posInfo m i = some p ∧ p.ty.isVar = true ∧
      d.ptrAt m p = some (some b) ∧ p.ty.getSize (m.drop b) = some n ∧ d.getSize m = some s ∧
      ((b + n ≠ s ∧ a = b) ∨ (b + n = s ∧ ∃ c, a = b + c ∧ Moves p.ty (m.drop b) pa c))

theorem moves_of_not_last (pa : List Nat) : ∀ {d : Dti} {m : Bytes}, ¬ d.Last m pa → ∃ a, d.Moves m pa a := by
  induction pa with
  | nil => intro d m h; exact absurd trivial h
  | cons i pa ih =>
    intro d m h
    simp only [Last, Classical.not_forall] at h
    obtain ⟨k, p, a, n, s, h1, h2, h3, h4, h5, h6, h7, h8⟩ := h
    by_cases hs : a + n = s
    · obtain ⟨c, hcm⟩ := ih (fun hl => h8 ⟨hs, hl⟩)
      exact ⟨a + c, k, p, a, n, s, h1, h2, h3, h4, h5, h6, h7, Or.inr ⟨hs, c, rfl, hcm⟩⟩
    · exact ⟨a, k, p, a, n, s, h1, h2, h3, h4, h5, h6, h7, Or.inl ⟨hs, rfl⟩⟩

/-- What has to be moved is an element on the way to `pa` that does not end where its container ends. -/
theorem moves_spot (pa : List Nat) : ∀ {d : Dti} {m : Bytes} {S : Nat} {val : Val} {a : Nat}, TyOk d → S ≤ m.length →
    Enc d (m.take S) val → d.Moves m pa a →
    ∃ q i n u b k c, q ++ [i] <+: pa ∧ Spot d m (q ++ [i]) a n u ∧ u.isVar = true ∧ Spot d m q b k c ∧ a + n ≠ b + k := by
  induction pa with
  | nil => intro d m S val a _ _ _ h; exact h.elim
  | cons i pa ih =>
    intro d m S val a h hS e hm
    obtain ⟨k, p, b, n, s, h1, h2, h3, h4, h5, h6, h7, h8⟩ := hm
    have hc : d.isCont = true := by
      cases d with
      | prim => simp [posInfo] at h3
      | _ => rfl
    obtain ⟨cs, off, vs, hv, r, hvs⟩ := crep_of_enc h hc hS e
    have hcnt := getCount_eq h hc r
    rw [h1] at hcnt; cases hcnt
    have hpi := posInfo_eq h hc r h2
    rw [h3] at hpi; cases hpi
    have hok := posOf_ok h hc r.countOk h2
    have hb := isVar_not_bit hok h4
    rcases h8 with ⟨h8, rfl⟩ | ⟨h8, c, rfl, hm⟩
    · refine ⟨[], i, n, _, 0, s, d, by simp, ⟨hc, _, _, a, 0, h1, h2, h3, hb, h5, rfl, rfl, rfl, h6⟩, h4, ⟨rfl, rfl, h7⟩, by omega⟩
    · obtain ⟨n', y, a1, a2, a3, a4, a5, a6, -⟩ := kid_of h hc r hvs h2 hb h5
      obtain ⟨q, j, n2, u, b2, k2, c2, g1, g2, g3, g4, g5⟩ := ih hok a5 a6 hm
      refine ⟨i :: q, j, n2, u, b + b2, k2, c2, ?_, ⟨hc, _, _, b, c, h1, h2, h3, hb, h5, rfl, g2⟩, g3,
        ⟨hc, _, _, b, b2, h1, h2, h3, hb, h5, rfl, g4⟩, by omega⟩
      obtain ⟨z, rfl⟩ := g1
      exact ⟨z, by simp⟩

/-- What is read through the datum starts at `x` or behind it. -/
def _root_.TS.Loc.from (l : Loc) (x : Nat) : Prop :=
  match l with
  | .val _ => True
  | .bytes a _ => x ≤ a
  | .ptr a => x ≤ a

theorem LowAt.move {t : Dti} {l : Loc} {w : Datum} {m m' : Bytes} {e x : Nat} (h : LowAt t l w m e) (hf : l.from x)
    (hm : rd m' x (e - x) = rd m x (e - x)) (he : e ≤ m'.length) : LowAt t l w m' e := by
  obtain ⟨h1, h2⟩ := h
  have hrd : ∀ a n, x ≤ a → a + n ≤ e → rd m' a n = rd m a n := by
    intro a n ha hn
    apply rd_ext
    intro y hy
    have := congrArg (fun z => z[a - x + y]?) hm
    simp only [rd_getElem?] at this
    rw [if_pos (by omega), if_pos (by omega), show x + (a - x + y) = a + y by omega] at this
    exact this
  refine ⟨he, ?_⟩
  cases l <;> cases w <;> first | exact h2.elim | skip
  · exact ⟨h2.1, by rw [hrd _ _ hf h2.1]; exact h2.2⟩
  · obtain ⟨n, g1, g2, g3, g4⟩ := h2
    exact ⟨n, g1, g2, g3, by rw [hrd _ _ hf g2]; exact g4⟩

theorem moves_lt {d : Dti} {m : Bytes} {S : Nat} {val : Val} {a : Nat} {pa : List Nat} (h : TyOk d) (hS : S ≤ m.length)
    (e : Enc d (m.take S) val) (hm : d.Moves m pa a) : a < S := by
  obtain ⟨q, i, n, u, b, k, c, -, h2, -⟩ := moves_spot pa h hS e hm
  obtain ⟨-, h3, h4, -⟩ := spot_in _ h hS e h2
  omega

/-- Setting an element of variable size, when the source lies in front of what has to be moved. -/
theorem setElemILoc_front {t : Dti} {l : Loc} {w : Datum} {m : Bytes} {x e : Nat} (hv : t.isVar = true)
    (hl : LowAt t l w m e) (hf : l.from x) (pa : List Nat) :
    ∀ {d : Dti} {o S inc a : Nat} {val : Val}, TyOk d → o + S ≤ m.length →
    Enc d ((m.drop o).take S) val → d.typeAt pa = some t → d.Moves (m.drop o) pa a → e ≤ o + a →
    (e ≤ o ∨ ∃ pb b n u, Spot d (m.drop o) pb b n u ∧ x = o + b ∧ e = o + b + n) →
    d.setElemILoc m o inc l true pa = atOff m o (fun c => d.setElemI c inc w true pa) := by
  induction pa with
  | nil => intro d o S inc a val _ _ _ _ hm; exact hm.elim
  | cons i pa ih =>
    intro d o S inc a val h hS e' ht hm he hsrc
    have hc := typeAt_cont ht
    have hS' : S ≤ (m.drop o).length := by simp; omega
    have ho : o ≤ m.length := by omega
    have hlt := moves_lt h hS' e' hm
    obtain ⟨cs, off, vs, h1, r, hvs⟩ := crep_of_enc h hc hS' e'
    have hcnt := getCount_eq h hc r
    have hgs := getSize_eq h hc r
    obtain ⟨k, p, b, n, s, m1, m2, m3, m4, m5, m6, m7, m8⟩ := hm
    rw [hcnt] at m1; cases m1
    have hpi := posInfo_eq h hc r m2
    rw [hpi] at m3; cases m3
    rw [hgs] at m7; cases m7
    have hty := typeAt_kid h hc r.countOk m2 ht
    have hok := posOf_ok h hc r.countOk m2
    have hb := isVar_not_bit hok m4
    obtain ⟨n', y, a1, a2, a3, a4, a5, a6, a7, a8⟩ := kid_of h hc r hvs m2 hb m5
    rw [m6] at a1; cases a1
    rcases a8 with ⟨a8, _⟩ | ⟨-, a9, rfl, a10⟩
    · rw [m4] at a8; cases a8
    rcases m8 with ⟨m8, rfl⟩ | ⟨m8, c, rfl, hm⟩
    · -- the containee is moved here
      obtain ⟨c', q, o', g1, r', g2, g3, g4, g5⟩ := moveEnd_at h hc r a9
      have hc'l : c'.length = m.length - o := by simpa using g3
      have hlen : (m.take o ++ c').length = m.length := by simp [g3]; omega
      have hgs' := getSize_eq h hc r'
      have hel := hl.1
      have hnl : (((m.drop o).drop (off i)).take n).length = n := by
        rw [List.length_take]; omega
      have hge : off i ≤ o' i := by omega
      have hl' : LowAt t l w (m.take o ++ c') e := by
        rcases hsrc with hsrc | ⟨pb, b, k, u, hs, rfl, rfl⟩
        · exact hl.cat ho hsrc
        · obtain ⟨-, s2, s3, -⟩ := spot_in pb h hS' e' hs
          refine hl.move hf ?_ (by omega)
          rw [show o + b + k - (o + b) = k by omega]
          have hmv : rd c' b k = rd (m.drop o) b k := by
            cases pb with
            | nil =>
              obtain ⟨rfl, -, s5⟩ := hs
              rw [hgs] at s5; cases s5
              omega
            | cons j pb =>
              obtain ⟨b', q', x', y', z1, z2, z3, z4, z5, rfl, z7⟩ := (spot_kid h hc r hvs).mp hs
              have hsp := spot_in pb (posOf_ok h hc r.countOk (i := j) (by
                rcases z1 with ⟨z1, _⟩ | ⟨z1, _⟩ <;> exact (List.getElem?_eq_some_iff.mp z1).1))
                (Nat.le_refl b'.length) (by rw [List.take_length]; exact z2) z7
              have hin : rd c' q' b'.length = b' := by
                rcases z1 with ⟨z1, rfl⟩ | ⟨z1, rfl⟩
                · have hr := r.elt j _ z1
                  have hr' := r'.elt j _ z1
                  obtain ⟨-, -, -, w1⟩ := hr
                  obtain ⟨-, -, -, w2⟩ := hr'
                  have hj : j < cs.length := (List.getElem?_eq_some_iff.mp z1).1
                  have hbl := (enc_size (posOf_ok h hc r.countOk hj) z2).2.2.2.2.2 (r.elt j _ z1).2.1
                  rw [hbl]; exact w2
                · have hij : j ≠ i := by
                    rintro rfl
                    omega
                  have := g5 j b' hij z1
                  have hnot : ¬ off i < off j := by omega
                  rw [if_neg hnot] at this
                  have hr' := r'.elt j _ z1
                  rw [← this]
                  exact hr'.2.2.2.2.1
              rw [rd_rd hin (by omega), rd_rd z3 (by omega)]
          have e1 : rd (m.take o ++ c') (o + b) k = rd c' b k := by
            have := congrArg (fun z => (z.drop b).take k) (cat_drop (c := c') ho)
            simpa [rd, List.drop_drop] using this
          have e2 : rd m (o + b) k = rd (m.drop o) b k := by simp [rd, List.drop_drop]
          rw [e1, e2, hmv]
      cases pa with
      | nil =>
        simp only [typeAt, Option.some.injEq] at hty
        subst hty
        have := setAtLoc_moved (d := d) (m := m) (o := o) (i := i) (inc := inc) (l := l) (w := w) ho hl.notNull hv g1 (by
          intro a? s inc _ p1 p2
          rw [hgs'] at p2; cases p2
          rw [ptrAt_eq h hc r' a9] at p1
          cases p1
          refine setDatumLoc_low hl' hv ?_ ?_
          · show o + o' i ≤ _
            omega
          · show e ≤ o + o' i
            omega)
        rw [atOff_eq] at this ⊢
        simp only [setElemILoc, setContLoc, setElemI, setCont, setContUnsafe, hc, hcnt, hpi, Bool.not_true, Bool.false_eq_true,
          if_false, Option.bind_eq_bind, Option.bind_some, ge_iff_le, Nat.not_le.mpr m2]
        exact this
      | cons j pa =>
        refine setElemILoc_step ho hc (typeAt_var _ h ht hv) hcnt m2 hgs hpi g1 ?_
        intro a inc _ p1
        obtain ⟨n2, y2, b1, b2, b3, b4, b5, b6, -⟩ := kid_of h hc r' hvs m2 hb p1
        rw [ptrAt_eq h hc r' a9] at p1
        cases p1
        refine setElemILoc_low (val := y2) hv _ hok (S := n2) (by show o + o' i + n2 ≤ _; omega) ?_ hty hl' (by show e ≤ o + o' i; omega)
        rw [← List.drop_drop, cat_drop ho]
        exact b6
    · -- the containee is the last one, the one to be moved is inside of it
      have hmv := moveEnd_last h hc r hvs m2 m4 (fun a n g1 g2 => by
        rw [m5] at g1; cases g1
        rw [m6] at g2; cases g2
        exact m8)
      cases pa with
      | nil => exact hm.elim
      | cons j pa =>
        refine setElemILoc_step ho hc (typeAt_var _ h ht hv) hcnt m2 hgs hpi hmv ?_
        intro a inc _ p1
        rw [m5] at p1; cases p1
        rw [List.take_append_drop]
        rw [List.drop_drop] at a6 hm
        refine ih (val := y) hok (S := n) (by omega) a6 hty hm (by omega) ?_
        rcases hsrc with hsrc | ⟨pb, b, k, u, hs, hx1, hx2⟩
        · left; omega
        · cases pb with
          | nil =>
            obtain ⟨rfl, -, s5⟩ := hs
            rw [hgs] at s5; cases s5
            omega
          | cons i' pb =>
            obtain ⟨-, s2, s3, -⟩ := spot_in _ h hS' e' hs
            by_cases hii : i' = i
            · subst hii
              obtain ⟨-, k', p', q, x', z1, z2, z3, z4, z5, z6, z7⟩ := hs
              rw [hpi] at z3; cases z3
              rw [m5] at z5; cases z5
              right
              rw [List.drop_drop] at z7
              exact ⟨pb, x', k, u, z7, by omega, by omega⟩
            · left
              obtain ⟨-, k', p', q, x', z1, z2, z3, z4, z5, z6, z7⟩ := hs
              rw [hcnt] at z1; cases z1
              have hpj := posInfo_eq h hc r z2
              rw [hpj] at z3; cases z3
              obtain ⟨nj, yj, b1, b2, b3, b4, b5, b6, -⟩ := kid_of h hc r hvs z2 z4 z5
              have hin := spot_in pb (posOf_ok h hc r.countOk z2) b5 b6 z7
              rcases kids_apart h hc r hvs z2 m2 hii z4 hb z5 m5 b1 m6 with hh | hh <;> omega

end Dti
end TS
