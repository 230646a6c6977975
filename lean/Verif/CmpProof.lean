import Verif.CmpSpec
import Verif.TypeIdent
/-
Comparisons compute the order of the values that the data stand for.
-/
namespace TS

namespace Num

theorem ofInt_inj {a b : Int} (h : ofInt a = ofInt b) : a = b := by
  unfold ofInt at h
  injection h with h
  have hp : (2 : Int) ^ 1074 ≠ 0 := by
    have : (0 : Int) < 2 ^ 1074 := Int.pow_pos (by decide)
    omega
  exact Int.eq_of_mul_eq_mul_right hp h

theorem ofInt_lt {a b : Int} : lt (ofInt a) (ofInt b) ↔ a < b := by
  have hp : (0 : Int) < 2 ^ 1074 := Int.pow_pos (by decide)
  simp only [ofInt, lt]
  exact ⟨fun h => Int.lt_of_mul_lt_mul_right h (Int.le_of_lt hp), fun h => Int.mul_lt_mul_of_pos_right h hp⟩

theorem ofInt_ne_nan (a : Int) : ofInt a ≠ .nan := by unfold ofInt; exact nofun

theorem cmpInt_ord (a b : Int) : cmpInt a b = ord (ofInt a) (ofInt b) := by
  unfold cmpInt ord
  have : (ofInt a = ofInt b) ↔ a = b := ⟨ofInt_inj, fun h => by rw [h]⟩
  simp only [ofInt_lt, this]
  split
  · rfl
  · split <;> split <;> first | rfl | (exfalso; omega)

theorem cmpInt_sub {a b i : Nat} (h : i = min a b) : cmpInt ((a - i : Nat) : Int) ((b - i : Nat) : Int) = cmpInt a b := by
  unfold cmpInt
  by_cases h1 : a < b
  · rw [if_pos (by omega), if_pos (by omega)]
  · rw [if_neg (by omega), if_neg (show ¬ (a : Int) < b by omega)]
    by_cases h2 : b < a
    · rw [if_pos (by omega), if_pos (by omega)]
    · rw [if_neg (by omega), if_neg (by omega)]

theorem cmp_ord {a b : Num} (ha : a ≠ .nan) (hb : b ≠ .nan) : cmp a b = ord a b := by
  cases a <;> cases b <;> simp_all [cmp, ord, lt, cmpInt]
  split
  · rfl
  · split <;> split <;> first | rfl | (exfalso; omega)

theorem ord_nan {a : Num} (ha : a ≠ .nan) : ord a .nan = -1 := by
  cases a <;> simp_all [ord, lt]

theorem nan_ord {a : Num} (ha : a ≠ .nan) : ord .nan a = 1 := by
  rw [ord_swap, ord_nan ha]; rfl

end Num

namespace Dti

/-- The types of which data can be compared. -/
inductive Cmp : Dti → Dti → Prop
  | num {k1 k2 : PKind} {h1 h2 : Hdr} : Cmp (.prim k1 h1) (.prim k2 h2)
  | tup {h1 h2 : Hdr} {fs gs : List (Fld × Dti)} : fs.length = gs.length →
      (∀ (i : Nat) f t g u, fs[i]? = some (f, t) → gs[i]? = some (g, u) → Cmp t u) →
      Cmp (.tup h1 fs) (.tup h2 gs)
  | seq {d1 d2 c1 c2 : Dti} : d1.cont = some c1 → d2.cont = some c2 → Cmp c1 c2 → Cmp d1 d2

theorem all2_length {α : Type} {R : α → α → Prop} {l r : List α} (h : All2 R l r) : l.length = r.length := by
  induction h with
  | nil => rfl
  | cons _ _ ih => simp [ih]

theorem all2_get {α : Type} {R : α → α → Prop} {l r : List α} (h : All2 R l r) {i : Nat} {a b : α}
    (ha : l[i]? = some a) (hb : r[i]? = some b) : R a b := by
  induction h generalizing i with
  | nil => simp at ha
  | cons hx _ ih =>
    cases i with
    | zero => simp at ha hb; subst ha; subst hb; exact hx
    | succ i => simp at ha hb; exact ih ha hb

theorem ident_cmp : ∀ {d : Dti}, TyOk d → ∀ {e : Dti}, TyOk e → ident d e = some true → Cmp d e := by
  intro d
  induction d using Dti.ind with
  | hp k h =>
    intro _ e _ hi
    obtain ⟨h2, rfl, _⟩ := ident_prim hi
    exact .num
  | hs b h =>
    intro _ e _ hi
    obtain ⟨h2, rfl, _⟩ := ident_str hi
    exact .seq rfl rfl .num
  | ht h fs ih =>
    intro hd e he hi
    obtain ⟨h2, gs, rfl, _, hc, hi⟩ := ident_tup hi
    cases hd with
    | tup _ _ a1 a2 a3 a4 =>
      cases he with
      | tup _ _ b1 b2 b3 b4 =>
        have ha := identAll_true (by rw [a4, b4, hc]) hi
        refine .tup (all2_length ha) ?_
        intro i f t g u h1 h2
        have m1 := List.mem_of_getElem? h1
        exact ih f t m1 (a3 f t m1) (b3 g u (List.mem_of_getElem? h2)) (all2_get ha h1 h2)
  | ha h c ih =>
    intro hd e he hi
    obtain ⟨h2, c2, rfl, _, _, _, hi⟩ := ident_arr hi
    cases hd with
    | arr _ _ _ a1 =>
      cases he with
      | arr _ _ _ b1 => exact .seq rfl rfl (ih a1 b1 hi)

theorem canCmpPrim_cmp {k : PKind} {h : Hdr} {d : Dti} (hh : canCmpPrim (.prim k h) d = some true) :
    ∃ k2 h2, d = .prim k2 h2 := by
  unfold canCmpPrim at hh
  simp only [Option.bind_eq_bind, Option.bind_eq_some_iff] at hh
  obtain ⟨b, hb, hh⟩ := hh
  cases b with
  | true => obtain ⟨h2, rfl, _⟩ := ident_prim hb; exact ⟨_, _, rfl⟩
  | false =>
    cases d with
    | prim => exact ⟨_, _, rfl⟩
    | _ => simp [isNum] at hh

theorem canCompare_cmp : ∀ {d e : Dti}, TyOk d → TyOk e → canCompare d e = some true → Cmp d e := by
  intro d
  induction d using Dti.ind with
  | hp k h =>
    intro e _ _ hh
    obtain ⟨k2, h2, rfl⟩ := canCmpPrim_cmp (by simpa only [canCompare] using hh)
    exact .num
  | hs b h =>
    intro e hd he hh
    simp only [canCompare, Option.bind_eq_bind, Option.bind_eq_some_iff] at hh
    obtain ⟨x, hx, hh⟩ := hh
    cases x with
    | true => exact ident_cmp hd he hx
    | false =>
      simp only [Bool.false_eq_true, if_false] at hh
      cases hc : e.cont with
      | none => rw [hc] at hh; simp at hh
      | some c2 =>
        rw [hc] at hh
        obtain ⟨k2, h2, rfl⟩ := canCmpPrim_cmp (k := .uint) hh
        exact .seq rfl hc .num
  | ht h fs ih =>
    intro e hd he hh
    exact ident_cmp hd he (by simpa only [canCompare] using hh)
  | ha h c ih =>
    intro e hd he hh
    simp only [canCompare, Option.bind_eq_bind, Option.bind_eq_some_iff] at hh
    obtain ⟨x, hx, hh⟩ := hh
    cases x with
    | true => exact ident_cmp hd he hx
    | false =>
      simp only [Bool.false_eq_true, if_false] at hh
      cases hc : e.cont with
      | none => rw [hc] at hh; simp at hh
      | some c2 =>
        rw [hc] at hh
        have ok2 : TyOk c2 := by
          cases he with
          | prim => cases hc
          | str => cases hc; exact u8_ok
          | tup => cases hc
          | arr _ _ _ a => cases hc; exact a
        cases hd with
        | arr _ _ _ a => exact .seq rfl hc (ih a ok2 hh)

/-- A type with short names can be compared with itself. -/
theorem Cmp.refl : ∀ d : Dti, Cmp d d := by
  intro d
  induction d using Dti.ind with
  | hp => exact .num
  | hs => exact .seq rfl rfl .num
  | ht h fs ih =>
    refine .tup rfl ?_
    intro i f t g u h1 h2
    rw [h1] at h2; cases h2
    exact ih f t (List.mem_of_getElem? h1)
  | ha h c ih => exact .seq rfl rfl ih

/-! ### numbers -/

theorem isnan_iff {b : Bytes} : isnan b = true ↔ Num.ofBits b = .nan := by simp [isnan]

theorem cmpIntFlt_ord {z : Int} {h : Hdr} {e : Datum} {b : Bytes} (hs : h.size = 4 ∨ h.size = 8)
    (hb : e.asFlt h.size = some b) : cmpIntFlt z h e = some (Num.ord (.ofInt z) (.ofBits b)) := by
  unfold cmpIntFlt
  rw [if_pos (by simpa using hs), hb]
  simp only [Option.bind_eq_bind, Option.bind_some]
  by_cases hn : Num.ofBits b = .nan
  · rw [if_pos (isnan_iff.mpr hn), hn, Num.ord_nan (Num.ofInt_ne_nan _)]; rfl
  · rw [if_neg (by rw [isnan_iff]; exact hn), cmpIntDouble, Num.cmp_ord (Num.ofInt_ne_nan _) hn]; rfl

theorem cmpFltInt_ord {z : Int} {h : Hdr} {e : Datum} {b : Bytes}
    (hb : e.asFlt h.size = some b) : cmpFltInt h e z = some (Num.ord (.ofBits b) (.ofInt z)) := by
  unfold cmpFltInt
  rw [hb]
  simp only [Option.bind_eq_bind, Option.bind_some]
  by_cases hn : Num.ofBits b = .nan
  · rw [if_pos (isnan_iff.mpr hn), hn, Num.nan_ord (Num.ofInt_ne_nan _)]; rfl
  · rw [if_neg (by rw [isnan_iff]; exact hn), cmpIntDouble, Num.cmp_ord (Num.ofInt_ne_nan _) hn, ← Num.ord_swap]; rfl

theorem cmpFlt_ord (a b : Bytes) : (if isnan a && isnan b then some 0 else if isnan a then some 1
    else if isnan b then some (-1) else some (cmpDouble a b)) = some (Num.ord (.ofBits a) (.ofBits b)) := by
  by_cases ha : Num.ofBits a = .nan <;> by_cases hb : Num.ofBits b = .nan
  · simp [isnan, ha, hb, Num.ord_self]
  · simp [isnan, ha, hb, Num.nan_ord hb]
  · simp [isnan, ha, hb, Num.ord_nan ha]
  · simp [isnan, ha, hb, cmpDouble, Num.cmp_ord ha hb]

theorem cmpFltFlt_ord {h1 h2 : Hdr} {e1 e2 : Datum} {a b : Bytes} (hs : h2.size = 4 ∨ h2.size = 8)
    (ha : e1.asFlt h1.size = some a) (hb : e2.asFlt h2.size = some b) :
    cmpFltFlt h1 h2 e1 e2 = some (Num.ord (.ofBits a) (.ofBits b)) := by
  unfold cmpFltFlt
  rw [if_pos (by simpa using hs), ha, hb, ← cmpFlt_ord]
  rfl

/-- Headers of numeral types. -/
def FltOk (k : PKind) (h : Hdr) : Prop := k = .float → h.size = 4 ∨ h.size = 8

theorem TyOk.fltOk {k : PKind} {h : Hdr} (hd : TyOk (.prim k h)) : FltOk k h := by
  cases hd; assumption

theorem cmpPrim_ord {k1 k2 : PKind} {h1 h2 : Hdr} {e1 e2 : Datum} {x1 x2 : Num} (o1 : FltOk k1 h1)
    (o2 : FltOk k2 h2) (n1 : numOf k1 h1 e1 = some x1) (n2 : numOf k2 h2 e2 = some x2) :
    cmpPrim k1 h1 e1 k2 h2 e2 = some (x1.ord x2) := by
  cases k1 <;> simp only [numOf, Option.map_eq_some_iff] at n1 <;> obtain ⟨a, n1, rfl⟩ := n1 <;>
  cases k2 <;> simp only [numOf, Option.map_eq_some_iff] at n2 <;> obtain ⟨b, n2, rfl⟩ := n2 <;>
  first
  | (simp only [cmpPrim, n1, n2, Option.bind_eq_bind, Option.bind_some, Num.cmpInt_ord]; rfl)
  | (simp only [cmpPrim, n1, n2, Option.bind_eq_bind, Option.bind_some, Num.cmpInt_ord]; rw [← Num.ord_swap]; rfl)
  | (have q := o2 rfl
     simp only [cmpPrim, n1, Option.bind_eq_bind, Option.bind_some, cmpIntFlt_ord q n2]; done)
  | (have q := o1 rfl
     simp only [cmpPrim]
     rw [if_pos (by simpa using q)]
     simp only [n2, Option.bind_eq_bind, Option.bind_some, cmpFltInt_ord n1])
  | (have q1 := o1 rfl
     have q2 := o2 rfl
     simp only [cmpPrim]
     rw [if_pos (by simpa using q1), cmpFltFlt_ord q2 n1 n2])

theorem compareNum2_ord {k : PKind} {h : Hdr} {e1 e2 : Datum} {x1 x2 : Num} (o : FltOk k h)
    (hn1 : e1.isNull = false) (hn2 : e2.isNull = false)
    (n1 : numOf k h e1 = some x1) (n2 : numOf k h e2 = some x2) :
    compareNum2 e1 e2 (.prim k h) = some (x1.ord x2) := by
  unfold compareNum2 cmpNull
  simp only [hn1, hn2, Bool.not_false, Bool.and_true, Bool.and_false, Bool.false_eq_true, if_false]
  cases k <;> simp only [numOf, Option.map_eq_some_iff] at n1 n2 <;> obtain ⟨a, n1, rfl⟩ := n1 <;>
  obtain ⟨b, n2, rfl⟩ := n2 <;>
  first
  | (simp only [n1, n2, Option.bind_eq_bind, Option.bind_some, Num.cmpInt_ord]; rfl)
  | (have q := o rfl
     simp only
     rw [if_pos (by simpa using q), n1, n2, ← cmpFlt_ord]
     rfl)

/-! ### containers -/

theorem charSeq_len (b : Bytes) : charSeq b = .seq (b.map (fun c => SVal.num (.ofInt c.toNat))) := rfl

theorem svals_get : ∀ {fs : List (Fld × Dti)} {vs : List Val} {i : Nat} {x : SVal}, (svals fs vs)[i]? = some x →
    ∃ f t v, fs[i]? = some (f, t) ∧ vs[i]? = some v ∧ x = sval t v := by
  intro fs
  induction fs with
  | nil => intro vs i x h; simp [svals] at h
  | cons p r ih =>
    obtain ⟨f, t⟩ := p
    intro vs i x h
    cases vs with
    | nil => simp [svals] at h
    | cons v vs =>
      simp only [svals] at h
      cases i with
      | zero => simp at h; exact ⟨f, t, v, by simp, by simp, h.symm⟩
      | succ i => simp at h; obtain ⟨f', t', v', h1, h2, h3⟩ := ih h; exact ⟨f', t', v', by simpa, by simpa, h3⟩

theorem svals_length : ∀ {fs : List (Fld × Dti)} {vs : List Val}, fs.length = vs.length → (svals fs vs).length = fs.length := by
  intro fs
  induction fs with
  | nil => intro vs h; simp [svals]
  | cons p r ih =>
    obtain ⟨f, t⟩ := p
    intro vs h
    cases vs with
    | nil => simp at h
    | cons v vs => simp only [svals, List.length_cons]; rw [ih (by simpa using h)]

theorem sval_null (d : Dti) : sval d .null = .null := by cases d <;> simp [sval]

/-- A value that is stored somewhere. -/
def Stored (t : Dti) (y : Val) : Prop := y = .null ∨ (∃ v, y = .bits v) ∨ ∃ b, Enc t b y

/-- A datum read from a stored value stands for it. -/
theorem shows_means {t : Dti} {y : Val} {dt : Datum} (hs : Shows t y dt) (he : Stored t y) :
    Means t dt (sval t y) := by
  cases y with
  | null => left; exact ⟨hs, sval_null t⟩
  | bits v =>
    right
    obtain ⟨h1, rfl⟩ := hs
    cases t with
    | prim k h =>
      cases k with
      | bitField => exact ⟨rfl, _, rfl, by simp [sval]⟩
      | _ => simp [isBit] at h1
    | _ => simp [isBit] at h1
  | raw b =>
    right
    cases t with
    | prim k h =>
      rcases he with he | ⟨v, he⟩ | ⟨b', he⟩
      · cases he
      · cases he
      · obtain ⟨_, hl, hb⟩ := enc_prim he
        cases hb
        cases k <;> simp only [Shows] at hs
        all_goals subst hs
        all_goals refine ⟨rfl, _, ?_, by simp only [sval, rawNum]; rfl⟩
        all_goals simp [numOf, Datum.asUint, Datum.asInt, Datum.asFlt, hl]
    | _ => exact hs.elim
  | node vs =>
    right
    cases t with
    | prim => exact hs.elim
    | str bin h =>
      obtain ⟨x, h1, rfl⟩ := hs
      refine ⟨rfl, _, rfl, ?_⟩
      unfold chars at h1
      injection h1 with h1
      have hb : vs.map byteOf = x := by
        rw [h1, List.map_map]
        have : (byteOf ∘ fun b => Val.raw [b]) = (id : UInt8 → UInt8) := by funext b; rfl
        rw [this]; simp
      simp only [sval, hb]
    | tup h fs =>
      obtain ⟨m, S, rfl, h1, h2⟩ := hs
      exact ⟨rfl, m, S, vs, rfl, h1, h2, rfl⟩
    | arr h c =>
      obtain ⟨m, S, rfl, h1, h2⟩ := hs
      exact ⟨rfl, m, S, vs, rfl, h1, h2, rfl⟩

/-- The values inside of a stored value are stored. -/
theorem stored_at (pa : List Nat) : ∀ {d t : Dti} {y z : Val}, TyOk d → Stored d y → y.at' pa = some z →
    d.typeAt pa = some t → Stored t z := by
  induction pa with
  | nil => intro d t y z _ h ha ht; simp only [Val.at', typeAt, Option.some.injEq] at ha ht; subst ha; subst ht; exact h
  | cons i pa ih =>
    intro d t y z hd h ha ht
    rcases h with h | ⟨v, h⟩ | ⟨b, h⟩
    · subst h; simp [Val.at'] at ha; left; exact ha.symm
    · subst h; simp [Val.at'] at ha
    · cases hc : d.isCont with
      | false =>
        cases d with
        | prim => rw [(enc_prim h).2.2] at ha; simp [Val.at'] at ha
        | _ => simp [isCont] at hc
      | true =>
        obtain ⟨cs, o, vs, rfl, r, hv⟩ := enc_cont hc h
        simp only [Val.at'] at ha
        cases hx : vs[i]? with
        | none => rw [hx] at ha; simp at ha
        | some x =>
          rw [hx] at ha
          have hlt : i < cs.length := by rw [← hv.1]; exact (List.getElem?_eq_some_iff.mp hx).1
          have hty := tyAtNoData_pos hd hc r.countOk hlt
          simp only [typeAt, hty, Option.bind_eq_bind, Option.bind_some] at ht
          refine ih (posOf_ok hd hc r.countOk hlt) ?_ ha ht
          have := hv.2 i _ _ (List.getElem?_eq_getElem hlt) hx
          generalize cs[i] = c at this
          cases c with
          | null => exact .inl this
          | bits v => exact .inr (.inl ⟨v, this⟩)
          | fixd b => exact .inr (.inr ⟨b, this⟩)
          | var b => exact .inr (.inr ⟨b, this⟩)

/-- What is inside of a well formed datum that stands for a sequence. -/
structure KidsM (d : Dti) (v : Datum) (xs : List SVal) : Prop where
  count : countOf v d = some xs.length
  kid : ∀ (i : Nat) x, xs[i]? = some x → ∃ c t, contOf v d i = some (some (c, some t)) ∧ d.tyAt i = some t ∧
    TyOk t ∧ Means t c x
  len : ∀ h fs, d = .tup h fs → xs.length = fs.length

theorem kidsM {d : Dti} {v : Datum} {s : SVal} (hd : TyOk d) (hc : d.isCont = true) (hn : v.isNull = false)
    (hm : Means d v s) : ∃ xs, s = .seq xs ∧ KidsM d v xs := by
  rcases hm with ⟨rfl, _⟩ | ⟨_, hm⟩
  · simp [Datum.isNull] at hn
  -- containers other than strings
  have key : ∀ (hs : ∀ b h, d ≠ .str b h) (m : Bytes) (S : Nat) (vs : List Val), v = .ptr m → S ≤ m.length →
      Enc d (m.take S) (.node vs) → countOf v d = some vs.length ∧ (d.isVarCount = false → vs.length = d.hdr.count) ∧
      ∀ (i : Nat) y, vs[i]? = some y → ∃ c t, contOf v d i = some (some (c, some t)) ∧ d.tyAt i = some t ∧
        TyOk t ∧ Means t c (sval t y) := by
    intro hs m S vs hv hS he
    subst hv
    obtain ⟨cs, o, vs', h1, r, hv⟩ := crep_of_enc hd hc hS he
    cases h1
    have hcnt := getCount_eq hd hc r
    have hco : countOf (.ptr m) d = some vs.length := by
      unfold countOf
      rw [hc]
      simp only [Bool.not_true, Bool.false_eq_true, if_false, Datum.isNull]
      rw [hv.1, ← hcnt]
    refine ⟨hco, fun hf => by rw [hv.1]; exact r.cntF hf, ?_⟩
    intro i y hy
    have hlt : i < cs.length := by rw [← hv.1]; exact (List.getElem?_eq_some_iff.mp hy).1
    have hty := tyAtNoData_pos hd hc r.countOk hlt
    have htA : d.tyAt i = some (posOf d cs.length i).ty := by
      unfold tyAtNoData at hty
      rw [hc] at hty
      simp only [Bool.not_true, Bool.false_eq_true, if_false] at hty
      split at hty
      · cases hty
      · exact hty
    have hpi := posInfo_eq hd hc r hlt
    have hok := posOf_ok hd hc r.countOk hlt
    have hg := getElem_ok [i] hd hS he
    have hat : (Val.node vs).at' [i] = some y := by simp [Val.at', hy]
    have hta : d.typeAt [i] = some (posOf d cs.length i).ty := by
      simp only [typeAt, hty, Option.bind_eq_bind, Option.bind_some]
    unfold GetOk at hg
    rw [hat, hta] at hg
    simp only at hg
    have hcont : ∀ dt, d.getElem m [i] = some (some dt) →
        contOf (.ptr m) d i = some (some (dt, some (posOf d cs.length i).ty)) := by
      intro dt hdt
      have hdt : d.getCont m i = some (some dt) := hdt
      unfold contOf
      rw [hc, hco]
      simp only [Bool.not_true, Bool.false_eq_true, if_false, Datum.isNull, Option.bind_eq_bind, Option.bind_some]
      rw [if_neg (by rw [hv.1]; omega)]
      cases d with
      | str b h => exact absurd rfl (hs b h)
      | prim => cases hc
      | tup => simp only [hdt, hpi, Option.bind_some]; rfl
      | arr => simp only [hdt, hpi, Option.bind_some]; rfl
    rcases hg with ⟨rfl, hg⟩ | ⟨t, dt, h1, h2, h3⟩
    · exact ⟨.null, _, hcont _ hg, htA, hok, .inl ⟨rfl, sval_null _⟩⟩
    · cases h1
      exact ⟨dt, _, hcont _ h2, htA, hok, shows_means h3 (stored_at [i] hd (.inr (.inr ⟨_, he⟩)) hat hta)⟩
  cases d with
  | prim => cases hc
  | str bin h =>
    obtain ⟨b, h1, rfl⟩ := hm
    have hco : countOf v (.str bin h) = some b.length := by
      simp only [countOf, isCont, hn, h1]; rfl
    refine ⟨_, rfl, by simpa using hco, ?_, by intro _ _ hh; cases hh⟩
    intro i x hx
    simp only [List.getElem?_map, Option.map_eq_some_iff] at hx
    obtain ⟨c, hx, rfl⟩ := hx
    refine ⟨.uint c.toNat, u8, ?_, rfl, u8_ok, .inr ⟨rfl, _, rfl, rfl⟩⟩
    have hlt := (List.getElem?_eq_some_iff.mp hx).1
    unfold contOf
    rw [hco]
    simp only [isCont, Bool.not_true, Bool.false_eq_true, if_false, hn, Option.bind_eq_bind, Option.bind_some, h1, hx]
    rw [if_neg (by omega)]
    rfl
  | tup h fs =>
    obtain ⟨m, S, vs, h1, h2, h3, rfl⟩ := hm
    obtain ⟨k1, k0, k2⟩ := key (by simp) m S vs h1 h2 h3
    have hl : fs.length = vs.length := by
      rw [k0 rfl]
      cases hd with
      | tup _ _ _ _ _ a => exact a
    refine ⟨svals fs vs, by simp [sval], ?_, ?_, ?_⟩
    · rw [svals_length hl, hl]; exact k1
    · intro i x hx
      obtain ⟨f, t, y, g1, g2, rfl⟩ := svals_get hx
      obtain ⟨c, t', q1, q2, q3, q4⟩ := k2 i y g2
      have : t' = t := by simp [tyAt, g1] at q2; exact q2.symm
      subst this
      exact ⟨c, t', q1, q2, q3, q4⟩
    · intro _ _ hh; cases hh; rw [svals_length hl]
  | arr h c =>
    obtain ⟨m, S, vs, h1, h2, h3, rfl⟩ := hm
    obtain ⟨k1, _, k2⟩ := key (by simp) m S vs h1 h2 h3
    refine ⟨vs.map (fun v => sval c v), by simp [sval], by simpa using k1, ?_, by intro _ _ hh; cases hh⟩
    intro i x hx
    simp only [List.getElem?_map, Option.map_eq_some_iff] at hx
    obtain ⟨y, hx, rfl⟩ := hx
    obtain ⟨x, t, q1, q2, q3, q4⟩ := k2 i y hx
    have : t = c := by simp [tyAt] at q2; exact q2.symm
    subst this
    exact ⟨x, t, q1, q2, q3, q4⟩

/-- The datum `v` of type `d` stands for `s` as far as reading goes: what can be read from it, down to its
leaves, is `s`, whether or not the memory holds a well formed tuple. -/
inductive Stands : Dti → Datum → SVal → Prop
  | null (d) : Stands d .null .null
  | prim {k h v x} : v.isNull = false → numOf k h v = some x → Stands (.prim k h) v (.num x)
  | str {b h v a} : v.isNull = false → v.asBytes = some a → Stands (.str b h) v (charSeq a)
  | seq {d v xs} (cs : Nat → Datum) (ts : Nat → Dti) : v.isNull = false → d.isCont = true → (∀ b h, d ≠ .str b h) →
      countOf v d = some xs.length → (∀ h fs, d = .tup h fs → xs.length = fs.length) →
      (∀ i x, xs[i]? = some x → contOf v d i = some (some (cs i, some (ts i))) ∧ d.tyAt i = some (ts i) ∧ TyOk (ts i)) →
      (∀ i x, xs[i]? = some x → Stands (ts i) (cs i) x) → Stands d v (.seq xs)

/-- What is inside of a datum that stands for a sequence. -/
structure Kids (d : Dti) (v : Datum) (xs : List SVal) : Prop where
  count : countOf v d = some xs.length
  kid : ∀ (i : Nat) x, xs[i]? = some x → ∃ c t, contOf v d i = some (some (c, some t)) ∧ d.tyAt i = some t ∧
    TyOk t ∧ Stands t c x
  len : ∀ h fs, d = .tup h fs → xs.length = fs.length

theorem Kids.stands {d : Dti} {v : Datum} {xs : List SVal} (k : Kids d v xs) (hn : v.isNull = false) (hc : d.isCont = true)
    (hs : ∀ b h, d ≠ .str b h) : Stands d v (.seq xs) := by
  have key : ∀ i, ∃ c t, ∀ x, xs[i]? = some x → contOf v d i = some (some (c, some t)) ∧ d.tyAt i = some t ∧ TyOk t ∧ Stands t c x := by
    intro i
    cases hx : xs[i]? with
    | none => exact ⟨.null, u8, fun x h => by cases h⟩
    | some x =>
      obtain ⟨c, t, h⟩ := k.kid i x hx
      exact ⟨c, t, fun y hy => by cases hy; exact h⟩
  have key2 : ∀ i, ∃ t, ∀ x, xs[i]? = some x → contOf v d i = some (some (Classical.choose (key i), some t)) ∧ d.tyAt i = some t ∧
      TyOk t ∧ Stands t (Classical.choose (key i)) x := fun i => Classical.choose_spec (key i)
  refine .seq (fun i => Classical.choose (key i)) (fun i => Classical.choose (key2 i)) hn hc hs k.count k.len ?_ ?_
  · intro i x hx
    have := Classical.choose_spec (key2 i) x hx
    exact ⟨this.1, this.2.1, this.2.2.1⟩
  · intro i x hx
    exact (Classical.choose_spec (key2 i) x hx).2.2.2

theorem kids {d : Dti} {v : Datum} {s : SVal} (_hd : TyOk d) (hc : d.isCont = true) (hn : v.isNull = false)
    (hm : Stands d v s) : ∃ xs, s = .seq xs ∧ Kids d v xs := by
  cases hm with
  | null => cases hn
  | prim => cases hc
  | @str bin h _ b _ h1 =>
    have hco : countOf v (.str bin h) = some b.length := by
      simp only [countOf, isCont, hn, h1]; rfl
    refine ⟨_, rfl, by simpa using hco, ?_, by intro _ _ hh; cases hh⟩
    intro i x hx
    simp only [List.getElem?_map, Option.map_eq_some_iff] at hx
    obtain ⟨c, hx, rfl⟩ := hx
    refine ⟨.uint c.toNat, u8, ?_, rfl, u8_ok, .prim rfl rfl⟩
    have hlt := (List.getElem?_eq_some_iff.mp hx).1
    unfold contOf
    rw [hco]
    simp only [isCont, Bool.not_true, Bool.false_eq_true, if_false, hn, Option.bind_eq_bind, Option.bind_some, h1, hx]
    rw [if_neg (by omega)]
    rfl
  | seq cs ts _ _ _ h1 h2 h3 h4 =>
    exact ⟨_, rfl, h1, fun i x hx => ⟨cs i, ts i, (h3 i x hx).1, (h3 i x hx).2.1, (h3 i x hx).2.2, h4 i x hx⟩, h2⟩

theorem Stands.out {d : Dti} {v : Datum} {s : SVal} (h : Stands d v s) : (v = .null ∧ s = .null) ∨ (v.isNull = false ∧
    match d with
    | .prim k h => ∃ x, numOf k h v = some x ∧ s = .num x
    | .str _ _ => ∃ b, v.asBytes = some b ∧ s = charSeq b
    | _ => ∃ xs, s = .seq xs) := by
  cases h with
  | null => exact .inl ⟨rfl, rfl⟩
  | prim h1 h2 => exact .inr ⟨h1, _, h2, rfl⟩
  | str h1 h2 => exact .inr ⟨h1, _, h2, rfl⟩
  | seq cs ts h1 h2 h3 =>
    refine .inr ⟨h1, ?_⟩
    cases d with
    | prim => cases h2
    | str b h => exact absurd rfl (h3 b h)
    | tup => exact ⟨_, rfl⟩
    | arr => exact ⟨_, rfl⟩

/-- A well formed datum stands for what it means. -/
theorem Means.stands : ∀ {d : Dti}, TyOk d → ∀ {v : Datum} {s : SVal}, Means d v s → Stands d v s := by
  intro d
  have key : ∀ d : Dti, TyOk d → (hc : d.isCont = true) → (∀ b h, d ≠ .str b h) →
      (∀ i t, d.tyAt i = some t → ∀ {v s}, TyOk t → Means t v s → Stands t v s) → ∀ {v s}, Means d v s → Stands d v s := by
    intro d ho hc hs ih v s m
    cases hn : v.isNull with
    | true =>
      rcases m with ⟨rfl, rfl⟩ | ⟨h, _⟩
      · exact .null _
      · rw [hn] at h; cases h
    | false =>
      obtain ⟨xs, rfl, k⟩ := kidsM ho hc hn m
      refine Kids.stands ⟨k.count, ?_, k.len⟩ hn hc hs
      intro i x hx
      obtain ⟨c, t, h1, h2, h3, h4⟩ := k.kid i x hx
      exact ⟨c, t, h1, h2, h3, ih i t h2 h3 h4⟩
  induction d using Dti.ind with
  | hp k h =>
    intro o v s m
    rcases m with ⟨rfl, rfl⟩ | ⟨h0, x, h1, rfl⟩
    · exact .null _
    · exact .prim h0 h1
  | hs b h =>
    intro o v s m
    rcases m with ⟨rfl, rfl⟩ | ⟨h0, x, h1, rfl⟩
    · exact .null _
    · exact .str h0 h1
  | ht h fs ih =>
    intro o v s m
    refine key _ o rfl (by simp) ?_ m
    intro i t ht v s o' m'
    simp only [tyAt, Option.map_eq_some_iff] at ht
    obtain ⟨⟨f, t'⟩, h1, rfl⟩ := ht
    exact ih f t' (List.mem_of_getElem? h1) o' m'
  | ha h c ih =>
    intro o v s m
    refine key _ o rfl (by simp) ?_ m
    intro i t ht v s o' m'
    simp only [tyAt, Option.some.injEq] at ht
    subst ht
    exact ih o' m'

theorem Means.null_iff {d : Dti} {v : Datum} {s : SVal} (h : Means d v s) : v.isNull = true ↔ s = .null := by
  rcases h with ⟨rfl, rfl⟩ | ⟨h1, h2⟩
  · simp [Datum.isNull]
  · rw [h1]
    constructor
    · intro h; cases h
    · rintro rfl
      cases d with
      | prim => obtain ⟨x, _, hh⟩ := h2; cases hh
      | str => obtain ⟨x, _, hh⟩ := h2; cases hh
      | tup => obtain ⟨_, _, _, _, _, _, hh⟩ := h2; simp [sval] at hh
      | arr => obtain ⟨_, _, _, _, _, _, hh⟩ := h2; simp [sval] at hh

theorem Stands.null_iff {d : Dti} {v : Datum} {s : SVal} (h : Stands d v s) : v.isNull = true ↔ s = .null := by
  cases h with
  | null => simp [Datum.isNull]
  | prim h1 => simp [h1]
  | str h1 => simp [h1, charSeq]
  | seq cs ts h1 => simp [h1]

theorem cmpNull_ord {d1 d2 : Dti} {v1 v2 : Datum} {s1 s2 : SVal} {f : Option Int} (h1 : Stands d1 v1 s1)
    (h2 : Stands d2 v2 s2) (hf : v1.isNull = false → v2.isNull = false → f = some (s1.ord s2)) :
    cmpNull v1 v2 f = some (s1.ord s2) := by
  unfold cmpNull
  cases n1 : v1.isNull <;> cases n2 : v2.isNull <;>
    simp only [Bool.and_self, Bool.not_false, Bool.not_true, Bool.and_true, Bool.and_false, Bool.false_eq_true, if_false, if_true]
  · exact hf n1 n2
  · have e2 := h2.null_iff.mp n2
    have e1 : s1 ≠ .null := fun e => by rw [h1.null_iff.mpr e] at n1; cases n1
    subst e2
    cases s1 <;> simp_all [SVal.ord]
  · have e2 := h1.null_iff.mp n1
    have e1 : s2 ≠ .null := fun e => by rw [h2.null_iff.mpr e] at n2; cases n2
    subst e2
    cases s2 <;> simp_all [SVal.ord]
  · rw [h1.null_iff.mp n1, h2.null_iff.mp n2]; simp [SVal.ord]

theorem ords_end {xs ys : List SVal} (h : xs = [] ∨ ys = []) : SVal.ords xs ys = Num.cmpInt xs.length ys.length := by
  rcases h with rfl | rfl
  · cases ys with
    | nil => simp [SVal.ords, Num.cmpInt]
    | cons => simp only [SVal.ords, Num.cmpInt, List.length_nil, List.length_cons]; rw [if_pos (by omega)]
  · cases xs with
    | nil => simp [SVal.ords, Num.cmpInt]
    | cons =>
      simp only [SVal.ords, Num.cmpInt, List.length_nil, List.length_cons]
      rw [if_neg (by omega), if_pos (by omega)]

theorem kid_at {d : Dti} {v : Datum} {xs : List SVal} (k : Kids d v xs) {i : Nat} (hi : i < xs.length) :
    ∃ c t, childOf v d i = some (c, some t) ∧ d.tyAt i = some t ∧ TyOk t ∧ Stands t c (xs[i]) := by
  obtain ⟨c, t, h1, h2, h3, h4⟩ := k.kid i _ (List.getElem?_eq_getElem hi)
  exact ⟨c, t, by simp [childOf, h1], h2, h3, h4⟩

/-- The loops compute the lexicographic order of what they run over, up to the end of the shorter. -/
theorem cmpLoop_ord {f : Dti → Datum → Datum → Option Int} {v1 v2 : Datum} {d1 d2 : Dti} {xs ys : List SVal}
    (k1 : Kids d1 v1 xs) (k2 : Kids d2 v2 ys)
    (hf : ∀ i (h1 : i < xs.length) (h2 : i < ys.length) t1 t2 c1 c2, d1.tyAt i = some t1 → d2.tyAt i = some t2 → TyOk t1 → TyOk t2 →
      Stands t1 c1 xs[i] → Stands t2 c2 ys[i] → cmpNull c1 c2 (f t2 c1 c2) = some (xs[i].ord ys[i])) :
    ∀ k i, i + k = min xs.length ys.length → ∃ r, cmpLoop f v1 d1 v2 d2 k i = some r ∧
      SVal.ords (xs.drop i) (ys.drop i) = (if r = 0 then Num.cmpInt xs.length ys.length else r) := by
  intro k
  induction k with
  | zero =>
    intro i hi
    refine ⟨0, rfl, ?_⟩
    rw [if_pos rfl, ords_end (by simp only [List.drop_eq_nil_iff]; omega)]
    simp only [List.length_drop]
    exact Num.cmpInt_sub (by omega)
  | succ k ih =>
    intro i hi
    have hx : i < xs.length := by omega
    have hy : i < ys.length := by omega
    obtain ⟨c1, t1, a1, a2, a3, a4⟩ := kid_at k1 hx
    obtain ⟨c2, t2, b1, b2, b3, b4⟩ := kid_at k2 hy
    have hq := hf i hx hy t1 t2 c1 c2 a2 b2 a3 b3 a4 b4
    rw [← List.getElem_cons_drop hx, ← List.getElem_cons_drop hy]
    simp only [cmpLoop, a1, b1, Option.bind_eq_bind, Option.bind_some, hq, SVal.ords]
    by_cases h0 : xs[i].ord ys[i] = 0
    · obtain ⟨r, hr, hr2⟩ := ih (i + 1) (by omega)
      rw [if_pos h0, if_neg (by simpa using h0)]
      exact ⟨r, hr, hr2⟩
    · rw [if_neg h0, if_pos (by simpa using h0)]
      exact ⟨_, rfl, by rw [if_neg h0]⟩

theorem seq_end {n1 n2 : Nat} {r : Int} : (if (r = 0 && n1 ≠ n2) = true then (if n1 > n2 then some 1 else some (-1)) else some r) =
    some (if r = 0 then Num.cmpInt n1 n2 else r) := by
  unfold Num.cmpInt
  by_cases h : r = 0
  · subst h
    by_cases h2 : n1 = n2
    · subst h2; simp
    · simp [h2]
      by_cases h3 : n1 < n2
      · rw [if_neg (by omega), if_pos h3]
      · rw [if_pos (by omega), if_neg h3, if_pos (by omega)]
  · simp [h]

theorem cmpSeq_ord {f : Dti → Datum → Datum → Option Int} {v1 v2 : Datum} {d1 d2 : Dti} {xs ys : List SVal}
    (k1 : Kids d1 v1 xs) (k2 : Kids d2 v2 ys)
    (hf : ∀ i (h1 : i < xs.length) (h2 : i < ys.length) t1 t2 c1 c2, d1.tyAt i = some t1 → d2.tyAt i = some t2 → TyOk t1 → TyOk t2 →
      Stands t1 c1 xs[i] → Stands t2 c2 ys[i] → cmpNull c1 c2 (f t2 c1 c2) = some (xs[i].ord ys[i])) :
    cmpSeq f v1 d1 v2 d2 = some (SVal.ords xs ys) := by
  obtain ⟨r, h1, h2⟩ := cmpLoop_ord k1 k2 hf (min xs.length ys.length) 0 (by omega)
  simp only [List.drop_zero] at h2
  rw [h2, ← seq_end]
  simp only [cmpSeq, k1.count, k2.count, Option.bind_eq_bind, Option.bind_some, h1]
  rfl

theorem cont_isCont {d c : Dti} (h : d.cont = some c) : d.isCont = true := by
  cases d <;> simp_all [cont, isCont]

theorem cont_tyAt {d c : Dti} (h : d.cont = some c) (i : Nat) : d.tyAt i = some c := by
  cases d <;> simp_all [cont, tyAt]

theorem compareNum_ord {k1 k2 : PKind} {h1 h2 : Hdr} {v1 v2 : Datum} {s1 s2 : SVal} (o1 : TyOk (.prim k1 h1))
    (o2 : TyOk (.prim k2 h2)) (m1 : Stands (.prim k1 h1) v1 s1) (m2 : Stands (.prim k2 h2) v2 s2) :
    compareNum v1 (.prim k1 h1) v2 (.prim k2 h2) = some (s1.ord s2) := by
  unfold compareNum
  apply cmpNull_ord m1 m2
  intro n1 n2
  rcases m1.out with ⟨rfl, _⟩ | ⟨_, x1, g1, rfl⟩
  · cases n1
  rcases m2.out with ⟨rfl, _⟩ | ⟨_, x2, g2, rfl⟩
  · cases n2
  simp only [cmpPrim_ord o1.fltOk o2.fltOk g1 g2, SVal.ord]

theorem cmpNull_idem {v1 v2 : Datum} {f : Option Int} : cmpNull v1 v2 (cmpNull v1 v2 f) = cmpNull v1 v2 f := by
  unfold cmpNull; split
  · rfl
  · split
    · rfl
    · split <;> rfl

/-- `compare_datum` behind its test computes the order of what the data stand for. -/
theorem cmpI_st : ∀ {d1 d2 : Dti}, TyOk d1 → TyOk d2 → Cmp d1 d2 → ∀ {v1 v2 : Datum} {s1 s2 : SVal},
    Stands d1 v1 s1 → Stands d2 v2 s2 → cmpI d1 d2 v1 v2 = some (s1.ord s2) := by
  intro d1
  induction d1 using Dti.ind with
  | hp k h =>
    intro d2 o1 o2 hc v1 v2 s1 s2 m1 m2
    cases hc with
    | num =>
      simp only [cmpI]
      exact cmpNull_ord m1 m2 (fun _ _ => compareNum_ord o1 o2 m1 m2)
    | seq h1 => cases h1
  | hs b h =>
    intro d2 o1 o2 hc v1 v2 s1 s2 m1 m2
    cases hc with
    | seq e1 e2 hc =>
      cases e1
      simp only [cmpI]
      apply cmpNull_ord m1 m2
      intro n1 n2
      obtain ⟨xs, rfl, k1⟩ := kids o1 rfl n1 m1
      obtain ⟨ys, rfl, k2⟩ := kids o2 (cont_isCont e2) n2 m2
      simp only [SVal.ord]
      apply cmpSeq_ord k1 k2
      intro i hx hy t1 t2 c1 c2 q1 q2 q3 q4 q5 q6
      cases q1
      rw [cont_tyAt e2] at q2
      cases q2
      apply cmpNull_ord q5 q6
      intro _ _
      cases hc with
      | num => exact compareNum_ord q3 q4 q5 q6
      | seq e => cases e
  | ht h fs ih =>
    intro d2 o1 o2 hc v1 v2 s1 s2 m1 m2
    cases hc with
    | seq e1 => cases e1
    | @tup _ h2 _ gs hl hg =>
      simp only [cmpI]
      apply cmpNull_ord m1 m2
      intro n1 n2
      obtain ⟨xs, rfl, k1⟩ := kids o1 rfl n1 m1
      obtain ⟨ys, rfl, k2⟩ := kids o2 rfl n2 m2
      simp only [SVal.ord, k1.count, Option.bind_eq_bind, Option.bind_some]
      have lx := k1.len _ _ rfl
      have ly := k2.len _ _ rfl
      have main : ∀ (r : List (Fld × Dti)) (i : Nat), r = fs.drop i →
          cmpFlds r (.tup h fs) (.tup h2 gs) v1 v2 xs.length i = some (SVal.ords (xs.drop i) (ys.drop i)) := by
        intro r
        induction r with
        | nil =>
          intro i hr
          have hi : fs.length ≤ i := List.drop_eq_nil_iff.mp hr.symm
          simp only [cmpFlds]
          rw [if_neg (by omega), List.drop_eq_nil_iff.mpr (by omega), List.drop_eq_nil_iff.mpr (by omega)]
          simp [SVal.ords]
        | cons p r ihr =>
          intro i hr
          have hi : i < fs.length := by
            apply Classical.byContradiction
            intro hn
            rw [List.drop_eq_nil_iff.mpr (by omega)] at hr
            cases hr
          rw [← List.getElem_cons_drop hi] at hr
          injection hr with hp hr
          obtain ⟨f, t⟩ := p
          have hx : i < xs.length := by omega
          have hy : i < ys.length := by omega
          obtain ⟨c1, t1, a1, a2, a3, a4⟩ := kid_at k1 hx
          obtain ⟨c2, t2, b1, b2, b3, b4⟩ := kid_at k2 hy
          have hf : fs[i]? = some (f, t) := by rw [List.getElem?_eq_getElem hi, ← hp]
          simp only [tyAt, hf, Option.map_some, Option.some.injEq] at a2
          subst a2
          have hgi : i < gs.length := by omega
          have hgg := List.getElem?_eq_getElem hgi
          simp only [tyAt, hgg, Option.map_some, Option.some.injEq] at b2
          subst b2
          have hq := ih f t (List.mem_of_getElem? hf) a3 b3 (hg i f t _ _ hf hgg) a4 b4
          rw [← List.getElem_cons_drop hx, ← List.getElem_cons_drop hy]
          simp only [cmpFlds, if_pos hx, a1, b1, Option.bind_eq_bind, Option.bind_some,
            cmpNull_ord a4 b4 (fun _ _ => hq), SVal.ords]
          by_cases h0 : xs[i].ord ys[i] = 0
          · rw [if_pos h0, if_neg (by simpa using h0)]
            exact ihr (i + 1) hr
          · rw [if_neg h0, if_pos (by simpa using h0)]
            rfl
      exact main fs 0 (by simp)
  | ha h c ih =>
    intro d2 o1 o2 hc v1 v2 s1 s2 m1 m2
    cases hc with
    | seq e1 e2 hc =>
      cases e1
      simp only [cmpI]
      apply cmpNull_ord m1 m2
      intro n1 n2
      obtain ⟨xs, rfl, k1⟩ := kids o1 rfl n1 m1
      obtain ⟨ys, rfl, k2⟩ := kids o2 (cont_isCont e2) n2 m2
      simp only [SVal.ord]
      apply cmpSeq_ord k1 k2
      intro i hx hy t1 t2 c1 c2 q1 q2 q3 q4 q5 q6
      cases q1
      rw [cont_tyAt e2] at q2
      cases q2
      apply cmpNull_ord q5 q6
      intro _ _
      exact ih q3 q4 hc q5 q6

theorem cmpChars_ord {a b : Bytes} : ∀ k i, i + k = min a.length b.length → ∃ r, cmpChars a b k i = some r ∧
    SVal.ords ((a.map (fun c => SVal.num (.ofInt c.toNat))).drop i) ((b.map (fun c => SVal.num (.ofInt c.toNat))).drop i) =
      (if r = 0 then Num.cmpInt a.length b.length else r) := by
  intro k
  induction k with
  | zero =>
    intro i hi
    refine ⟨0, rfl, ?_⟩
    rw [if_pos rfl, ords_end (by simp only [List.drop_eq_nil_iff, List.length_map]; omega)]
    simp only [List.length_drop, List.length_map]
    exact Num.cmpInt_sub (by omega)
  | succ k ih =>
    intro i hi
    have hx : i < a.length := by omega
    have hy : i < b.length := by omega
    have e1 : (a.map (fun c => SVal.num (.ofInt c.toNat))).drop i =
        .num (.ofInt a[i].toNat) :: (a.map (fun c => SVal.num (.ofInt c.toNat))).drop (i + 1) := by
      rw [← List.getElem_cons_drop (by simpa using hx)]; simp
    have e2 : (b.map (fun c => SVal.num (.ofInt c.toNat))).drop i =
        .num (.ofInt b[i].toNat) :: (b.map (fun c => SVal.num (.ofInt c.toNat))).drop (i + 1) := by
      rw [← List.getElem_cons_drop (by simpa using hy)]; simp
    rw [e1, e2]
    simp only [cmpChars, List.getElem?_eq_getElem hx, List.getElem?_eq_getElem hy, Option.bind_eq_bind, Option.bind_some,
      SVal.ords, SVal.ord, ← Num.cmpInt_ord]
    by_cases h0 : Num.cmpInt a[i].toNat b[i].toNat = 0
    · obtain ⟨r, hr, hr2⟩ := ih (i + 1) (by omega)
      rw [if_pos h0, if_neg (by simpa using h0)]
      exact ⟨r, hr, hr2⟩
    · rw [if_neg h0, if_pos (by simpa using h0)]
      exact ⟨_, rfl, by rw [if_neg h0]⟩

theorem cmpLoop2_eq {f : Datum → Datum → Option Int} {v1 v2 : Datum} {d : Dti} {xs ys : List SVal}
    (k1 : Kids d v1 xs) (k2 : Kids d v2 ys)
    (hf : ∀ i (h1 : i < xs.length) (h2 : i < ys.length) t c1 c2, d.tyAt i = some t → TyOk t →
      Stands t c1 xs[i] → Stands t c2 ys[i] → f c1 c2 = some (xs[i].ord ys[i])) :
    ∀ k i, i + k = min xs.length ys.length → ∃ r, cmpLoop2 f v1 v2 d k i = some r ∧
      SVal.ords (xs.drop i) (ys.drop i) = (if r = 0 then Num.cmpInt xs.length ys.length else r) := by
  intro k
  induction k with
  | zero =>
    intro i hi
    refine ⟨0, rfl, ?_⟩
    rw [if_pos rfl, ords_end (by simp only [List.drop_eq_nil_iff]; omega)]
    simp only [List.length_drop]
    exact Num.cmpInt_sub (by omega)
  | succ k ih =>
    intro i hi
    have hx : i < xs.length := by omega
    have hy : i < ys.length := by omega
    obtain ⟨c1, t1, a1, a2, a3, a4⟩ := kid_at k1 hx
    obtain ⟨c2, t2, b1, b2, b3, b4⟩ := kid_at k2 hy
    rw [a2] at b2; cases b2
    have hq := hf i hx hy t1 c1 c2 a2 a3 a4 b4
    rw [← List.getElem_cons_drop hx, ← List.getElem_cons_drop hy]
    simp only [cmpLoop2, a1, b1, Option.bind_eq_bind, Option.bind_some, hq, SVal.ords]
    by_cases h0 : xs[i].ord ys[i] = 0
    · obtain ⟨r, hr, hr2⟩ := ih (i + 1) (by omega)
      rw [if_pos h0, if_neg (by simpa using h0)]
      exact ⟨r, hr, hr2⟩
    · rw [if_neg h0, if_pos (by simpa using h0)]
      exact ⟨_, rfl, by rw [if_neg h0]⟩

/-- `compare_datum2` computes the order of what the data stand for. -/
theorem cmpI2_st : ∀ {d : Dti}, TyOk d → ∀ {v1 v2 : Datum} {s1 s2 : SVal},
    Stands d v1 s1 → Stands d v2 s2 → cmpI2 d v1 v2 = some (s1.ord s2) := by
  intro d
  induction d using Dti.ind with
  | hp k h =>
    intro o v1 v2 s1 s2 m1 m2
    simp only [cmpI2]
    apply cmpNull_ord m1 m2
    intro n1 n2
    rcases m1.out with ⟨rfl, _⟩ | ⟨_, x1, g1, rfl⟩
    · cases n1
    rcases m2.out with ⟨rfl, _⟩ | ⟨_, x2, g2, rfl⟩
    · cases n2
    rw [compareNum2_ord o.fltOk n1 n2 g1 g2]; simp [SVal.ord]
  | hs b h =>
    intro o v1 v2 s1 s2 m1 m2
    simp only [cmpI2]
    apply cmpNull_ord m1 m2
    intro n1 n2
    rcases m1.out with ⟨rfl, _⟩ | ⟨_, a, e1, rfl⟩
    · cases n1
    rcases m2.out with ⟨rfl, _⟩ | ⟨_, a', e2, rfl⟩
    · cases n2
    have c1 : countOf v1 (.str b h) = some a.length := by simp only [countOf, isCont, n1, e1]; rfl
    have c2 : countOf v2 (.str b h) = some a'.length := by simp only [countOf, isCont, n2, e2]; rfl
    obtain ⟨r, h1, h2⟩ := cmpChars_ord (a := a) (b := a') (min a.length a'.length) 0 (by omega)
    simp only [List.drop_zero] at h2
    simp only [charSeq, SVal.ord]
    rw [h2, ← seq_end]
    simp only [c1, c2, e1, e2, Option.bind_eq_bind, Option.bind_some, h1]
    rfl
  | ht h fs ih =>
    intro o v1 v2 s1 s2 m1 m2
    simp only [cmpI2]
    apply cmpNull_ord m1 m2
    intro n1 n2
    obtain ⟨xs, rfl, k1⟩ := kids o rfl n1 m1
    obtain ⟨ys, rfl, k2⟩ := kids o rfl n2 m2
    simp only [SVal.ord, k1.count, Option.bind_eq_bind, Option.bind_some]
    have lx := k1.len _ _ rfl
    have ly := k2.len _ _ rfl
    have main : ∀ (r : List (Fld × Dti)) (i : Nat), r = fs.drop i →
        cmpFlds2 r (.tup h fs) v1 v2 xs.length i = some (SVal.ords (xs.drop i) (ys.drop i)) := by
      intro r
      induction r with
      | nil =>
        intro i hr
        have hi : fs.length ≤ i := List.drop_eq_nil_iff.mp hr.symm
        simp only [cmpFlds2]
        rw [if_neg (by omega), List.drop_eq_nil_iff.mpr (by omega), List.drop_eq_nil_iff.mpr (by omega)]
        simp [SVal.ords]
      | cons p r ihr =>
        intro i hr
        have hi : i < fs.length := by
          apply Classical.byContradiction
          intro hn
          rw [List.drop_eq_nil_iff.mpr (by omega)] at hr
          cases hr
        rw [← List.getElem_cons_drop hi] at hr
        injection hr with hp hr
        obtain ⟨f, t⟩ := p
        have hx : i < xs.length := by omega
        have hy : i < ys.length := by omega
        obtain ⟨c1, t1, a1, a2, a3, a4⟩ := kid_at k1 hx
        obtain ⟨c2, t2, b1, b2, b3, b4⟩ := kid_at k2 hy
        rw [a2] at b2; cases b2
        have hf : fs[i]? = some (f, t) := by rw [List.getElem?_eq_getElem hi, ← hp]
        simp only [tyAt, hf, Option.map_some, Option.some.injEq] at a2
        subst a2
        have hq := ih f t (List.mem_of_getElem? hf) a3 a4 b4
        rw [← List.getElem_cons_drop hx, ← List.getElem_cons_drop hy]
        simp only [cmpFlds2, if_pos hx, a1, b1, Option.bind_eq_bind, Option.bind_some, hq, SVal.ords]
        by_cases h0 : xs[i].ord ys[i] = 0
        · rw [if_pos h0, if_neg (by simpa using h0)]
          exact ihr (i + 1) hr
        · rw [if_neg h0, if_pos (by simpa using h0)]
          rfl
    exact main fs 0 (by simp)
  | ha h c ih =>
    intro o v1 v2 s1 s2 m1 m2
    simp only [cmpI2]
    apply cmpNull_ord m1 m2
    intro n1 n2
    obtain ⟨xs, rfl, k1⟩ := kids o rfl n1 m1
    obtain ⟨ys, rfl, k2⟩ := kids o rfl n2 m2
    simp only [SVal.ord]
    have hf : ∀ i (h1 : i < xs.length) (h2 : i < ys.length) t c1 c2, (Dti.arr h c).tyAt i = some t → TyOk t →
        Stands t c1 xs[i] → Stands t c2 ys[i] → cmpI2 c c1 c2 = some (xs[i].ord ys[i]) := by
      intro i hx hy t c1 c2 q1 q3 q5 q6
      cases q1
      exact ih q3 q5 q6
    obtain ⟨r, h1, h2⟩ := cmpLoop2_eq k1 k2 hf (min xs.length ys.length) 0 (by omega)
    simp only [List.drop_zero] at h2
    rw [h2, ← seq_end]
    simp only [k1.count, k2.count, Option.bind_eq_bind, Option.bind_some, h1]
    rfl

theorem cmpI_ord {d1 d2 : Dti} (o1 : TyOk d1) (o2 : TyOk d2) (hc : Cmp d1 d2) {v1 v2 : Datum} {s1 s2 : SVal}
    (m1 : Means d1 v1 s1) (m2 : Means d2 v2 s2) : cmpI d1 d2 v1 v2 = some (s1.ord s2) :=
  cmpI_st o1 o2 hc (m1.stands o1) (m2.stands o2)

theorem cmpI2_ord {d : Dti} (o : TyOk d) {v1 v2 : Datum} {s1 s2 : SVal} (m1 : Means d v1 s1) (m2 : Means d v2 s2) :
    cmpI2 d v1 v2 = some (s1.ord s2) := cmpI2_st o (m1.stands o) (m2.stands o)

end Dti
end TS
