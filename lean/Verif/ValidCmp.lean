import Verif.ValidRead
import Verif.PropsHash
import Verif.PrintProof
/-
What is read from memory of unknown origin that passes the weaker check (`safe`, ValidRead.lean)
stands for a value, so that it can be compared, hashed and printed.
-/
namespace TS
namespace Dti

/-- A datum as it is read from safe memory. -/
def SafeD (d : Dti) (v : Datum) : Prop :=
  v = .null ∨ (v.isNull = false ∧
    match d with
    | .prim k h => ∃ x, numOf k h v = some x
    | .str _ _ => ∃ a, v.asBytes = some a
    | d => ∃ m, v = .ptr m ∧ safe d m = true)

/-- The datum at the start of safe memory. -/
theorem safe_read {d : Dti} {m : Bytes} (h : TyOk d) (hb : d.isBit = false) (hs : safe d m = true) :
    ∃ v, d.getDatum m = some (some v) ∧ SafeD d v := by
  cases d with
  | prim k hh =>
    have hl : hh.size ≤ m.length := by
      simp only [safe, Bool.or_eq_true, decide_eq_true_eq] at hs
      rcases hs with rfl | hs
      · cases hb
      · exact hs
    have hld : load m 0 hh.size = some (rd m 0 hh.size) := load_eq (by omega)
    have hlen : (rd m 0 hh.size).length = hh.size := by simp [rd]; omega
    cases k with
    | bitField => cases hb
    | uint => exact ⟨_, by simp only [getDatum, hld]; rfl, .inr ⟨rfl, _, rfl⟩⟩
    | largeUint => exact ⟨_, by simp only [getDatum, hld]; rfl, .inr ⟨rfl, _, rfl⟩⟩
    | int => exact ⟨_, by simp only [getDatum, hld]; rfl, .inr ⟨rfl, _, rfl⟩⟩
    | largeInt => exact ⟨_, by simp only [getDatum, hld]; rfl, .inr ⟨rfl, _, rfl⟩⟩
    | float =>
      refine ⟨_, by simp only [getDatum, hld]; rfl, .inr ⟨rfl, Num.ofBits (rd m 0 hh.size), ?_⟩⟩
      simp [numOf, Datum.asFlt, hlen]
  | tup => exact ⟨_, rfl, .inr ⟨rfl, m, rfl, hs⟩⟩
  | arr => exact ⟨_, rfl, .inr ⟨rfl, m, rfl, hs⟩⟩
  | str s hh =>
    have r := (safe_cont h rfl m).mp hs
    have hcnt := reach_count rfl r
    have hf := r.fix
    generalize annCount (.str s hh) m = n at hcnt hf
    simp only [fixedEnd] at hf
    cases s
    · exact ⟨.bytes (strn (rd m (offBitmap (.str false hh)) n)), by simp [getDatum, hcnt, load, hf, rd], .inr ⟨rfl, _, rfl⟩⟩
    · exact ⟨.bytes (rd m (offBitmap (.str true hh)) n), by simp [getDatum, hcnt, load, hf, rd], .inr ⟨rfl, _, rfl⟩⟩

theorem tyAt_posOf {d : Dti} {n i : Nat} (h : TyOk d) (hc : d.isCont = true) (hcn : CountOk d n) (hi : i < n) :
    d.tyAt i = some (posOf d n i).ty := by
  have hty := tyAtNoData_pos h hc hcn hi
  unfold tyAtNoData at hty
  rw [hc] at hty
  simp only [Bool.not_true, Bool.false_eq_true, if_false] at hty
  split at hty
  · cases hty
  · exact hty

/-- The element of a safe container at an index within its count. -/
theorem safe_elem {d : Dti} {m : Bytes} {n i : Nat} (h : TyOk d) (hc : d.isCont = true) (r : Reach d m n) (hi : i < n) :
    ∃ c, d.getCont m i = some (some c) ∧ SafeD (posOf d n i).ty c := by
  have hcn : CountOk d n := r.cnt ▸ annCount_ok d m
  unfold getCont
  rw [hc]
  simp only [Bool.not_true, Bool.false_eq_true, if_false, reach_count hc r, Option.bind_eq_bind, Option.bind_some]
  rw [if_neg (by omega)]
  unfold getContUnsafe getAt
  simp only [reach_pos h hc r hi, Option.bind_eq_bind, Option.bind_some]
  have hok := posOf_ok h hc hcn hi
  rcases reach_ptr h hc r hi with h1 | ⟨h1, h2, h3⟩ | ⟨h1, o, h2, h3⟩
  · exact ⟨.null, by simp [h1], .inl rfl⟩
  · obtain ⟨x, hx⟩ := Option.isSome_iff_exists.mp h3
    refine ⟨.uint x, by simp [h2, h1, hx], .inr ⟨rfl, ?_⟩⟩
    cases ht : (posOf d n i).ty with
    | prim k hh => rw [ht] at h1; cases k <;> simp [isBit] at h1; exact ⟨_, rfl⟩
    | _ => rw [ht] at h1; simp [isBit] at h1
  · simp only [h2, Option.bind_some, h1, Bool.false_eq_true, if_false]
    exact safe_read hok h1 h3

/-- The elements of a safe container as `get_containee_from_datum` gives them. -/
theorem safe_kids {d : Dti} {m : Bytes} (h : TyOk d) (hc : d.isCont = true) (hs : ∀ b hh, d ≠ .str b hh) (hm : safe d m = true) :
    ∃ n, countOf (.ptr m) d = some n ∧ CountOk d n ∧ ∀ i, i < n → ∃ c t, contOf (.ptr m) d i = some (some (c, some t)) ∧
      d.tyAt i = some t ∧ TyOk t ∧ SafeD t c := by
  have r := (safe_cont h hc m).mp hm
  have hcn := annCount_ok d m
  generalize annCount d m = n at r hcn
  have hco : countOf (.ptr m) d = some n := by
    unfold countOf
    rw [hc]
    simp only [Bool.not_true, Bool.false_eq_true, if_false, Datum.isNull]
    cases d with
    | prim => cases hc
    | str b hh => exact absurd rfl (hs b hh)
    | tup => exact reach_count hc r
    | arr => exact reach_count hc r
  refine ⟨n, hco, hcn, ?_⟩
  intro i hi
  obtain ⟨c, h1, h2⟩ := safe_elem h hc r hi
  refine ⟨c, _, ?_, tyAt_posOf h hc hcn hi, posOf_ok h hc hcn hi, h2⟩
  unfold contOf
  rw [hc, hco]
  simp only [Bool.not_true, Bool.false_eq_true, if_false, Datum.isNull, Option.bind_eq_bind, Option.bind_some]
  rw [if_neg (by omega)]
  cases d with
  | prim => cases hc
  | str b hh => exact absurd rfl (hs b hh)
  | tup => simp only [h1, Option.bind_some, reach_pos h hc r hi]; rfl
  | arr => simp only [h1, Option.bind_some, reach_pos h hc r hi]; rfl

theorem fin_choice {α : Type} (P : Nat → α → Prop) : ∀ n, (∀ i, i < n → ∃ x, P i x) →
    ∃ xs : List α, xs.length = n ∧ ∀ i x, xs[i]? = some x → P i x := by
  intro n
  induction n with
  | zero => intro _; exact ⟨[], rfl, fun i x h => by simp at h⟩
  | succ n ih =>
    intro h
    obtain ⟨xs, h1, h2⟩ := ih (fun i hi => h i (by omega))
    obtain ⟨x, hx⟩ := h n (by omega)
    refine ⟨xs ++ [x], by simp [h1], ?_⟩
    intro i y hy
    by_cases hi : i < xs.length
    · rw [List.getElem?_append_left hi] at hy; exact h2 i y hy
    · rw [List.getElem?_append_right (by omega)] at hy
      have : i = n := by
        have := (List.getElem?_eq_some_iff.mp hy).1
        simp at this; omega
      subst this
      rw [h1] at hy
      simp at hy
      exact hy ▸ hx

/-- What is read from safe memory stands for a value. -/
theorem SafeD.stands : ∀ {d : Dti}, TyOk d → ∀ {v : Datum}, SafeD d v → ∃ s, Stands d v s := by
  intro d
  have key : ∀ d : Dti, TyOk d → d.isCont = true → (∀ b h, d ≠ .str b h) →
      (∀ i t, d.tyAt i = some t → ∀ {v}, TyOk t → SafeD t v → ∃ s, Stands t v s) →
      ∀ m, safe d m = true → ∃ s, Stands d (.ptr m) s := by
    intro d ho hc hs ih m hm
    obtain ⟨n, h1, h0, h2⟩ := safe_kids ho hc hs hm
    obtain ⟨xs, hl, hx⟩ := fin_choice (fun i x => ∃ c t, contOf (.ptr m) d i = some (some (c, some t)) ∧ d.tyAt i = some t ∧
      TyOk t ∧ Stands t c x) n (by
        intro i hi
        obtain ⟨c, t, a1, a2, a3, a4⟩ := h2 i hi
        obtain ⟨s, a5⟩ := ih i t a2 a3 a4
        exact ⟨s, c, t, a1, a2, a3, a5⟩)
    refine ⟨.seq xs, Kids.stands ⟨by rw [hl]; exact h1, hx, ?_⟩ rfl hc hs⟩
    intro hh fs e
    subst e
    rw [hl, h0 rfl]
    cases ho with | tup _ _ _ _ _ a => exact a.symm
  induction d using Dti.ind with
  | hp k h =>
    intro o v m
    rcases m with rfl | ⟨h0, x, h1⟩
    · exact ⟨_, .null _⟩
    · exact ⟨_, .prim h0 h1⟩
  | hs b h =>
    intro o v m
    rcases m with rfl | ⟨h0, x, h1⟩
    · exact ⟨_, .null _⟩
    · exact ⟨_, .str h0 h1⟩
  | ht h fs ih =>
    intro o v m
    rcases m with rfl | ⟨h0, m, rfl, h1⟩
    · exact ⟨_, .null _⟩
    refine key _ o rfl (by simp) ?_ m h1
    intro i t ht v o' m'
    simp only [tyAt, Option.map_eq_some_iff] at ht
    obtain ⟨⟨f, t'⟩, h1, rfl⟩ := ht
    exact ih f t' (List.mem_of_getElem? h1) o' m'
  | ha h c ih =>
    intro o v m
    rcases m with rfl | ⟨h0, m, rfl, h1⟩
    · exact ⟨_, .null _⟩
    refine key _ o rfl (by simp) ?_ m h1
    intro i t ht v o' m'
    simp only [tyAt, Option.some.injEq] at ht
    subst ht
    exact ih o' m'

/-- What is read at a position of safe memory stands for a value of the type of that position, and
is NULL if the position has no type. -/
theorem safe_at (pa : List Nat) : ∀ {d : Dti} {m : Bytes}, TyOk d → safe d m = true →
    ∃ v, d.elemOrNull m pa = some v ∧ (∀ t, d.typeAt pa = some t → TyOk t ∧ SafeD t v) ∧ (d.typeAt pa = none → v = .null) := by
  induction pa with
  | nil =>
    intro d m h hs
    cases hb : d.isBit with
    | true =>
      refine ⟨.null, ?_, ?_, fun _ => rfl⟩
      · cases d with
        | prim k hh => cases k <;> first | (simp [isBit] at hb; done) | rfl
        | _ => simp [isBit] at hb
      · intro t ht
        simp only [typeAt, Option.some.injEq] at ht
        exact ⟨ht ▸ h, .inl rfl⟩
    | false =>
      obtain ⟨v, h1, h2⟩ := safe_read h hb hs
      refine ⟨v, by simp [elemOrNull, Dti.getElem, h1], ?_, fun ht => by simp [typeAt] at ht⟩
      intro t ht
      simp only [typeAt, Option.some.injEq] at ht
      exact ht ▸ ⟨h, h2⟩
  | cons i pa ih =>
    intro d m h hs
    have hnull : d.elemOrNull m (i :: pa) = some .null → ∃ v, d.elemOrNull m (i :: pa) = some v ∧
        (∀ t, d.typeAt (i :: pa) = some t → TyOk t ∧ SafeD t v) ∧ (d.typeAt (i :: pa) = none → v = .null) :=
      fun hn => ⟨.null, hn, fun t ht => ⟨(typeAt_ok _ h ht).1, .inl rfl⟩, fun _ => rfl⟩
    cases hc : d.isCont with
    | false =>
      apply hnull
      cases pa <;> simp [elemOrNull, Dti.getElem, getCont, hc]
    | true =>
      have r := (safe_cont h hc m).mp hs
      have hcn := annCount_ok d m
      generalize annCount d m = n at r hcn
      have hcnt := reach_count hc r
      by_cases hi : i < n
      · have hty := tyAtNoData_pos h hc hcn hi
        have hok1 := posOf_ok h hc hcn hi
        have hta : d.typeAt (i :: pa) = (posOf d n i).ty.typeAt pa := by
          simp only [typeAt, hty, Option.bind_eq_bind, Option.bind_some]
        cases pa with
        | nil =>
          obtain ⟨c, h1, h2⟩ := safe_elem h hc r hi
          refine ⟨c, by simp [elemOrNull, Dti.getElem, h1], ?_, ?_⟩ <;> rw [hta]
          · intro t ht
            simp only [typeAt, Option.some.injEq] at ht
            exact ht ▸ ⟨hok1, h2⟩
          · intro ht; simp [typeAt] at ht
        | cons j pa =>
          have hun : ∀ x, d.ptrAt m (posOf d n i) = some x → d.getElem m (i :: j :: pa) =
              (match x with | none => some (some .null) | some o => (posOf d n i).ty.getElem (m.drop o) (j :: pa)) := by
            intro x hx
            conv => lhs; unfold Dti.getElem
            simp only [hc, Bool.not_true, Bool.false_eq_true, if_false, hcnt, Option.bind_eq_bind, Option.bind_some]
            rw [if_neg (by omega)]
            simp only [reach_pos h hc r hi, hx, Option.bind_some]
            cases x <;> rfl
          rcases reach_ptr h hc r hi with h1 | ⟨h1, h2, _⟩ | ⟨h1, o, h2, h3⟩
          · apply hnull
            simp [elemOrNull, hun _ h1]
          · apply hnull
            have : (posOf d n i).ty.isCont = false := by
              cases hx : (posOf d n i).ty.isCont with
              | false => rfl
              | true => rw [isCont_not_bit hx] at h1; cases h1
            simp only [elemOrNull, hun _ h2]
            cases pa <;> simp [Dti.getElem, getCont, this]
          · obtain ⟨v, g1, g2, g3⟩ := ih hok1 h3
            refine ⟨v, ?_, ?_, ?_⟩
            · rw [← g1]; simp only [elemOrNull, hun _ h2]
            · rw [hta]; exact g2
            · rw [hta]; exact g3
      · apply hnull
        cases pa with
        | nil =>
          simp only [elemOrNull, Dti.getElem, getCont, hc, Bool.not_true, Bool.false_eq_true, if_false, hcnt, Option.bind_eq_bind, Option.bind_some]
          rw [if_pos (by omega)]; rfl
        | cons j pa =>
          simp only [elemOrNull, Dti.getElem, hc, Bool.not_true, Bool.false_eq_true, if_false, hcnt, Option.bind_eq_bind, Option.bind_some]
          rw [if_pos (by omega)]; rfl

/-- What stands at a position: a value of the type of the position, NULL if it has none. -/
def Seen (d : Dti) (m : Bytes) (pa : List Nat) (s : SVal) : Prop :=
  ∃ v, d.elemOrNull m pa = some v ∧ (∀ t, d.typeAt pa = some t → TyOk t ∧ Stands t v s) ∧
    (d.typeAt pa = none → v = .null ∧ s = .null)

theorem safe_seen {d : Dti} {m : Bytes} (h : TyOk d) (hs : safe d m = true) (pa : List Nat) : ∃ s, Seen d m pa s := by
  obtain ⟨v, h1, h2, h3⟩ := safe_at pa h hs
  cases ht : d.typeAt pa with
  | none => exact ⟨.null, v, h1, fun t e => (by rw [ht] at e; cases e), fun e => ⟨h3 e, rfl⟩⟩
  | some t =>
    obtain ⟨s, h4⟩ := (h2 t ht).2.stands (h2 t ht).1
    refine ⟨s, v, h1, fun t' e => ?_, fun e => by rw [ht] at e; cases e⟩
    rw [ht] at e; cases e
    exact ⟨(h2 t ht).1, h4⟩

/-- A datum stands for one value only. -/
theorem Stands.unique {d : Dti} (h : TyOk d) {v : Datum} {s s' : SVal} (h1 : Stands d v s) (h2 : Stands d v s') : s = s' := by
  have a := cmpI2_st h h1 h1
  have b := cmpI2_st h h1 h2
  rw [a] at b
  rw [SVal.ord_self] at b
  exact SVal.ord_eq_zero _ _ (Option.some.inj b).symm

theorem Seen.unique {d : Dti} {m : Bytes} {pa : List Nat} {s s' : SVal} (h1 : Seen d m pa s) (h2 : Seen d m pa s') : s = s' := by
  obtain ⟨v, a1, a2, a3⟩ := h1
  obtain ⟨v', b1, b2, b3⟩ := h2
  rw [a1] at b1; cases b1
  cases ht : d.typeAt pa with
  | none => rw [(a3 ht).2, (b3 ht).2]
  | some t => exact (a2 t ht).2.unique (a2 t ht).1 (b2 t ht).2

/-! ### hashing -/

/-- The bytes by which a datum is hashed. -/
def Fed (d : Dti) (v : Datum) (bs : Bytes) : Prop :=
  ∀ (σ : Type) (upd : σ → UInt8 → σ) (h : σ), hashDatum upd h d v = some (hashBytes upd h bs)

theorem fed_null (d : Dti) : Fed d .null [] := by
  intro σ upd h; rw [hash_null]; rfl

theorem fed_num {k : PKind} {hd : Hdr} {v : Datum} {x : Num} (ho : TyOk (.prim k hd)) (hn : v.isNull = false)
    (hx : numOf k hd v = some x) : ∃ bs, Fed (.prim k hd) v bs := by
  have hv : hd.isVar = false := by cases ho; assumption
  have hl : ∀ z, (intEnc hd.size z).length = hd.size := by intro z; unfold intEnc; exact leEnc_length _ _
  have hst : ∀ {m b : Bytes}, b.length = hd.size → hd.size ≤ m.length → store m 0 b = some (wr m 0 b) := by
    intro m b h1 h2; exact store_eq (by omega)
  cases k with
  | bitField =>
    simp only [numOf, Option.map_eq_some_iff] at hx
    obtain ⟨a, h1, _⟩ := hx
    exact ⟨_, fun σ upd h => by simp [hashDatum, hn, h1]; rfl⟩
  | float =>
    simp only [numOf, Option.map_eq_some_iff] at hx
    obtain ⟨b, h1, _⟩ := hx
    have hb : b.length = hd.size := by
      unfold Datum.asFlt at h1
      split at h1
      · split at h1
        · cases h1; assumption
        · cases h1
      · cases h1; simp
      · cases h1
    refine ⟨b, fun σ upd h => hashNum (by simp) ho hb hn (fun m hm => ?_) h⟩
    simp [setDatum, hn, isBit, isVar, hdr, hv, h1, hst hb hm]
  | uint =>
    simp only [numOf, Option.map_eq_some_iff] at hx
    obtain ⟨a, h1, _⟩ := hx
    refine ⟨leEnc hd.size a, fun σ upd h => hashNum (by simp) ho (leEnc_length _ _) hn (fun m hm => ?_) h⟩
    simp [setDatum, hn, isBit, isVar, hdr, hv, h1, hst (leEnc_length _ _) hm]
  | largeUint =>
    simp only [numOf, Option.map_eq_some_iff] at hx
    obtain ⟨a, h1, _⟩ := hx
    refine ⟨leEnc hd.size a, fun σ upd h => hashNum (by simp) ho (leEnc_length _ _) hn (fun m hm => ?_) h⟩
    simp [setDatum, hn, isBit, isVar, hdr, hv, h1, hst (leEnc_length _ _) hm]
  | int =>
    simp only [numOf, Option.map_eq_some_iff] at hx
    obtain ⟨a, h1, _⟩ := hx
    refine ⟨intEnc hd.size a, fun σ upd h => hashNum (by simp) ho (hl _) hn (fun m hm => ?_) h⟩
    simp [setDatum, hn, isBit, isVar, hdr, hv, h1, hst (hl _) hm]
  | largeInt =>
    simp only [numOf, Option.map_eq_some_iff] at hx
    obtain ⟨a, h1, _⟩ := hx
    refine ⟨intEnc hd.size a, fun σ upd h => hashNum (by simp) ho (hl _) hn (fun m hm => ?_) h⟩
    simp [setDatum, hn, isBit, isVar, hdr, hv, h1, hst (hl _) hm]

/-- The numeral at the start of safe memory is hashed by its bytes. -/
theorem fed_read {k : PKind} {hd : Hdr} {m : Bytes} {v : Datum} (ho : TyOk (.prim k hd)) (hk : k ≠ .bitField) (hl : hd.size ≤ m.length)
    (hg : (Dti.prim k hd).getDatum m = some (some v)) : Fed (.prim k hd) v (rd m 0 hd.size) := by
  have hv : hd.isVar = false := by cases ho; assumption
  have hld : load m 0 hd.size = some (rd m 0 hd.size) := load_eq (by omega)
  have hlen : (rd m 0 hd.size).length = hd.size := by simp [rd]; omega
  have hst : ∀ {x : Bytes}, hd.size ≤ x.length → store x 0 (rd m 0 hd.size) = some (wr x 0 (rd m 0 hd.size)) := by
    intro x h2; exact store_eq (by omega)
  have e1 : leEnc hd.size (leDec (rd m 0 hd.size)) = rd m 0 hd.size := by
    have := leEnc_leDec (rd m 0 hd.size); rwa [hlen] at this
  have e2 : intEnc hd.size (intDec (rd m 0 hd.size)) = rd m 0 hd.size := by
    have := intEnc_intDec (rd m 0 hd.size); rwa [hlen] at this
  intro σ upd h
  generalize rd m 0 hd.size = b at *
  cases k <;> first | exact absurd rfl hk | skip
  all_goals
    simp only [getDatum, hld, Option.bind_eq_bind, Option.bind_some, Option.pure_def, Option.some.injEq] at hg
    subst hg
    refine hashNum hk ho hlen rfl (fun x hx => ?_) h
    simp only [setDatum, Datum.isNull, isBit, isVar, hdr, hv, Bool.not_false, if_true, Bool.false_eq_true, if_false,
      Datum.asUint, Datum.asInt, Datum.asFlt, hlen, e1, e2, Option.bind_eq_bind, Option.bind_some, hst hx]
    rfl

theorem isNullAt_ptr {d : Dti} {m : Bytes} {p : PosInfo} (h : TyOk p.ty) {x : Option Nat} (hx : d.ptrAt m p = some x) :
    d.isNullAt m p = some x.isNone := by
  unfold isNullAt isNullable
  unfold ptrAt needsValid at hx
  cases hv : p.ty.isVar with
  | true =>
    have hb := isVar_not_bit h hv
    simp only [hv, Bool.not_true, Bool.false_and, Bool.false_eq_true, if_false, hb, Option.bind_eq_bind, Option.bind_some] at hx
    obtain ⟨o, h1, h2⟩ := Option.bind_eq_some_iff.mp hx
    simp only [Bool.true_or, Bool.not_true, Bool.false_eq_true, if_false, h1, Option.bind_eq_bind, Option.bind_some]
    cases h2
    by_cases ho : o = 0 <;> simp [ho]
  | false =>
    simp only [hv, Bool.not_false, Bool.true_and] at hx
    cases hn : p.ty.hdr.nullable with
    | false =>
      simp only [hn, Bool.false_eq_true, if_false, Option.bind_eq_bind, Option.bind_some, Bool.not_true] at hx
      cases hb : p.ty.isBit <;> simp [hb] at hx <;> subst hx <;> rfl
    | true =>
      simp only [hn, if_true] at hx
      cases hg : getBit m d.offBitmap p.vbit with
      | none => rw [hg] at hx; cases hx
      | some b =>
        rw [hg] at hx
        cases b <;> cases hb : p.ty.isBit <;> simp [hb] at hx <;> subst hx <;> simp

/-- What the two ways to hash do on one element of a safe container. -/
theorem safe_fed_elem {d : Dti} {m : Bytes} {n i : Nat} (h : TyOk d) (hc : d.isCont = true) (r : Reach d m n) (hi : i < n)
    (ih : ∀ m', (posOf d n i).ty.isBit = false → safe (posOf d n i).ty m' = true → ∃ v bs, (posOf d n i).ty.getDatum m' = some (some v) ∧
      Fed (posOf d n i).ty v bs ∧ ∀ (σ : Type) (upd : σ → UInt8 → σ) (h : σ), hashData upd h (posOf d n i).ty m' = some (hashBytes upd h bs)) :
    ∃ c bs, d.getContUnsafe m i = some (some c) ∧ Fed (posOf d n i).ty c bs ∧
      ∀ (σ : Type) (upd : σ → UInt8 → σ) (f : σ → Dti → Bytes → Option σ),
        (∀ h x, f h (posOf d n i).ty x = hashData upd h (posOf d n i).ty x) →
        ∀ h, hashCont upd f h d m i = some (hashBytes upd h bs) := by
  have hcn : CountOk d n := r.cnt ▸ annCount_ok d m
  have hok := posOf_ok h hc hcn hi
  have hcnt := reach_count hc r
  have hpi := reach_pos h hc r hi
  have hge : ¬ n ≤ i := by omega
  rcases reach_ptr h hc r hi with h1 | ⟨h1, h2, h3⟩ | ⟨h1, o, h2, h3⟩
  · refine ⟨.null, [], by simp [getContUnsafe, getAt, hpi, h1], fed_null _, fun σ upd f hf h => ?_⟩
    simp [hashCont, hc, hcnt, hpi, isNullAt_ptr hok h1, hashBytes]
  · obtain ⟨x, hx⟩ := Option.isSome_iff_exists.mp h3
    have hfed : Fed (posOf d n i).ty (.uint x) (bitBytes x (posOf d n i).ty.hdr.size) := by
      intro σ upd h
      generalize (posOf d n i).ty = t at *
      cases t with
      | prim k hh => cases k <;> first | (simp [isBit] at h1; done) | rfl
      | _ => simp [isBit] at h1
    refine ⟨.uint x, _, by simp [getContUnsafe, getAt, hpi, h2, h1, hx], hfed, fun σ upd f hf h => ?_⟩
    simp [hashCont, hc, hcnt, hge, hpi, isNullAt_ptr hok h2, h2, h1, hx]
  · obtain ⟨v, bs, g1, g2, g3⟩ := ih _ h1 h3
    refine ⟨v, bs, by simp [getContUnsafe, getAt, hpi, h2, h1, g1], g2, fun σ upd f hf h => ?_⟩
    simp only [hashCont, hc, hcnt, hge, hpi, isNullAt_ptr hok h2, h2, h1, hf, g3, Option.bind_eq_bind, Option.bind_some,
      Bool.not_true, Bool.false_eq_true, if_false, ge_iff_le, Option.isNone_some]

/-- An element of a safe container and the bytes it is hashed by. -/
def FedAt (d : Dti) (m : Bytes) (n i : Nat) (x : Datum × Bytes) : Prop :=
  d.getContUnsafe m i = some (some x.1) ∧ Fed (posOf d n i).ty x.1 x.2 ∧
    ∀ (σ : Type) (upd : σ → UInt8 → σ) (f : σ → Dti → Bytes → Option σ),
      (∀ h x, f h (posOf d n i).ty x = hashData upd h (posOf d n i).ty x) →
      ∀ h, hashCont upd f h d m i = some (hashBytes upd h x.2)

theorem countOf_reach {d : Dti} {m : Bytes} {n : Nat} (hc : d.isCont = true) (hs : ∀ b hh, d ≠ .str b hh) (r : Reach d m n) :
    countOf (.ptr m) d = some n := by
  unfold countOf
  rw [hc]
  simp only [Bool.not_true, Bool.false_eq_true, if_false, Datum.isNull]
  cases d with
  | prim => cases hc
  | str b hh => exact absurd rfl (hs b hh)
  | tup => exact reach_count hc r
  | arr => exact reach_count hc r

theorem contOf_reach {d : Dti} {m : Bytes} {n i : Nat} {c : Datum} (h : TyOk d) (hc : d.isCont = true) (hs : ∀ b hh, d ≠ .str b hh)
    (r : Reach d m n) (hi : i < n) (hg : d.getContUnsafe m i = some (some c)) :
    contOf (.ptr m) d i = some (some (c, some (posOf d n i).ty)) := by
  have h1 : d.getCont m i = some (some c) := by
    simp only [getCont, hc, Bool.not_true, Bool.false_eq_true, if_false, reach_count hc r, Option.bind_eq_bind, Option.bind_some]
    rw [if_neg (by omega)]; exact hg
  unfold contOf
  rw [hc, countOf_reach hc hs r]
  simp only [Bool.not_true, Bool.false_eq_true, if_false, Datum.isNull, Option.bind_eq_bind, Option.bind_some]
  rw [if_neg (by omega)]
  cases d with
  | prim => cases hc
  | str b hh => exact absurd rfl (hs b hh)
  | tup => simp only [h1, Option.bind_some, reach_pos h hc r hi]; rfl
  | arr => simp only [h1, Option.bind_some, reach_pos h hc r hi]; rfl

theorem safe_fed_str {bin : Bool} {hd : Hdr} {m : Bytes} (h : TyOk (.str bin hd)) (hs : safe (.str bin hd) m = true) :
    ∃ v bs, getDatum (.str bin hd) m = some (some v) ∧ Fed (.str bin hd) v bs ∧
      ∀ (σ : Type) (upd : σ → UInt8 → σ) (h : σ), hashData upd h (.str bin hd) m = some (hashBytes upd h bs) := by
  have r := (safe_cont h rfl m).mp hs
  have hcnt := reach_count rfl r
  generalize annCount (.str bin hd) m = n at hcnt r
  have hf := r.fix
  simp only [fixedEnd] at hf
  have hxl : (rd m (offBitmap (.str bin hd)) n).length = n := rd_length _ _ _ hf
  have hld : load m (offBitmap (.str bin hd)) n = some (rd m (offBitmap (.str bin hd)) n) := load_eq hf
  have hone : ∀ i (hi : i < (rd m (offBitmap (.str bin hd)) n).length),
      (∀ (σ : Type) (upd : σ → UInt8 → σ) (h : σ), hashCont upd (fun h t c => hashPrim upd h t c) h (.str bin hd) m i =
        some (upd h (rd m (offBitmap (.str bin hd)) n)[i])) ∧
      (Dti.str bin hd).getContUnsafe m i = some (some (.uint (rd m (offBitmap (.str bin hd)) n)[i].toNat)) := by
    intro i hi
    have hlt : i < n := by omega
    have hpi := reach_pos h rfl r hlt
    have hx : load (m.drop (offBitmap (.str bin hd) + i)) 0 1 = some [(rd m (offBitmap (.str bin hd)) n)[i]] := by
      rw [load_eq (by simp; omega)]
      simp only [rd, List.drop_zero, List.getElem_take, List.getElem_drop]
      rw [List.drop_eq_getElem_cons (by omega)]
      rfl
    have hp : (Dti.str bin hd).ptrAt m (posOf (.str bin hd) n i) = some (some (offBitmap (.str bin hd) + i)) := by
      simp [ptrAt, posOf, u8, needsValid, isVar, hdr, isBit]
    have hty : (posOf (.str bin hd) n i).ty = u8 := rfl
    have hge : ¬ n ≤ i := by omega
    constructor
    · intro σ upd h'
      simp only [hashCont, isCont, hcnt, hge, hpi, isNullAt_ptr (hty ▸ u8_ok) hp, hp, hty, Option.bind_eq_bind, Option.bind_some,
        Bool.not_true, Bool.false_eq_true, if_false, ge_iff_le, Option.isNone_some]
      simp only [u8, isBit, Bool.false_eq_true, if_false, hashPrim, hdr, hx]
      rfl
    · simp only [getContUnsafe, getAt, hpi, hp, hty, Option.bind_eq_bind, Option.bind_some]
      simp only [u8, isBit, Bool.false_eq_true, if_false, getDatum, hx]
      simp [leDec]
  generalize rd m (offBitmap (.str bin hd)) n = x at *
  refine ⟨.bytes (if bin then x else strn x), if bin then x else strn x, ?_, ?_, ?_⟩
  · cases bin <;> simp [getDatum, hcnt, hld]
  · intro σ upd h; simp [hashDatum, Datum.isNull, Datum.asBytes]
  intro σ upd h
  simp only [hashData, hcnt, Option.bind_eq_bind, Option.bind_some]
  suffices hloop : ∀ (k i : Nat) (h : σ), i + k = x.length →
      hashDataLoop upd (fun h t c => hashPrim upd h t c) (!bin) (.str bin hd) m k i h =
        some (hashBytes upd h (if bin then x.drop i else strn (x.drop i))) by
    simpa using hloop n 0 h (by omega)
  intro k
  induction k with
  | zero =>
    intro i h hi
    rw [List.drop_eq_nil_of_le (by omega)]
    simp [hashDataLoop, hashBytes, strn]
  | succ k ih =>
    intro i h hi
    have hlt : i < x.length := by omega
    obtain ⟨g1, g2⟩ := hone i hlt
    have hnext := ih (i + 1) (upd h x[i]) (by omega)
    simp only [hashDataLoop, g1, g2, Option.bind_eq_bind, Option.bind_some]
    cases bin with
    | true =>
      simp only [Bool.not_true, Bool.false_eq_true, if_false, if_true] at hnext ⊢
      rw [hnext, List.drop_eq_getElem_cons hlt]
      rfl
    | false =>
      simp only [Bool.not_false, Bool.false_eq_true, if_false, Option.bind_some, if_true, Datum.asUint, Option.pure_def,
        decide_eq_true_eq] at hnext ⊢
      by_cases hz : x[i] = 0
      · rw [if_pos (by rw [hz]; rfl), List.drop_eq_getElem_cons hlt]
        simp [strn, hz, hashBytes]
      · rw [if_neg (show ¬ x[i].toNat = 0 from fun h0 => hz (UInt8.toNat_inj.mp h0)), hnext, strn_drop_cons hlt hz]
        rfl

/-- `hash_datum` and `hash_data_for_type_info` on safe memory. -/
theorem safe_fed : ∀ d, TyOk d → ∀ m, d.isBit = false → safe d m = true → ∃ v bs, d.getDatum m = some (some v) ∧
    Fed d v bs ∧ ∀ (σ : Type) (upd : σ → UInt8 → σ) (h : σ), hashData upd h d m = some (hashBytes upd h bs) := by
  apply indPos
  · intro k hh ho m hb hs
    obtain ⟨v, h1, _⟩ := safe_read ho hb hs
    have hk : k ≠ .bitField := by rintro rfl; cases hb
    have hl : hh.size ≤ m.length := by
      simp only [safe, Bool.or_eq_true, decide_eq_true_eq] at hs
      exact hs.resolve_left hk
    refine ⟨v, _, h1, fed_read ho hk hl h1, fun σ upd h => ?_⟩
    simp only [hashData, hashPrim, hb, Bool.false_eq_true, if_false, hdr]
    rw [load_eq (by omega)]
    rfl
  · intro d hd hc ih m hb hs
    obtain ⟨v, h1, _⟩ := safe_read hd hb hs
    have r := (safe_cont hd hc m).mp hs
    have hcn := annCount_ok d m
    generalize annCount d m = n at r hcn
    have hcnt := reach_count hc r
    cases d with
    | prim => cases hc
    | str bin hd' => exact safe_fed_str hd hs
    | tup hh fs =>
      obtain ⟨cs, hcl, hcs⟩ := fin_choice (α := Datum × Bytes) (FedAt (.tup hh fs) m n) n
        (fun i hi => let ⟨c, bs, a⟩ := safe_fed_elem hd hc r hi (ih n i hcn hi); ⟨(c, bs), a⟩)
      have hlen : cs.length = fs.length := by
        rw [hcl, hcn rfl]; cases hd with | tup _ _ _ _ _ a => exact a.symm
      have hco := countOf_reach hc (by simp) r
      refine ⟨.ptr m, (cs.map (·.2)).flatten, rfl, fun σ upd h => ?_, fun σ upd h => ?_⟩
      · simp only [hashDatum, Datum.isNull, Bool.false_eq_true, if_false, hco, Option.bind_eq_bind, Option.bind_some]
        suffices hloop : ∀ (rs : List (Fld × Dti)) (i : Nat) (h : σ), i + rs.length = fs.length → (∀ j, rs[j]? = fs[i + j]?) →
            hashFlds upd h rs (.tup hh fs) (.ptr m) n i = some (hashBytes upd h ((cs.drop i).map (·.2)).flatten) by
          simpa using hloop fs 0 h (by simp) (by simp)
        intro rs
        induction rs with
        | nil =>
          intro i h hi _
          simp only [List.length_nil] at hi
          simp only [hashFlds]
          rw [if_neg (by omega), List.drop_eq_nil_of_le (by omega)]
          rfl
        | cons f rs ihr =>
          intro i h hi hr
          obtain ⟨f, t⟩ := f
          simp only [List.length_cons] at hi
          have hlt : i < cs.length := by omega
          have hfi : fs[i]? = some (f, t) := by have := hr 0; simpa using this.symm
          obtain ⟨q1, q2, _⟩ := hcs i _ (List.getElem?_eq_getElem hlt)
          have hty : (posOf (.tup hh fs) n i).ty = t := by simp [posOf, hfi]
          rw [hty] at q2
          rw [List.drop_eq_getElem_cons hlt]
          simp only [hashFlds, if_pos (show i < n by omega), contOf_reach hd hc (by simp) r (show i < n by omega) q1,
            Option.bind_eq_bind, Option.bind_some, List.map_cons, List.flatten_cons, hashBytes_append]
          exact hash_step (q2 σ upd h) (ihr (i + 1) _ (by omega) (fun j => by
            have := hr (j + 1); simp only [List.getElem?_cons_succ] at this; rw [this]; congr 1; omega))
      · simp only [hashData, hcnt, Option.bind_eq_bind, Option.bind_some]
        suffices hloop : ∀ (rs : List (Fld × Dti)) (i : Nat) (h : σ), i + rs.length = fs.length → (∀ j, rs[j]? = fs[i + j]?) →
            hashDataFlds upd h rs (.tup hh fs) m n i = some (hashBytes upd h ((cs.drop i).map (·.2)).flatten) by
          simpa using hloop fs 0 h (by simp) (by simp)
        intro rs
        induction rs with
        | nil =>
          intro i h hi _
          simp only [List.length_nil] at hi
          simp only [hashDataFlds]
          rw [if_neg (by omega), List.drop_eq_nil_of_le (by omega)]
          rfl
        | cons f rs ihr =>
          intro i h hi hr
          obtain ⟨f, t⟩ := f
          simp only [List.length_cons] at hi
          have hlt : i < cs.length := by omega
          have hfi : fs[i]? = some (f, t) := by have := hr 0; simpa using this.symm
          obtain ⟨_, _, q3⟩ := hcs i _ (List.getElem?_eq_getElem hlt)
          have hty : (posOf (.tup hh fs) n i).ty = t := by simp [posOf, hfi]
          rw [hty] at q3
          rw [List.drop_eq_getElem_cons hlt]
          simp only [hashDataFlds, if_pos (show i < n by omega), q3 σ upd (fun h _ x => hashData upd h t x) (fun _ _ => rfl),
            Option.bind_eq_bind, Option.bind_some, List.map_cons, List.flatten_cons, hashBytes_append]
          exact ihr (i + 1) _ (by omega) (fun j => by
            have := hr (j + 1); simp only [List.getElem?_cons_succ] at this; rw [this]; congr 1; omega)
    | arr hh c =>
      obtain ⟨cs, hcl, hcs⟩ := fin_choice (α := Datum × Bytes) (FedAt (.arr hh c) m n) n
        (fun i hi => let ⟨c, bs, a⟩ := safe_fed_elem hd hc r hi (ih n i hcn hi); ⟨(c, bs), a⟩)
      have hty : ∀ i, (posOf (.arr hh c) n i).ty = c := by
        intro i
        simp only [posOf]; split
        · split <;> rfl
        · rfl
      have hco := countOf_reach hc (by simp) r
      refine ⟨.ptr m, (cs.map (·.2)).flatten, rfl, fun σ upd h => ?_, fun σ upd h => ?_⟩
      · simp only [hashDatum, Datum.isNull, Bool.false_eq_true, if_false, hco, Option.bind_eq_bind, Option.bind_some]
        suffices hloop : ∀ (k i : Nat) (h : σ), i + k = cs.length →
            hashLoop (fun h _ x => hashDatum upd h c x) (.arr hh c) (.ptr m) k i h =
              some (hashBytes upd h ((cs.drop i).map (·.2)).flatten) by
          simpa using hloop n 0 h (by omega)
        intro k
        induction k with
        | zero => intro i h hi; rw [List.drop_eq_nil_of_le (by omega)]; rfl
        | succ k ihr =>
          intro i h hi
          have hlt : i < cs.length := by omega
          obtain ⟨q1, q2, _⟩ := hcs i _ (List.getElem?_eq_getElem hlt)
          rw [hty] at q2
          rw [List.drop_eq_getElem_cons hlt]
          simp only [hashLoop, contOf_reach hd hc (by simp) r (show i < n by omega) q1,
            Option.bind_eq_bind, Option.bind_some, List.map_cons, List.flatten_cons, hashBytes_append]
          exact hash_step (q2 σ upd h) (ihr (i + 1) _ (by omega))
      · simp only [hashData, hcnt, Option.bind_eq_bind, Option.bind_some]
        suffices hloop : ∀ (k i : Nat) (h : σ), i + k = cs.length →
            hashDataLoop upd (fun h _ x => hashData upd h c x) false (.arr hh c) m k i h =
              some (hashBytes upd h ((cs.drop i).map (·.2)).flatten) by
          simpa using hloop n 0 h (by omega)
        intro k
        induction k with
        | zero => intro i h hi; rw [List.drop_eq_nil_of_le (by omega)]; rfl
        | succ k ihr =>
          intro i h hi
          have hlt : i < cs.length := by omega
          obtain ⟨_, _, q3⟩ := hcs i _ (List.getElem?_eq_getElem hlt)
          rw [hty] at q3
          rw [List.drop_eq_getElem_cons hlt]
          simp only [hashDataLoop, Bool.false_eq_true, if_false, q3 σ upd (fun h _ x => hashData upd h c x) (fun _ _ => rfl),
            Option.bind_eq_bind, Option.bind_some, List.map_cons, List.flatten_cons, hashBytes_append]
          exact ihr (i + 1) _ (by omega)

/-- Whatever is read from safe memory can be hashed. -/
theorem SafeD.fed {d : Dti} (h : TyOk d) {v : Datum} (hs : SafeD d v) : ∃ bs, Fed d v bs := by
  rcases hs with rfl | ⟨h0, hs⟩
  · exact ⟨_, fed_null d⟩
  · cases d with
    | prim k hh => obtain ⟨x, hx⟩ := hs; exact fed_num h h0 hx
    | str b hh =>
      obtain ⟨a, ha⟩ := hs
      exact ⟨a, fun σ upd x => by simp [hashDatum, h0, ha]⟩
    | tup hh fs =>
      obtain ⟨m, rfl, hm⟩ := hs
      obtain ⟨v, bs, h1, h2, _⟩ := safe_fed _ h m rfl hm
      cases h1
      exact ⟨bs, h2⟩
    | arr hh c =>
      obtain ⟨m, rfl, hm⟩ := hs
      obtain ⟨v, bs, h1, h2, _⟩ := safe_fed _ h m rfl hm
      cases h1
      exact ⟨bs, h2⟩

/-! ### printing -/

/-- The type names that are printed leave room for a NUL. -/
def Named (d : Dti) : Prop := ∀ pa h fs, d.typeAt pa = some (.tup h fs) → (cname h.name).length < 64

theorem Named.pos {d : Dti} {n i : Nat} (hn : Named d) (h : TyOk d) (hc : d.isCont = true) (hcn : CountOk d n) (hi : i < n) :
    Named (posOf d n i).ty := by
  intro pa hh fs ht
  refine hn (i :: pa) hh fs ?_
  simp only [typeAt, tyAtNoData_pos h hc hcn hi, Option.bind_eq_bind, Option.bind_some, ht]

/-- The size that safe memory announces can be read. -/
theorem reach_size {d : Dti} {m : Bytes} {n : Nat} (h : TyOk d) (hc : d.isCont = true) (r : Reach d m n) :
    ∃ s, d.getSize m = some s := by
  have hb := isCont_not_bit hc
  unfold getSize
  rw [hb]
  simp only [Bool.false_eq_true, if_false]
  cases hv : d.isVar with
  | false => exact ⟨_, rfl⟩
  | true =>
    simp only [Bool.not_true, Bool.false_eq_true, if_false]
    cases hp : d.hasSizeP with
    | true =>
      have := r.pre
      simp only [if_true, Option.bind_eq_bind]
      rw [word_eq rfl (by simp [offBitmap, offCountP, hp] at this; omega)]
      exact ⟨_, rfl⟩
    | false =>
      simp only [Bool.false_eq_true, if_false]
      have hvc : d.isVarCount = true := by
        rcases (h.prefix hv).2 with hh | hh
        · rw [hp] at hh; cases hh
        · exact hh
      have h1 := r.pre
      have hlt := r.lt
      have hn : d.word m d.offCountP = n := by rw [r.cnt]; simp [annCount, hvc]
      rw [word_eq rfl (by simp [offBitmap, hasCountP, hvc] at h1; omega), hn]
      have ho : d.offBitmap = d.w := by simp [offBitmap, offCountP, hasCountP, hp, hvc]
      cases d with
      | prim => simp [isCont] at hc
      | tup => simp [isVarCount] at hvc
      | str b h =>
        have hu : u8.isBit = false := rfl
        have hn : u8.needsValid = false := rfl
        have hz : u8.hdr.size = 1 := rfl
        simp only [cont, Option.bind_eq_bind, Option.bind_some, hu, hn, hz]
        simp only [fixedEnd, ho] at hlt
        simp [bitmapBytes, u32]
        omega
      | arr hh c =>
        have hcv : c.isVar = false := by
          have hv : hh.isVar = true := hv
          simpa [hasSizeP, hv] using hp
        simp only [cont, Option.bind_eq_bind, Option.bind_some]
        simp only [fixedEnd, ho, slot, hcv, bitsOf, Bool.false_eq_true, if_false] at hlt
        cases hb : c.isBit with
        | true =>
          simp only [hb, if_true] at hlt ⊢
          exact ⟨_, by rw [u32_eq hlt]⟩
        | false =>
          simp only [hb, Bool.false_eq_true, if_false] at hlt ⊢
          exact ⟨_, by rw [u32_eq hlt]⟩

/-- Printing an element of safe memory. -/
theorem safe_pstep {d : Dti} {m : Bytes} {n i : Nat} (h : TyOk d) (hc : d.isCont = true) (r : Reach d m n) (hi : i < n)
    (ih : ∀ {v}, SafeD (posOf d n i).ty v → ∃ x, printDatum (posOf d n i).ty v = some x) : ∃ x, pstep d m i = some x := by
  have hcn : CountOk d n := r.cnt ▸ annCount_ok d m
  have hok := posOf_ok h hc hcn hi
  obtain ⟨c, h1, h2⟩ := safe_elem h hc r hi
  have hu : d.getContUnsafe m i = some (some c) := by
    simp only [getCont, hc, Bool.not_true, Bool.false_eq_true, if_false, reach_count hc r, Option.bind_eq_bind, Option.bind_some] at h1
    rw [if_neg (by omega)] at h1
    exact h1
  have hof : ∃ y, d.printOff m (posOf d n i) c = some y := by
    unfold printOff
    split
    · rename_i hx
      simp only [Bool.and_eq_true] at hx
      have hl := ((lay_of h hc hcn).fx i hi (isVar_not_bit hok hx.1)).2
      simp only [slot, hx.1, if_true] at hl
      have := r.fix
      rw [word_eq rfl (by omega)]
      exact ⟨_, rfl⟩
    · exact ⟨_, rfl⟩
  obtain ⟨y, hy⟩ := hof
  obtain ⟨x, hx⟩ := ih h2
  exact ⟨y ++ x, by simp [pstep, reach_pos h hc r hi, hu, hy, hx]⟩

theorem safe_gloop {d : Dti} {m : Bytes} {n : Nat} (hn : ∀ i, i < n → ∃ x, pstep d m i = some x) :
    ∃ x, gloop (pstep d m) n 0 = some x := by
  obtain ⟨ts, h1, h2⟩ := fin_choice (fun i x => pstep d m i = some x) n hn
  exact ⟨_, h1 ▸ gloop_some (pstep d m) ts 0 (fun j x hx => by rw [Nat.zero_add]; exact h2 j x hx)⟩

/-- Whatever is read from safe memory can be printed. -/
theorem SafeD.printed : ∀ d, TyOk d → Named d → ∀ v, SafeD d v → ∃ x, printDatum d v = some x := by
  have hnull : ∀ (t : Dti), ∃ x, printDatum t .null = some x := by
    intro t
    cases t with
    | str b h => cases b <;> exact ⟨_, by simp [printDatum, Datum.isNull]; rfl⟩
    | _ => exact ⟨_, by simp [printDatum, Datum.isNull]; rfl⟩
  apply indPos
  · intro k hh ho _ v hs
    rcases hs with rfl | ⟨h0, x, hx⟩
    · exact hnull _
    · cases k <;> simp only [numOf, Option.map_eq_some_iff] at hx <;> obtain ⟨a, ha, _⟩ := hx
      case float =>
        simp only [printDatum, h0, Bool.false_eq_true, if_false, printFlt]
        split
        · exact ⟨_, by rw [ha]; rfl⟩
        · exact ⟨_, rfl⟩
      all_goals exact ⟨_, by simp [printDatum, h0, ha]; rfl⟩
  · intro d hd hc ih hn v hs
    rcases hs with rfl | ⟨h0, hs⟩
    · exact hnull _
    · cases d with
      | prim => cases hc
      | str b hh =>
        obtain ⟨a, ha⟩ := hs
        cases b <;> exact ⟨_, by simp [printDatum, h0, ha]; rfl⟩
      | tup hh fs =>
        obtain ⟨m, rfl, hm⟩ := hs
        have r := (safe_cont hd hc m).mp hm
        have hcn := annCount_ok (.tup hh fs) m
        generalize annCount (.tup hh fs) m = n at r hcn
        obtain ⟨s, hsz⟩ := reach_size hd hc r
        obtain ⟨x, hx⟩ := safe_gloop (fun i hi => safe_pstep hd hc r hi (fun hv => ih n i hcn hi (hn.pos hd hc hcn hi) _ hv))
        have hl : n = fs.length := by
          rw [hcn rfl]; cases hd with | tup _ _ _ _ _ a => exact a.symm
        have hg := printFlds_gloop hh fs m n hl fs 0 (by simp) (by simp)
        rw [← hl, hx] at hg
        have hnm : printName hh.name = some [.str (cname hh.name)] := by
          unfold printName; rw [if_pos (hn [] hh fs rfl)]
        exact ⟨_, by simp only [printDatum, Datum.isNull, Datum.asPtr, hnm, hsz, reach_count hc r, hg, Option.bind_eq_bind,
          Option.bind_some, Bool.false_eq_true, if_false]; rfl⟩
      | arr hh c =>
        obtain ⟨m, rfl, hm⟩ := hs
        have r := (safe_cont hd hc m).mp hm
        have hcn := annCount_ok (.arr hh c) m
        generalize annCount (.arr hh c) m = n at r hcn
        obtain ⟨s, hsz⟩ := reach_size hd hc r
        obtain ⟨x, hx⟩ := safe_gloop (fun i hi => safe_pstep hd hc r hi (fun hv => ih n i hcn hi (hn.pos hd hc hcn hi) _ hv))
        exact ⟨_, by simp only [printDatum, Datum.isNull, Datum.asPtr, hsz, reach_count hc r, printLoop_gloop, hx, Option.bind_eq_bind,
          Option.bind_some, Bool.false_eq_true, if_false]; rfl⟩

end Dti
end TS
