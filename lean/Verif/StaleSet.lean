import Verif.Stale
import Verif.SetFits
/-
The bytes of a tuple after one of its elements was set or has got more slots depend on the bytes
that it had and on the datum, not on what was behind it.
-/
namespace TS
namespace Dti

/-- If the first change succeeds the second does, with the same answer, and both leave a datum of
type `d` of the same bytes, of size `S` if nothing was changed. -/
def SameD (d : Dti) (S : Nat) (x y : Option (Bytes × Bool)) : Prop :=
  ∀ m1 q, x = some (m1, q) → ∃ m2 n, y = some (m2, q) ∧ m1.length = m2.length ∧ d.getSize m1 = some n ∧
    d.getSize m2 = some n ∧ n ≤ m1.length ∧ m1.take n = m2.take n ∧ (q = false → n = S)

section
variable {d : Dti} {t r1 r2 : Bytes} {S : Nat} {cs : List Elt} {o : Nat → Nat} {vs : List Val}

theorem SameD.tail {x y : Option (Bytes × Bool)} {t' : Bytes} {q : Bool} {n : Nat} (hl : r1.length = r2.length)
    (hx : x = some (t' ++ r1, q)) (hy : y = some (t' ++ r2, q)) (hs : d.getSize t' = some n) (hn : n ≤ t'.length)
    (hq : q = false → n = S) : SameD d S x y := by
  intro m1 q' h
  rw [hx] at h
  cases h
  refine ⟨_, n, hy, by simp [hl], getSize_frame d t' r1 _ hs, getSize_frame d t' r2 _ hs, by simp; omega, ?_, hq⟩
  rw [List.take_append_of_le_length hn, List.take_append_of_le_length hn]

theorem load_front {P x : Bytes} {ps a : Nat} (h : a + vsz ps ≤ P.length) : loadVal (P ++ x) ps a = loadVal P ps a := by
  have : ∃ v, loadVal P ps a = some v := by
    unfold loadVal
    rw [load_eq h]; exact ⟨_, rfl⟩
  obtain ⟨v, hv⟩ := this
  rw [hv, loadVal_frame P x ps a _ hv]

/-- The size of a container is read in front of its bitmap. -/
theorem getSize_pre (h : TyOk d) {P x : Bytes} (hl : d.offBitmap ≤ P.length) :
    d.getSize (P ++ x) = d.getSize P := by
  unfold getSize
  cases hb : d.isBit with
  | true => rfl
  | false =>
    cases hv : d.isVar with
    | false => rfl
    | true =>
      have hp := (h.prefix hv).2
      simp only [Bool.false_eq_true, if_false, Bool.not_true]
      cases hs : d.hasSizeP with
      | true =>
        have : d.w ≤ d.offBitmap := by simp [offBitmap, offCountP, hs]
        simp only [if_true]
        rw [load_front (by have : vsz d.hdr.maxSize = d.w := rfl; omega)]
      | false =>
        have hcp : d.hasCountP = true := by simpa [hs] using hp
        have : d.offBitmap = d.offCountP + d.w := by simp [offBitmap, hcp]
        simp only [Bool.false_eq_true, if_false]
        rw [load_front (by have : vsz d.hdr.maxSize = d.w := rfl; omega)]

theorem stale_step (h : TyOk d) (hc : d.isCont = true) (r : CRep d t t.length cs o) (hv : EVals d cs vs) {i : Nat}
    (hlt : i < cs.length) (hcv : (posOf d cs.length i).ty.isVar = true) (hl : r1.length = r2.length)
    {f : Bytes → Option (Bytes × Bool)}
    (hchild : ∀ (b : Bytes) y, vs[i]? = some y → Enc (posOf d cs.length i).ty b y → b.length ≤ t.length →
      SameD (posOf d cs.length i).ty b.length (f (b ++ r1)) (f (b ++ r2))) :
    SameD d t.length
      ((d.moveEnd (t ++ r1) i (posOf d cs.length i)).bind fun x => (d.ptrAt x.1 (posOf d cs.length i)).bind fun y =>
        match y with
        | none => some (x.1, false)
        | some o => d.inChild x.1 (posOf d cs.length i) o true f)
      ((d.moveEnd (t ++ r2) i (posOf d cs.length i)).bind fun x => (d.ptrAt x.1 (posOf d cs.length i)).bind fun y =>
        match y with
        | none => some (x.1, false)
        | some o => d.inChild x.1 (posOf d cs.length i) o true f) := by
  have hok := posOf_ok h hc r.countOk hlt
  have hi := List.getElem?_eq_getElem hlt
  generalize cs[i] = c at hi
  have hvi : ∃ y, vs[i]? = some y := ⟨_, List.getElem?_eq_getElem (by rw [hv.1]; exact hlt)⟩
  obtain ⟨yi, hvi⟩ := hvi
  have hev := hv.2 i c yi hi hvi
  obtain ⟨t1, q1, o1, e1, r1', f2, f3, f4, f5⟩ := moveEnd_any h hc r hi
  have em := fun x => (moveEnd_frame d t x i (posOf d cs.length i) _ _ e1).2
  have ep := fun x => ptrAt_frame d t1 x (posOf d cs.length i) _ (ptrAt_eq h hc r1' hi)
  simp only [em, Option.bind_some, ep]
  have hsz := getSize_eq h hc r1'
  rcases var_elt h hc r hi hcv with rfl | ⟨b, rfl⟩
  · exact SameD.tail hl rfl rfl hsz (by omega) (fun _ => rfl)
  · obtain ⟨b1, b2, b3, b4, b5, b6, b7⟩ := r1'.elt i _ hi
    have hend := f2 b rfl
    have hbnb := isVar_not_bit hok b1
    have hlay := lay_of h hc r.countOk
    have hfx := hlay.fx i hlt hbnb
    simp only [slot, b1, if_true] at hfx
    have hvs := var_hasSize h hc r.countOk hlt b1
    have hob : d.w ≤ d.offBitmap := by simp [offBitmap, offCountP, hvs.1]
    have hbm := bitmap_le_fixedEnd h hc r.countOk
    simp only [eltPtr]
    have hdrop : t1.drop (o1 i) = b := by
      have := b5
      unfold rd at this
      rwa [List.take_of_length_le (by simp; omega)] at this
    have hsz1 : d.sizeAt t1 (posOf d cs.length i) = some b.length := by
      unfold sizeAt
      rw [ptrAt_eq h hc r1' hi]
      simp only [hbnb, b1, Bool.false_eq_true, if_false, Bool.not_true, Option.bind_eq_bind,
        Option.bind_some, eltPtr]
      exact elt_size r1' hi
    generalize hP : t1.take (o1 i) = P
    have hPl : P.length = o1 i := by rw [← hP]; simp; omega
    have hpt : ∀ x, d.ptrAt (P ++ x) (posOf d cs.length i) = some (some (o1 i)) := by
      intro x
      unfold ptrAt
      have hw : loadVal (P ++ x) d.hdr.maxSize (posOf d cs.length i).off = some (o1 i) := by
        have hww : vsz d.hdr.maxSize = d.w := rfl
        have hw1 : loadVal t1 d.hdr.maxSize (posOf d cs.length i).off = some (o1 i) := by
          rw [word_eq rfl (by omega), b2]
        rw [show t1 = P ++ t1.drop (o1 i) by rw [← hP, List.take_append_drop], load_front (by omega)] at hw1
        rw [load_front (by omega)]; exact hw1
      have hne : o1 i ≠ 0 := by have := fixedEnd_pos h hc r.countOk hlt b1; omega
      simp [not_var_needs b1, hbnb, b1, hw, hne]
    have hsP : d.getSize P = some t.length := by
      rw [show t1 = P ++ t1.drop (o1 i) by rw [← hP, List.take_append_drop], getSize_pre h (by omega)] at hsz
      exact hsz
    have hat : ∀ x, atOff (t1 ++ x) (o1 i) f = (f (b ++ x)).bind fun y => some (P ++ y.1, y.2) := by
      intro x
      unfold atOff
      rw [List.drop_append_of_le_length (by omega), hdrop, List.take_append_of_le_length (by omega), hP]
      rfl
    intro m1 q hx
    simp only [inChild, if_true, getSize_frame d t1 r1 _ hsz, getSize_frame d t1 r2 _ hsz, sizeAt_frame d t1 r1 _ _ hsz1,
      sizeAt_frame d t1 r2 _ _ hsz1, hat, Option.bind_eq_bind, Option.bind_some, Option.bind_assoc] at hx ⊢
    cases hf : f (b ++ r1) with
    | none => rw [hf] at hx; simp at hx
    | some y =>
      obtain ⟨c1, qc⟩ := y
      rw [hf] at hx
      obtain ⟨c2, n, g1, g2, g3, g4, g5, g6, g7⟩ := hchild b yi hvi hev (by omega) c1 qc hf
      rw [g1]
      simp only [Option.bind_some] at hx ⊢
      have hcut : ∀ (Q : Bytes) k, Q.length = o1 i → k ≤ o1 i + n → (Q ++ c1).take k = (Q ++ c2).take k := by
        intro Q k hQ hk
        rw [List.take_append, List.take_append]
        congr 1
        rw [hQ]
        have : (c1.take n).take (k - o1 i) = (c2.take n).take (k - o1 i) := by rw [g6]
        rwa [List.take_take, List.take_take, Nat.min_eq_left (by omega)] at this
      cases qc with
      | false =>
        simp only [Bool.false_eq_true, if_false, Option.pure_def, Option.some.injEq, Prod.mk.injEq] at hx ⊢
        obtain ⟨rfl, rfl⟩ := hx
        have := g7 rfl
        refine ⟨P ++ c2, t.length, ⟨rfl, rfl⟩, by simp [g2], ?_, ?_, by simp; omega, hcut P _ hPl (by omega), fun _ => rfl⟩
        · exact getSize_frame d P c1 _ hsP
        · exact getSize_frame d P c2 _ hsP
      | true =>
        have hsa : ∀ x, (posOf d cs.length i).ty.getSize x = some n → d.sizeAt (P ++ x) (posOf d cs.length i) = some n := by
          intro x hx
          unfold sizeAt
          rw [hpt]
          simp only [hbnb, b1, Bool.false_eq_true, if_false, Bool.not_true, Option.bind_eq_bind, Option.bind_some]
          rw [← hPl, List.drop_left]; exact hx
        simp only [if_true, hsa c1 g3, hsa c2 g4, Option.bind_some, Option.pure_def] at hx ⊢
        rw [sub32_eq (by omega), show t.length - b.length = o1 i by omega] at hx ⊢
        simp only [Option.bind_some] at hx ⊢
        cases hu : u32 (o1 i + n) with
        | none => rw [hu] at hx; simp at hx
        | some v =>
          have hv : v = o1 i + n := by
            unfold u32 at hu
            split at hu
            · cases hu; rfl
            · cases hu
          rw [hu] at hx
          simp only [Option.bind_some] at hx ⊢
          subst hv
          -- the prefix of the container
          have hPo : ∃ Q n', d.overwriteSize P (o1 i + n) = some Q ∧ Q.length = P.length ∧ d.getSize Q = some n' ∧
              n' ≤ o1 i + n := by
            unfold overwriteSize
            rw [hvs.1]
            simp only [Bool.not_true, Bool.false_eq_true, if_false]
            have hmx := r1'.mx hvs.2
            have hww : vsz d.hdr.maxSize = d.w := rfl
            split
            · exact ⟨P, _, rfl, rfl, hsP, by omega⟩
            · have h0 : 1 ≤ o1 i := by have := fixedEnd_pos h hc r.countOk hlt b1; omega
              have hst : storeVal P d.hdr.maxSize 0 (o1 i + n) = some (wr P 0 (leEnc d.w (o1 i + n))) := by
                unfold storeVal
                rw [hww, store_eq (by simp only [leEnc_length]; omega)]
              refine ⟨_, o1 i + n, hst, by simp, ?_, Nat.le_refl _⟩
              unfold getSize
              simp only [isCont_not_bit hc, hvs.1, hvs.2, Bool.false_eq_true, if_false, Bool.not_true, if_true]
              rw [word_eq rfl (by rw [wr_length]; omega)]
              simp only [Option.bind_eq_bind, Option.bind_some, Option.pure_def]
              rw [size_read h hvs.2 (by omega) (by omega) (by omega)]
          obtain ⟨Q, n', p1, p2, p3, p4⟩ := hPo
          rw [(overwriteSize_frame d P c1 _ _ p1).2] at hx
          rw [(overwriteSize_frame d P c2 _ _ p1).2]
          simp only [Option.bind_some, Option.some.injEq, Prod.mk.injEq] at hx ⊢
          obtain ⟨rfl, rfl⟩ := hx
          refine ⟨Q ++ c2, n', ⟨rfl, rfl⟩, by simp [g2], getSize_frame d Q c1 _ p3, getSize_frame d Q c2 _ p3, by simp; omega,
            hcut Q n' (by omega) p4, by simp⟩

/-- Setting a datum of variable size: the new bytes are those of the datum. -/
theorem setDatum_stale {ty : Dti} {c1 c2 c1' : Bytes} {valid q : Bool} {inc n : Nat} {v : Datum} (hok : TyOk ty)
    (hvar : ty.isVar = true) (hn : v.isNull = false) (hl : c1.length = c2.length)
    (ho : ty.oldSize c1 valid = ty.oldSize c2 valid) (hw : ty.newSize v = some n)
    (hx : ty.setDatum c1 valid inc v = some (c1', q)) :
    ∃ c2', ty.setDatum c2 valid inc v = some (c2', q) ∧ c1'.length = c2'.length ∧ (q = false → c1' = c1 ∧ c2' = c2) ∧
      (q = true → c1'.take n = c2'.take n) := by
  have hb := isVar_not_bit hok hvar
  have ha : Ag (fun _ => False) c1 c2 := ⟨hl, fun _ hh => hh.elim⟩
  have lift : ∀ {x y : Option Bytes}, RK (fun j => j < 8 * n) x y → (x.bind fun m => some (m, true)) = some (c1', q) →
      ∃ c2', (y.bind fun m => some (m, true)) = some (c2', q) ∧ c1'.length = c2'.length ∧ (q = false → c1' = c1 ∧ c2' = c2) ∧
        (q = true → c1'.take n = c2'.take n) := by
    intro x y hr he
    obtain ⟨a, h1, h2⟩ := Option.bind_eq_some_iff.mp he
    cases h2
    obtain ⟨b, h3, h4⟩ := hr _ h1
    exact ⟨b, by rw [h3]; rfl, h4.1, by simp, fun _ => h4.take (fun j hj => hj)⟩
  have init : ∀ ty : Dti, ty.isBit = false → ty.isVar = true → ty.hdr.size = n →
      ((ty.initMin c1).bind fun x => some (x.1, true)) = some (c1', q) →
      ∃ c2', ((ty.initMin c2).bind fun x => some (x.1, true)) = some (c2', q) ∧ c1'.length = c2'.length ∧ (q = false → c1' = c1 ∧ c2' = c2) ∧
        (q = true → c1'.take n = c2'.take n) := by
    intro ty h1 h2 h3 h4
    have e : ∀ m, ((ty.initMin m).bind fun x => some (x.1, true)) =
        ((zeroIn m 0 n).bind fun m => if ty.hasSizeP then storeVal m ty.hdr.maxSize 0 n else some m).bind fun m => some (m, true) := by
      intro m
      unfold initMin
      rw [h1, h2, h3]
      simp only [Bool.false_eq_true, if_false, Bool.not_true, Option.bind_eq_bind, Option.bind_assoc]
      cases zeroIn m 0 n with
      | none => rfl
      | some m =>
        simp only [Option.bind_some]
        cases ty.hasSizeP with
        | false => rfl
        | true =>
          simp only [if_true]
          cases storeVal m ty.hdr.maxSize 0 n <;> rfl
    rw [e] at h4 ⊢
    refine lift ?_ h4
    refine (ha.zeroIn 0 n).bind fun a b hab => RK.ite (fun _ => (hab.storeVal _ _ _).mono fun j hj => ?_) (fun _ => RK.pure (hab.mono fun j hj => ?_))
    · exact Or.inl (Or.inr ⟨by omega, by omega⟩)
    · exact Or.inr ⟨by omega, by omega⟩
  have copy : ∀ (ty : Dti) (src : Bytes), ty.getSize src = some n →
      ((ty.getSize src).bind fun s => (load src 0 s).bind fun b => (store c1 0 b).bind fun m => some (m, true)) = some (c1', q) →
      ∃ c2', ((ty.getSize src).bind fun s => (load src 0 s).bind fun b => (store c2 0 b).bind fun m => some (m, true)) = some (c2', q) ∧
        c1'.length = c2'.length ∧ (q = false → c1' = c1 ∧ c2' = c2) ∧ (q = true → c1'.take n = c2'.take n) := by
    intro ty src h1 h2
    rw [h1] at h2 ⊢
    simp only [Option.bind_some] at h2 ⊢
    cases hld : load src 0 n with
    | none => rw [hld] at h2; simp at h2
    | some b =>
      rw [hld] at h2
      simp only [Option.bind_some] at h2 ⊢
      have hbl : b.length = n := by
        unfold load at hld
        split at hld
        · cases hld; exact rd_length _ _ _ ‹_›
        · cases hld
      exact lift ((ha.store 0 b).mono fun j hj => Or.inr ⟨by omega, by rw [hbl]; omega⟩) h2
  unfold setDatum at hx ⊢
  simp only [hn, hb, hvar, Bool.false_eq_true, if_false, Bool.not_true] at hx ⊢
  cases ty with
  | prim k hh => simp only [Option.some.injEq, Prod.mk.injEq] at hx; exact ⟨c2, by simp [hx.2], by rw [← hx.1, hl],
      fun _ => ⟨hx.1.symm, rfl⟩, fun hq => by rw [hq] at hx; cases hx.2⟩
  | str bin hh =>
    simp only [ho, hw, Option.bind_eq_bind] at hx ⊢
    cases hos : oldSize (.str bin hh) c2 valid with
    | none => rw [hos] at hx; simp at hx
    | some old =>
      rw [hos] at hx
      simp only [Option.bind_some] at hx ⊢
      cases hf : fits hh.maxSize old n inc with
      | false =>
        rw [hf] at hx
        simp only [Bool.not_false, if_true, Option.pure_def, Option.some.injEq, Prod.mk.injEq] at hx ⊢
        obtain ⟨rfl, rfl⟩ := hx
        exact ⟨c2, ⟨rfl, rfl⟩, hl, fun _ => ⟨rfl, rfl⟩, by simp⟩
      | true =>
        rw [hf] at hx
        simp only [Bool.not_true, Bool.false_eq_true, if_false] at hx ⊢
        cases hab : v.asBytes with
        | none => rw [hab] at hx; simp at hx
        | some b =>
          rw [hab] at hx
          simp only [Option.bind_some] at hx ⊢
          have hnl : n = vsz hh.maxSize + (if bin then b else strn b).length := by
            cases bin <;> simp [newSize, hab] at hw ⊢
            all_goals
              unfold u32 at hw
              split at hw
              · cases hw; rfl
              · cases hw
          have e : ∀ m : Bytes, ((storeVal m hh.maxSize 0 (if bin then b else strn b).length).bind fun m =>
              (store m (vsz hh.maxSize) (if bin then b else strn b)).bind fun m => some (m, true)) =
              ((storeVal m hh.maxSize 0 (if bin then b else strn b).length).bind fun m =>
              (store m (vsz hh.maxSize) (if bin then b else strn b))).bind fun m => some (m, true) := by
            intro m; rw [Option.bind_assoc]
          simp only [Option.pure_def] at hx ⊢
          rw [e] at hx ⊢
          refine lift ?_ hx
          refine (ha.storeVal _ _ _).bind fun a1 b1 g => (g.store _ _).mono fun j hj => ?_
          by_cases hj2 : j < 8 * vsz hh.maxSize
          · exact Or.inl (Or.inr ⟨by omega, by omega⟩)
          · exact Or.inr ⟨by omega, by omega⟩
  | tup hh fs =>
    simp only [ho, hw, Option.bind_eq_bind] at hx ⊢
    cases hos : oldSize (.tup hh fs) c2 valid with
    | none => rw [hos] at hx; simp at hx
    | some old =>
      rw [hos] at hx
      simp only [Option.bind_some] at hx ⊢
      cases hf : fits hh.maxSize old n inc with
      | false =>
        simp only [hdr, hf, Bool.not_false, if_true, Option.pure_def, Option.some.injEq, Prod.mk.injEq] at hx ⊢
        obtain ⟨rfl, rfl⟩ := hx
        exact ⟨c2, ⟨rfl, rfl⟩, hl, fun _ => ⟨rfl, rfl⟩, by simp⟩
      | true =>
        simp only [hdr, hf, Bool.not_true, Bool.false_eq_true, if_false] at hx ⊢
        cases v with
        | ptr src => exact copy _ src hw hx
        | empty => exact init _ hb hvar (by simpa [newSize] using hw) hx
        | _ => simp at hx
  | arr hh cc =>
    simp only [ho, hw, Option.bind_eq_bind] at hx ⊢
    cases hos : oldSize (.arr hh cc) c2 valid with
    | none => rw [hos] at hx; simp at hx
    | some old =>
      rw [hos] at hx
      simp only [Option.bind_some] at hx ⊢
      cases hf : fits hh.maxSize old n inc with
      | false =>
        simp only [hdr, hf, Bool.not_false, if_true, Option.pure_def, Option.some.injEq, Prod.mk.injEq] at hx ⊢
        obtain ⟨rfl, rfl⟩ := hx
        exact ⟨c2, ⟨rfl, rfl⟩, hl, fun _ => ⟨rfl, rfl⟩, by simp⟩
      | true =>
        simp only [hdr, hf, Bool.not_true, Bool.false_eq_true, if_false] at hx ⊢
        cases v with
        | ptr src => exact copy _ src hw hx
        | empty => exact init _ hb hvar (by simpa [newSize] using hw) hx
        | _ => simp at hx

/-- The size of a datum of variable size after it was set. -/
theorem setDatum_size {ty : Dti} {c c' : Bytes} {valid : Bool} {inc old n : Nat} {v : Datum} (hok : TyOk ty)
    (hvar : ty.isVar = true) (hn : v.isNull = false) (hd : ∃ y, Den ty v y) (ho : ty.oldSize c valid = some old)
    (hroom : min (old + inc) ty.hdr.maxSize ≤ c.length) (hw : ty.newSize v = some n)
    (hx : ty.setDatum c valid inc v = some (c', true)) :
    ty.getSize c' = some n ∧ n ≤ c'.length ∧ n ≤ old + inc ∧ 1 ≤ n := by
  obtain ⟨c'', q, k1, k2, k3, k4, k5, k6⟩ := setDatum_ok (valid := valid) (inc := inc) hok (isVar_not_bit hok hvar) hn hd (fun _ => ho)
    (fun _ => hroom) (fun hh => by rw [hvar] at hh; cases hh)
  rw [hx] at k1
  cases k1
  rw [canSetDatum_var hn hok hvar ho hw] at k2
  obtain ⟨f1, f2⟩ := fits_iff.mp (Option.some.inj k2)
  obtain ⟨b, ⟨⟨y, e1, e2⟩, w2, w3⟩, w4⟩ := k6 rfl
  obtain ⟨n', n1, _, n3⟩ := newSize_needs hok hvar e2
  rw [hw] at n1
  cases n1
  have hbn : b.length = n := Sz.unique hok (Or.inr ⟨b, e1, rfl⟩) (n3 f1)
  obtain ⟨z1, z2, _⟩ := enc_size hok e1
  have hbl : b.length ≤ c'.length := by rw [k3]; omega
  refine ⟨?_, by omega, f2, by omega⟩
  have := getSize_at (d := ty) (m := c') (b := b) (o := 0) z1 w2
  rw [List.drop_zero, hbn] at this
  exact this

/-- Setting an element of variable size to something. -/
theorem setAt_stale (h : TyOk d) (hc : d.isCont = true) (r : CRep d t t.length cs o) {i inc : Nat} {v : Datum}
    (hlt : i < cs.length) (hcv : (posOf d cs.length i).ty.isVar = true) (hl : r1.length = r2.length)
    (hn : v.isNull = false) (hd : ∃ y, Den (posOf d cs.length i).ty v y)
    (hroom : t.length + min inc (d.hdr.maxSize - t.length) ≤ (t ++ r1).length) :
    SameD d t.length (d.setAt (t ++ r1) i (posOf d cs.length i) inc v) (d.setAt (t ++ r2) i (posOf d cs.length i) inc v) := by
  have hok := posOf_ok h hc r.countOk hlt
  have hi := List.getElem?_eq_getElem hlt
  generalize cs[i] = c at hi
  obtain ⟨t1, q1, o1, e1, r1', f2, f3, f4, f5⟩ := moveEnd_any h hc r hi
  have em := fun x => (moveEnd_frame d t x i (posOf d cs.length i) _ _ e1).2
  have ep := fun x => ptrAt_frame d t1 x (posOf d cs.length i) _ (ptrAt_eq h hc r1' hi)
  have hsz := getSize_eq h hc r1'
  have es := fun x => getSize_frame d t1 x _ hsz
  have hbnb := isVar_not_bit hok hcv
  have hlay := lay_of h hc r.countOk
  have hfx := hlay.fx i hlt hbnb
  simp only [slot, hcv, if_true] at hfx
  have hvs := var_hasSize h hc r.countOk hlt hcv
  have hob : d.w ≤ d.offBitmap := by simp [offBitmap, offCountP, hvs.1]
  have hbm := bitmap_le_fixedEnd h hc r.countOk
  have hfe := fixedEnd_le r1'
  have hmx := r1'.mx hvs.2
  have hww : vsz d.hdr.maxSize = d.w := rfl
  have hfp := fixedEnd_pos h hc r.countOk hlt hcv
  obtain ⟨n, hw⟩ : ∃ n, (posOf d cs.length i).ty.newSize v = some n := by
    obtain ⟨y, hy⟩ := hd
    obtain ⟨n, hw, _⟩ := newSize_needs hok hcv hy
    exact ⟨n, hw⟩
  unfold setAt
  simp only [hn, hcv, Bool.false_eq_true, if_false, Bool.not_true, em, es, ep, Option.bind_eq_bind, Option.bind_some, hvs.1, Bool.and_true,
    Option.pure_def]
  rw [sub32_eq hmx]
  simp only [Option.bind_some]
  have key : ∀ (P b : Bytes) (a? : Option Nat), t1 = P ++ b → a?.getD t.length = P.length → (a? = none → b = []) →
      fixedEnd d cs.length ≤ P.length → (∀ x, (posOf d cs.length i).ty.oldSize (b ++ x) a?.isSome = some b.length) →
      SameD d t.length
        ((atOff (t1 ++ r1) (a?.getD t.length) (fun c => (posOf d cs.length i).ty.setDatum c a?.isSome (min inc (d.hdr.maxSize - t.length)) v)).bind fun x =>
          if (x.2 && a?.isNone) = true then
            (storeVal x.1 d.hdr.maxSize (posOf d cs.length i).off t.length).bind fun m =>
              if x.2 = true then
                ((posOf d cs.length i).ty.getSize (m.drop (a?.getD t.length))).bind fun ns => (sub32 t.length b.length).bind fun y =>
                  (u32 (y + ns)).bind fun z => (storeVal m d.hdr.maxSize 0 z).bind fun m => some (m, x.2)
              else some (m, x.2)
          else if x.2 = true then
                ((posOf d cs.length i).ty.getSize (x.1.drop (a?.getD t.length))).bind fun ns => (sub32 t.length b.length).bind fun y =>
                  (u32 (y + ns)).bind fun z => (storeVal x.1 d.hdr.maxSize 0 z).bind fun m => some (m, x.2)
              else some (x.1, x.2))
        ((atOff (t1 ++ r2) (a?.getD t.length) (fun c => (posOf d cs.length i).ty.setDatum c a?.isSome (min inc (d.hdr.maxSize - t.length)) v)).bind fun x =>
          if (x.2 && a?.isNone) = true then
            (storeVal x.1 d.hdr.maxSize (posOf d cs.length i).off t.length).bind fun m =>
              if x.2 = true then
                ((posOf d cs.length i).ty.getSize (m.drop (a?.getD t.length))).bind fun ns => (sub32 t.length b.length).bind fun y =>
                  (u32 (y + ns)).bind fun z => (storeVal m d.hdr.maxSize 0 z).bind fun m => some (m, x.2)
              else some (m, x.2)
          else if x.2 = true then
                ((posOf d cs.length i).ty.getSize (x.1.drop (a?.getD t.length))).bind fun ns => (sub32 t.length b.length).bind fun y =>
                  (u32 (y + ns)).bind fun z => (storeVal x.1 d.hdr.maxSize 0 z).bind fun m => some (m, x.2)
              else some (x.1, x.2)) := by
    intro P b a? hPb hget hnone hPfe hold
    have hlen : P.length + b.length = t.length := by rw [← f3, hPb]; simp
    rw [hget]
    have hat : ∀ x, atOff (t1 ++ x) P.length (fun c => (posOf d cs.length i).ty.setDatum c a?.isSome (min inc (d.hdr.maxSize - t.length)) v) =
        ((posOf d cs.length i).ty.setDatum (b ++ x) a?.isSome (min inc (d.hdr.maxSize - t.length)) v).bind fun y => some (P ++ y.1, y.2) := by
      intro x
      unfold atOff
      rw [hPb, List.append_assoc, List.drop_left, List.take_left]
      rfl
    simp only [hat, Option.bind_assoc]
    intro m1 q hx
    cases hsd : (posOf d cs.length i).ty.setDatum (b ++ r1) a?.isSome (min inc (d.hdr.maxSize - t.length)) v with
    | none => rw [hsd] at hx; simp at hx
    | some y =>
      obtain ⟨c1, qc⟩ := y
      rw [hsd] at hx
      obtain ⟨c2, g1, g2, g3, g4⟩ := setDatum_stale hok hcv hn (c1 := b ++ r1) (c2 := b ++ r2) (by simp [hl]) (by rw [hold, hold]) hw hsd
      rw [g1]
      simp only [Option.bind_some] at hx ⊢
      cases qc with
      | false =>
        simp only [Bool.false_and, Bool.false_eq_true, if_false, Option.some.injEq, Prod.mk.injEq] at hx ⊢
        obtain ⟨rfl, rfl⟩ := hx
        obtain ⟨rfl, rfl⟩ := g3 rfl
        have hPx : ∀ x, P ++ (b ++ x) = t1 ++ x := fun x => by rw [hPb, List.append_assoc]
        exact ⟨_, t.length, ⟨rfl, rfl⟩, by simp [hl], by rw [hPx]; exact es r1, by rw [hPx]; exact es r2, by simp; omega,
          by rw [hPx, hPx, ← f3, List.take_left, List.take_left], fun _ => rfl⟩
      | true =>
        obtain ⟨s1, s2, s3, s4⟩ := setDatum_size hok hcv hn hd (hold r1) (by simp only [List.length_append] at hroom ⊢; omega) hw hsd
        obtain ⟨u1, _⟩ := setDatum_size hok hcv hn hd (hold r2) (by simp only [List.length_append] at hroom ⊢; omega) hw g1
        have hcut : ∀ (Q : Bytes), Q.length = P.length → (Q ++ c1).take (P.length + n) = (Q ++ c2).take (P.length + n) := by
          intro Q hQ
          rw [← hQ, List.take_length_add_append, List.take_length_add_append, g4 rfl]
        have hstore : ∀ (Q : Bytes) (a : Nat) (z : Nat), a + d.w ≤ Q.length → ∀ x : Bytes,
            storeVal (Q ++ x) d.hdr.maxSize a z = some (wr Q a (leEnc d.w z) ++ x) := by
          intro Q a z ha x
          refine (storeVal_frame x _ _ _ _ ?_).2
          unfold storeVal
          rw [hww, store_eq (by simp only [leEnc_length]; omega)]
        have fin : ∀ Q : Bytes, Q.length = P.length → (∀ x : Bytes, (Q ++ x).drop P.length = x) →
            SameD d t.length
              (((posOf d cs.length i).ty.getSize ((Q ++ c1).drop P.length)).bind fun ns => (sub32 t.length b.length).bind fun y =>
                (u32 (y + ns)).bind fun z => (storeVal (Q ++ c1) d.hdr.maxSize 0 z).bind fun m => some (m, true))
              (((posOf d cs.length i).ty.getSize ((Q ++ c2).drop P.length)).bind fun ns => (sub32 t.length b.length).bind fun y =>
                (u32 (y + ns)).bind fun z => (storeVal (Q ++ c2) d.hdr.maxSize 0 z).bind fun m => some (m, true)) := by
          intro Q hQ hdr m1 q hx
          rw [hdr, s1, sub32_eq (by omega), show t.length - b.length = P.length by omega] at hx
          rw [hdr, u1, sub32_eq (by omega), show t.length - b.length = P.length by omega]
          simp only [Option.bind_some] at hx ⊢
          have hlimd := (h.maxSize hvs.2).2
          unfold lim at hlimd
          rw [u32_eq (by omega)] at hx ⊢
          simp only [Option.bind_some] at hx ⊢
          rw [hstore Q 0 _ (by omega)] at hx ⊢
          simp only [Option.bind_some, Option.some.injEq, Prod.mk.injEq] at hx ⊢
          obtain ⟨rfl, rfl⟩ := hx
          have hgs : d.getSize (wr Q 0 (leEnc d.w (P.length + n))) = some (P.length + n) := by
            unfold getSize
            simp only [isCont_not_bit hc, hvs.1, hvs.2, Bool.false_eq_true, if_false, Bool.not_true, if_true]
            rw [word_eq rfl (by rw [wr_length]; omega)]
            simp only [Option.bind_eq_bind, Option.bind_some, Option.pure_def]
            rw [size_read h hvs.2 (by omega) (by omega) (by omega)]
          exact ⟨_, P.length + n, ⟨rfl, rfl⟩, by simp [g2], getSize_frame d _ c1 _ hgs, getSize_frame d _ c2 _ hgs, by simp; omega,
            hcut _ (by simp [hQ]), by simp⟩
        simp only [Bool.true_and, if_true] at hx ⊢
        cases a? with
        | none =>
          simp only [Option.isNone_none, if_true] at hx ⊢
          rw [hstore P _ _ (by omega)] at hx ⊢
          simp only [Option.bind_some] at hx ⊢
          exact fin _ (by simp) (fun x => by rw [List.drop_left' (by simp)]) _ _ hx
        | some a =>
          simp only [Option.isNone_some, Bool.false_eq_true, if_false] at hx ⊢
          exact fin P rfl (fun x => List.drop_left) _ _ hx
  rcases var_elt h hc r hi hcv with rfl | ⟨b, rfl⟩
  · exact key t1 [] none (by simp) f3.symm (fun _ => rfl) (by omega) (fun x => rfl)
  · obtain ⟨b1, b2, b3, b4, b5, b6, b7⟩ := r1'.elt i _ hi
    have hend := f2 b rfl
    have hdrop : t1.drop (o1 i) = b := by
      have := b5
      unfold rd at this
      rwa [List.take_of_length_le (by simp; omega)] at this
    have hPl : (t1.take (o1 i)).length = o1 i := by simp; omega
    have hgb : ∀ x, (posOf d cs.length i).ty.getSize ((t1 ++ x).drop (o1 i)) = some b.length := by
      intro x
      rw [List.drop_append_of_le_length (by omega), hdrop]
      exact getSize_append b7
    simp only [eltPtr, hgb, Option.bind_some]
    refine key (t1.take (o1 i)) b (some (o1 i)) ?_ hPl.symm (by simp) (by omega) (fun x => ?_)
    · rw [← hdrop, List.take_append_drop]
    · simp only [oldSize, Option.isSome_some, if_true]
      exact getSize_append b7

/-- What is refused, or only concerns the bytes of the tuple. -/
theorem same_tail {S' : Nat} {val' : Val} {b' : Bytes} {q : Bool} (h : TyOk d) (hl : r1.length = r2.length) {f : Bytes → Option (Bytes × Bool)}
    (hf : ∀ r : Bytes, f (t ++ r) = some (b' ++ r, q)) (hS : S' ≤ b'.length) (he : Enc d (b'.take S') val') (hq : q = false → S' = t.length) :
    SameD d t.length (f (t ++ r1)) (f (t ++ r2)) :=
  SameD.tail hl (hf r1) (hf r2) (size_eq h hS he) hS hq

theorem setElemI_stale (pa : List Nat) : ∀ {d ty : Dti} {t r1 r2 : Bytes} {val : Val} {inc : Nat} {v : Datum},
    TyOk d → Enc d t val → d.typeAt pa = some ty → ty.isVar = true → (∃ y, EDen ty v y) → r1.length = r2.length →
    min (t.length + inc) d.hdr.maxSize ≤ (t ++ r1).length →
    SameD d t.length (d.setElemI (t ++ r1) inc v true pa) (d.setElemI (t ++ r2) inc v true pa) := by
  induction pa with
  | nil =>
    intro d ty t r1 r2 val inc v h he ht htv hd hl hroom
    simp only [typeAt, Option.some.injEq] at ht
    subst ht
    obtain ⟨z1, z2, z3, z4, z5, z6⟩ := enc_size h he
    simp only [setElemI]
    cases hn : v.isNull with
    | true =>
      simp only [if_true]
      exact SameD.tail hl rfl rfl z1 (by omega) (fun _ => rfl)
    | false =>
      simp only [Bool.false_eq_true, if_false]
      simp only [EDen, hn, z4, Bool.false_eq_true, if_false] at hd
      have ho : ∀ x, d.oldSize (t ++ x) true = some t.length := fun x => by
        simp only [oldSize, if_true]; exact getSize_frame d t x _ z1
      obtain ⟨n, hw⟩ : ∃ n, d.newSize v = some n := by
        obtain ⟨y, hy⟩ := hd
        obtain ⟨n, hw, _⟩ := newSize_needs h htv hy
        exact ⟨n, hw⟩
      intro m1 q hx
      obtain ⟨c2, g1, g2, g3, g4⟩ := setDatum_stale h htv hn (c1 := t ++ r1) (c2 := t ++ r2) (by simp [hl]) (by rw [ho, ho]) hw hx
      cases q with
      | false =>
        obtain ⟨rfl, rfl⟩ := g3 rfl
        exact ⟨_, t.length, g1, g2, getSize_frame d t r1 _ z1, getSize_frame d t r2 _ z1, by simp, by simp, fun _ => rfl⟩
      | true =>
        obtain ⟨s1, s2, s3, s4⟩ := setDatum_size h htv hn hd (ho r1) hroom hw hx
        obtain ⟨u1, _⟩ := setDatum_size h htv hn hd (ho r2) (by simp only [List.length_append] at hroom ⊢; omega) hw g1
        exact ⟨_, n, g1, g2, s1, u1, s2, g4 rfl, by simp⟩
  | cons i pa ih =>
    intro d ty t r1 r2 val inc v h he ht htv hd hl hroom
    simp only [typeAt, Option.bind_eq_bind] at ht
    obtain ⟨ct, ht1, ht2⟩ := Option.bind_eq_some_iff.mp ht
    have hc : d.isCont = true := by
      cases hc : d.isCont with
      | true => rfl
      | false => simp [tyAtNoData, hc] at ht1
    have he' : Enc d (t.take t.length) val := by rw [List.take_length]; exact he
    obtain ⟨cs, o, vs, hval, r, hv⟩ := crep_of_enc h hc (Nat.le_refl _) he'
    subst hval
    have hcnt := fun x => getCount_frame d t x _ (getCount_eq h hc r)
    by_cases hlt : i < cs.length
    · have hty := tyAt_pos h r.countOk hlt ht1
      have hok := posOf_ok h hc r.countOk hlt
      have hcv : (posOf d cs.length i).ty.isVar = true := by
        rw [hty]; exact (typeAt_ok _ (hty ▸ hok) ht2).2 htv
      have hdv := (var_hasSize h hc r.countOk hlt hcv).2
      have hmx := r.mx hdv
      have hp := fun x => posInfo_frame d t x i _ (posInfo_eq h hc r hlt)
      have hsz := fun x => getSize_frame d t x _ (getSize_eq h hc r)
      cases pa with
      | nil =>
        simp only [typeAt, Option.some.injEq] at ht2
        subst ht2
        rw [← hty] at hd
        have hset : ∀ x, d.setElemI (t ++ x) inc v true [i] = d.setAt (t ++ x) i (posOf d cs.length i) inc v := by
          intro x
          simp only [setElemI, setCont, setContUnsafe, hc, hcnt, hp, Bool.not_true, Bool.false_eq_true, if_false,
            Option.bind_eq_bind, Option.bind_some, ge_iff_le, Nat.not_le.mpr hlt]
        rw [hset, hset]
        cases hn : v.isNull with
        | false =>
          simp only [EDen, hn, isVar_not_bit hok hcv, Bool.false_eq_true, if_false] at hd
          exact setAt_stale h hc r hlt hcv hl hn hd (by omega)
        | true =>
          simp only [setAt, hn, if_true]
          have hi := List.getElem?_eq_getElem hlt
          generalize cs[i] = c at hi
          obtain ⟨m', k1, hml, _, k2, k3⟩ := setNull_ok h hc r hi
          have hfr := fun x => (setNull_frame d t x i (posOf d cs.length i) _ _ k1).2
          cases hnl : (posOf d cs.length i).ty.isNullable with
          | false =>
            have := k2 hnl
            subst this
            rw [hnl] at hfr
            exact SameD.tail hl (hfr r1) (hfr r2) (getSize_eq h hc r) (by omega) (fun _ => rfl)
          | true =>
            obtain ⟨o', r'⟩ := k3 hnl
            rw [hnl] at hfr
            exact SameD.tail hl (hfr r1) (hfr r2) (getSize_eq h hc r') (by rw [hml]; omega) (by simp)
      | cons j pa =>
        have hset : ∀ x, d.setElemI (t ++ x) inc v true (i :: j :: pa) =
            (d.moveEnd (t ++ x) i (posOf d cs.length i)).bind fun x => (d.ptrAt x.1 (posOf d cs.length i)).bind fun y =>
            match y with
            | none => some (x.1, false)
            | some o => d.inChild x.1 (posOf d cs.length i) o true
              (fun c => setElemI (posOf d cs.length i).ty c (min inc (d.hdr.maxSize - t.length)) v true (j :: pa)) := by
          intro x
          simp only [setElemI, hc, hcnt, hp, hsz, hdv, Bool.not_true, Bool.false_eq_true, if_false, if_true,
            Option.bind_eq_bind, Option.bind_some, ge_iff_le, Nat.not_le.mpr hlt, Option.pure_def]
          rw [sub32_eq hmx]
          rfl
        rw [hset, hset]
        refine stale_step h hc r hv hlt hcv hl (fun b y _ hb hbl => ?_)
        exact ih hok hb (by rw [hty]; exact ht2) htv hd hl (by simp only [List.length_append] at hroom ⊢; omega)
    · have hset : ∀ x, d.setElemI (t ++ x) inc v true (i :: pa) = some (t ++ x, false) := by
        intro x
        cases pa with
        | nil => simp [setElemI, setCont, hc, hcnt]; omega
        | cons j pa => simp [setElemI, hc, hcnt]; omega
      exact SameD.tail hl (hset r1) (hset r2) (getSize_eq h hc r) (by omega) (fun _ => rfl)

theorem setElem_stale {pa : List Nat} {val : Val} {inc : Nat} {v : Datum} (h : TyOk d) (he : Enc d t val)
    (hd : ∀ ty, d.typeAt pa = some ty → ∃ y, EDen ty v y) (hl : r1.length = r2.length)
    (hroom : ∀ ty, d.typeAt pa = some ty → ty.isVar = true → min (t.length + inc) d.hdr.maxSize ≤ (t ++ r1).length) :
    SameD d t.length (d.setElem (t ++ r1) pa v inc) (d.setElem (t ++ r2) pa v inc) := by
  have hz := (enc_size h he).1
  unfold setElem
  cases ht : d.typeAt pa with
  | none => exact SameD.tail hl rfl rfl hz (by omega) (fun _ => rfl)
  | some ty =>
    simp only []
    cases htv : ty.isVar with
    | true => exact setElemI_stale pa h he ht htv (hd ty ht) hl (hroom ty ht htv)
    | false =>
      obtain ⟨m', q, S', val', k1, _, k3, k4, k5, k6, k7, k8, k9, k10⟩ := setElemI_ok pa (m := t) (S := t.length) (inc := inc) h (Nat.le_refl _)
        (by rw [List.take_length]; exact he) ht (hd ty ht) (by rw [htv]; intro hh; cases hh)
      rw [htv] at k1
      have hfr := fun x => (setElemI_frame pa v false d t x inc _ _ k1).2
      exact SameD.tail hl (hfr r1) (hfr r2) (size_eq h (by omega) k5) (by omega) (fun hh => (k8 hh).1)

end
end Dti
end TS
