import Verif.StaleSet

/-! Elements put into an array: what the memory behind the tuple held does not get into it. -/

namespace TS
namespace Dti

theorem whenB_ag {K : Nat → Prop} {a b : Bytes} (h : Ag K a b) (q : Bool) (ps o v : Nat) :
    RK K (whenB q (fun m => storeVal m ps o v) a) (whenB q (fun m => storeVal m ps o v) b) := by
  unfold whenB
  exact RK.ite (fun _ => (h.storeVal ps o v).mono fun _ hj => Or.inl hj) (fun _ => RK.pure h)

theorem growBody_ag {d c : Dti} {t a b : Bytes} {cs : List Elt} {o : Nat → Nat} {index slots : Nat} (hcd : d.cont = some c)
    (hok : TyOk c) (r : CRep d t t.length cs o) (hi : index ≤ cs.length)
    (h32 : fixedEnd d (cs.length + slots) + heap cs < 4294967296) (h : Ag (fun j => j < 8 * t.length) a b) :
    RK (fun j => j < 8 * (fixedEnd d (cs.length + slots) + heap cs))
      (d.growBody c a t.length cs.length index slots) (d.growBody c b t.length cs.length index slots) := by
  have hsum := r.sum
  unfold growBody
  cases hb : c.isBit with
  | true =>
    have h0 := heap_fixed hcd r (bit_not_var hok hb)
    simp only [if_true]
    rw [h0, cont_fixedEnd_bit hcd hb] at hsum ⊢
    exact growBit_ag h hi hsum
  | false =>
    simp only [Bool.false_eq_true, if_false]
    cases hv : c.isVar with
    | false =>
      have h0 := heap_fixed hcd r hv
      have hsl : slot d.w c = c.hdr.size := by simp [slot, hv]
      simp only [Bool.not_false, if_true]
      rw [h0, cont_fixedEnd hcd hb, hsl] at hsum h32 ⊢
      exact growFixed_ag h hi rfl (by omega) h32 hok.size_pos
    | true =>
      simp only [Bool.not_true, Bool.false_eq_true, if_false]
      have hsl : slot d.w c = d.w := by simp [slot, hv]
      have hnv : c.needsValid = false := by simp [needsValid, hv]
      rw [cont_fixedEnd hcd hb, hsl, hnv] at hsum h32 ⊢
      have : (cs.length + slots) * d.w = cs.length * d.w + slots * d.w := Nat.add_mul _ _ _
      simp only [Bool.toNat_false, Nat.mul_zero] at hsum h32 ⊢
      exact (growVar_ag h hi (by omega) (by omega)).mono fun j hj => by omega

theorem expand_stale {d c : Dti} {t r1 r2 : Bytes} {val : Val} {index slots inc : Nat} (h : TyOk d)
    (hvc : d.isVarCount = true) (hcd : d.cont = some c) (he : Enc d t val)
    (hg : ∀ vs, val = .node vs → GrowPre d vs.length slots) (hl : r1.length = r2.length)
    (hroom : min (t.length + inc) d.hdr.maxSize ≤ (t ++ r1).length) :
    SameD d t.length (d.expand (t ++ r1) index slots inc) (d.expand (t ++ r2) index slots inc) := by
  obtain ⟨hc, hdv, c', hcd', hok, _⟩ := varCount_cont h hvc
  rw [hcd] at hcd'
  cases hcd'
  obtain ⟨cs, o, vs, rfl, r, hv⟩ := crep_of_enc h hc (Nat.le_refl t.length) (by rw [List.take_length]; exact he)
  obtain ⟨g1, g2⟩ := hg vs rfl
  rw [hv.1] at g1 g2
  have hlim := r.lt_lim h hc
  have hsum := r.sum
  have hsz := getSize_eq h hc r
  unfold lim at hlim g1
  have hr : ∀ x, CRep d (t ++ x) t.length cs o := fun x => CRep.of_take h hc (by simp) (by rw [List.take_left]; exact r)
  obtain ⟨m', q, k1, k2, k3, k4, k5, k6⟩ := expand_ok h hvc hcd (hr r1) (index := index) (slots := slots) (inc := inc) rfl
    ⟨by omega, g2⟩ hroom
  obtain ⟨m2', q2, l1, l2, l3, l4, l5, l6⟩ := expand_ok h hvc hcd (hr r2) (index := index) (slots := slots) (inc := inc) rfl
    ⟨by omega, g2⟩ (by simp only [List.length_append] at hroom ⊢; omega)
  have hq : q2 = q := by
    have := k5.trans l5.symm
    cases q <;> cases q2 <;> simp_all
  subst hq
  intro m1 q hx
  rw [k1] at hx
  cases hx
  cases q2 with
  | false =>
    rw [k4 rfl] at k1 ⊢
    rw [l4 rfl] at l1
    exact ⟨_, t.length, l1, by simp [hl], getSize_frame d t r1 _ hsz, getSize_frame d t r2 _ hsz, by simp, by simp, fun _ => rfl⟩
  | true =>
    obtain ⟨⟨o1, q1⟩, _⟩ := k6 rfl
    obtain ⟨⟨o2, p2⟩, _⟩ := l6 rfl
    refine ⟨m2', _, l1, by rw [k3, l3]; simp [hl], getSize_eq h hc q1, getSize_eq h hc p2, q1.le, ?_, by simp⟩
    obtain ⟨i1, i2, i3⟩ := k5.mp rfl
    unfold expand at k1 l1
    simp only [hvc, Bool.not_true, Bool.false_eq_true, if_false, getCount_eq h hc (hr _), Option.bind_eq_bind, Option.bind_some,
      getSize_eq h hc (hr _), hcd, Option.pure_def] at k1 l1
    have ho : ¬ slots + cs.length ≥ 4294967296 := by
      intro hh; rw [if_pos hh] at k1; cases k1
    rw [if_neg ho, if_neg (by omega)] at k1 l1
    by_cases hs : slots = 0
    · subst hs
      simp only [if_true, Option.some.injEq, Prod.mk.injEq, and_true] at k1 l1
      rw [← k1, ← l1]
      simp only [Nat.add_zero]
      rw [← hsum, List.take_left, List.take_left]
    · rw [if_neg hs] at k1 l1
      split at k1
      · cases k1
      · rename_i hf
        rw [if_neg hf] at l1
        have hag : Ag (fun j => j < 8 * t.length) (t ++ r1) (t ++ r2) := Ag.of_take (by simp [hl]) (by simp)
        obtain ⟨x1, e1, e2⟩ := Option.bind_eq_some_iff.mp k1
        obtain ⟨x2, e3, e4⟩ := Option.bind_eq_some_iff.mp e2
        simp only [Option.some.injEq, Prod.mk.injEq, and_true] at e4
        subst e4
        obtain ⟨y1, f1, f2⟩ := growBody_ag hcd hok r i1 (by omega) hag _ e1
        rw [f1] at l1
        simp only [Option.bind_some] at l1
        unfold putPrefix at e3 l1
        obtain ⟨y2, f3, f4⟩ := (whenB_ag f2 _ _ _ _).bind (fun a b hab => whenB_ag hab _ _ _ _) _ e3
        simp only [Option.bind_eq_bind] at l1
        rw [f3] at l1
        simp only [Option.bind_some, Option.some.injEq, Prod.mk.injEq, and_true] at l1
        subst l1
        exact f4.take fun j hj => hj

theorem expandElemI_stale (pa : List Nat) : ∀ {d ty c : Dti} {t r1 r2 : Bytes} {val : Val} {index slots inc : Nat},
    TyOk d → Enc d t val → d.typeAt pa = some ty → ty.isVarCount = true → ty.cont = some c →
    (∀ vs, val.at' pa = some (.node vs) → GrowPre ty vs.length slots) → r1.length = r2.length →
    min (t.length + inc) d.hdr.maxSize ≤ (t ++ r1).length →
    SameD d t.length (d.expandElemI (t ++ r1) index slots inc pa) (d.expandElemI (t ++ r2) index slots inc pa) := by
  induction pa with
  | nil =>
    intro d ty c t r1 r2 val index slots inc h he ht hvc hcd hg hl hroom
    simp only [typeAt, Option.some.injEq] at ht
    subst ht
    exact expand_stale h hvc hcd he (fun vs hh => hg vs (by rw [hh]; rfl)) hl hroom
  | cons i pa ih =>
    intro d ty c t r1 r2 val index slots inc h he ht hvc hcd hg hl hroom
    have htv := (typeAt_ok (i :: pa) h ht).2
    simp only [typeAt, Option.bind_eq_bind] at ht
    obtain ⟨ct, ht1, ht2⟩ := Option.bind_eq_some_iff.mp ht
    have hc : d.isCont = true := by
      cases hc : d.isCont with
      | true => rfl
      | false => simp [tyAtNoData, hc] at ht1
    obtain ⟨cs, o, vs, hval, r, hv⟩ := crep_of_enc h hc (Nat.le_refl t.length) (by rw [List.take_length]; exact he)
    subst hval
    have hcnt := fun x => getCount_frame d t x _ (getCount_eq h hc r)
    by_cases hlt : i < cs.length
    · have hty := tyAt_pos h r.countOk hlt ht1
      have hok := posOf_ok h hc r.countOk hlt
      have htok := (typeAt_ok pa (hty ▸ hok) ht2)
      have htvar : ty.isVar = true := (varCount_cont htok.1 hvc).2.1
      have hcv : (posOf d cs.length i).ty.isVar = true := by rw [hty]; exact htok.2 htvar
      have hmx := r.mx (htv htvar)
      have hp := fun x => posInfo_frame d t x i _ (posInfo_eq h hc r hlt)
      have hsz := fun x => getSize_frame d t x _ (getSize_eq h hc r)
      have hset : ∀ x, d.expandElemI (t ++ x) index slots inc (i :: pa) =
          (d.moveEnd (t ++ x) i (posOf d cs.length i)).bind fun x => (d.ptrAt x.1 (posOf d cs.length i)).bind fun y =>
          match y with
          | none => some (x.1, false)
          | some o => d.inChild x.1 (posOf d cs.length i) o true
            (fun c => expandElemI (posOf d cs.length i).ty c index slots (min inc (d.hdr.maxSize - t.length)) pa) := by
        intro x
        simp only [expandElemI, hc, hcnt, hp, hsz, sub32_eq hmx,
          Bool.not_true, Bool.false_eq_true, if_false, Option.bind_eq_bind, Option.bind_some, ge_iff_le,
          Nat.not_le.mpr hlt]
        rfl
      rw [hset, hset]
      refine stale_step h hc r hv hlt hcv hl (fun b y hy hb hbl => ?_)
      refine ih hok hb (by rw [hty]; exact ht2) hvc hcd ?_ hl (by simp only [List.length_append] at hroom ⊢; omega)
      intro vs' hvs'
      exact hg vs' (by simp only [Val.at', hy]; exact hvs')
    · have hge : i ≥ cs.length := by omega
      have hset : ∀ x, d.expandElemI (t ++ x) index slots inc (i :: pa) = some (t ++ x, false) := by
        intro x
        simp [expandElemI, hc, hcnt, hge]
      exact SameD.tail hl (hset r1) (hset r2) (getSize_eq h hc r) (by omega) (fun _ => rfl)

theorem discardElemI_stale {pa : List Nat} {d ty c : Dti} {t r1 r2 : Bytes} {val : Val} {index slots : Nat}
    (h : TyOk d) (he : Enc d t val) (ht : d.typeAt pa = some ty) (hvc : ty.isVarCount = true) (hcd : ty.cont = some c)
    (hg : c.isBit = true → c.eltBits ≤ 64) (hl : r1.length = r2.length) :
    SameD d t.length (d.discardElemI (t ++ r1) index slots pa) (d.discardElemI (t ++ r2) index slots pa) := by
  obtain ⟨m', q, S', val', k1, _, k3, k4, k5, k6, k7, k8, k9⟩ := discardElemI_ok pa (m := t) (S := t.length) (index := index) (slots := slots) h
    (Nat.le_refl _) (by rw [List.take_length]; exact he) ht hvc hcd hg
  have hfr := fun x => (discardElemI_frame index slots pa d t x _ _ k1).2
  exact SameD.tail hl (hfr r1) (hfr r2) (size_eq h (by omega) k5) (by omega) (fun hh => (k8 hh).1)

end Dti
end TS
