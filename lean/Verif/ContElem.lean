import Verif.ContSpot
/-
Setting an element anywhere inside of a tuple.
-/
namespace TS
namespace Dti

/-- The contract of setting the element at `pa` to `v` in the datum of type `d` and value `val` in
the first `S` bytes of `m`. -/
def SetOk (d t : Dti) (m : Bytes) (S : Nat) (val : Val) (inc : Nat) (v : Datum) (pa : List Nat) : Prop :=
  ∃ m' q S' val', d.setElemI m inc v t.isVar pa = some (m', q) ∧
    (∀ m2, S ≤ m2.length → m2.take S = m.take S → d.canSetElem m2 inc v pa = some q) ∧
    m'.length = m.length ∧ S' ≤ m.length ∧ Enc d (m'.take S') val' ∧ S' ≤ S + inc ∧
    (∀ x, S ≤ x → S' ≤ x → m'[x]? = m[x]?) ∧ (q = false → S' = S ∧ val' = val) ∧
    (t.isVar = false → S' = S) ∧
    (q = true → val.has pa ∧ ∃ y, EDen t v y ∧ val' = val.upd pa y)

/-- The contract, with where the other elements go. -/
def SetAt (d t : Dti) (m : Bytes) (S : Nat) (val : Val) (inc : Nat) (v : Datum) (pa : List Nat) : Prop :=
  ∃ m' q S' val', d.setElemI m inc v t.isVar pa = some (m', q) ∧
    (∀ m2, S ≤ m2.length → m2.take S = m.take S → d.canSetElem m2 inc v pa = some q) ∧
    m'.length = m.length ∧ S' ≤ m.length ∧ Enc d (m'.take S') val' ∧ S' ≤ S + inc ∧
    (∀ x, S ≤ x → S' ≤ x → m'[x]? = m[x]?) ∧ (q = false → S' = S ∧ val' = val) ∧
    (t.isVar = false → S' = S) ∧
    (q = true → val.has pa ∧ ∃ y, EDen t v y ∧ val' = val.upd pa y) ∧ Keeps d m S m' S' t.isVar pa

theorem SetAt.ok {d t : Dti} {m : Bytes} {S : Nat} {val : Val} {inc : Nat} {v : Datum} {pa : List Nat}
    (h : SetAt d t m S val inc v pa) : SetOk d t m S val inc v pa := by
  obtain ⟨m', q, S', val', k1, k2, k3, k4, k5, k6, k7, k8, k9, k10, _⟩ := h
  exact ⟨m', q, S', val', k1, k2, k3, k4, k5, k6, k7, k8, k9, k10⟩

theorem setElemI_at (pa : List Nat) : ∀ {d t : Dti} {m : Bytes} {S : Nat} {val : Val} {inc : Nat} {v : Datum},
    TyOk d → S ≤ m.length → Enc d (m.take S) val → d.typeAt pa = some t → (∃ y, EDen t v y) →
    (t.isVar = true → min (S + inc) d.hdr.maxSize ≤ m.length) → SetAt d t m S val inc v pa := by
  induction pa with
  | nil =>
    intro d t m S val inc v h hS he ht hd hroom
    simp only [typeAt, Option.some.injEq] at ht
    subst ht
    obtain ⟨z1, z2, z3, z4, z5, z6⟩ := enc_size h he
    have hl : (m.take S).length = S := by simp; omega
    rw [hl] at z1 z2 z3 z5 z6
    have hgs : ∀ m2 : Bytes, S ≤ m2.length → m2.take S = m.take S → d.getSize m2 = some S := by
      intro m2 hm hh
      have := getSize_at (d := d) (m := m2) (b := m.take S) (o := 0) (by rw [hl]; exact z1)
        (by rw [hl, rd_zero_eq_take, hh])
      rw [List.drop_zero, hl] at this; exact this
    unfold SetAt
    simp only [setElemI, canSetElem]
    cases hn : v.isNull with
    | true =>
      simp only [if_true]
      exact ⟨m, false, S, val, rfl, fun _ _ _ => rfl, rfl, hS, he, by omega, fun _ _ _ => rfl,
        fun _ => ⟨rfl, rfl⟩, fun _ => rfl, by simp, keeps_nil (hgs m hS rfl)⟩
    | false =>
      simp only [Bool.false_eq_true, if_false]
      simp only [EDen, hn, z4, Bool.false_eq_true, if_false] at hd
      obtain ⟨c', q, s1, s2, s3, s4, s5, s6⟩ := setDatum_ok (t := d) (c := m) (valid := true) (inc := inc)
        (old := S) (v := v) h z4 hn hd (fun _ => by simp only [oldSize, if_true]; exact hgs m hS rfl) hroom
        (fun hv => by rw [← z6 hv]; exact hS)
      rw [s1]
      have hcs : ∀ m2 : Bytes, S ≤ m2.length → m2.take S = m.take S → d.canSetDatum m2 true inc v = some q := by
        intro m2 hm hh
        rw [canSetDatum_congr (m := m), s2]
        intro _; simp only [oldSize, if_true]; rw [hgs m2 hm hh, hgs m hS rfl]
      cases q with
      | false =>
        have := s4 rfl; subst this
        exact ⟨c', false, S, val, rfl, hcs, rfl, hS, he, by omega, fun _ _ _ => rfl,
          fun _ => ⟨rfl, rfl⟩, fun _ => rfl, by simp, keeps_nil (hgs c' hS rfl)⟩
      | true =>
        obtain ⟨b, ⟨⟨y, w1, w2⟩, w3, w4⟩, w5⟩ := s6 rfl
        obtain ⟨k1, k2, k3, k4, k5, k6⟩ := enc_size h w1
        have hbl : b.length ≤ m.length := by
          cases hv : d.isVar with
          | true => have := w5 hv; have := hroom hv; have := k5 hv; omega
          | false => have := k6 hv; have := z6 hv; omega
        have henc : Enc d (c'.take b.length) y := by rw [← rd_zero_eq_take, w3]; exact w1
        refine ⟨c', true, b.length, y, rfl, hcs, s3, hbl, henc, ?_, fun x _ hx => w4 x hx, by simp, ?_,
          fun _ => ⟨by simp [Val.has], y, ?_, by simp [Val.upd]⟩, keeps_nil (size_eq h (by omega) henc)⟩
        · cases hv : d.isVar with
          | true => exact w5 hv
          | false => have := k6 hv; have := z6 hv; omega
        · intro hv; rw [k6 hv, z6 hv]
        · simp only [EDen, hn, z4, Bool.false_eq_true, if_false]; exact w2
  | cons i pa ih =>
    intro d t m S val inc v h hS he ht hd hroom
    simp only [typeAt, Option.bind_eq_bind] at ht
    obtain ⟨ct, ht1, ht2⟩ := Option.bind_eq_some_iff.mp ht
    have hc : d.isCont = true := by
      cases hc : d.isCont with
      | true => rfl
      | false => simp [tyAtNoData, hc] at ht1
    obtain ⟨cs, o, vs, hval, r, hv⟩ := crep_of_enc h hc hS he
    subst hval
    have hcong : ∀ m2 : Bytes, S ≤ m2.length → m2.take S = m.take S → CRep d m2 S cs o := by
      intro m2 h1 h2
      refine CRep.of_take h hc h1 ?_
      rw [h2]; exact r.take h hc
    have hcnt := getCount_eq h hc r
    have hfail : SetAt d t m S (.node vs) inc v (i :: pa) ∨ i < cs.length := by
      by_cases hlt : i < cs.length
      · right; exact hlt
      · left
        refine ⟨m, false, S, .node vs, ?_, ?_, rfl, hS, he, by omega, fun _ _ _ => rfl,
          fun _ => ⟨rfl, rfl⟩, fun _ => rfl, by simp, keeps_out h hc r hv (by omega)⟩
        · cases pa with
          | nil => simp [setElemI, setCont, hc, hcnt]; omega
          | cons j pa => simp [setElemI, hc, hcnt]; omega
        · intro m2 h1 h2
          have hcnt2 := getCount_eq h hc (hcong m2 h1 h2)
          cases pa with
          | nil => simp [canSetElem, canSetCont, hc, hcnt2]; omega
          | cons j pa => simp [canSetElem, hc, hcnt2]; omega
    rcases hfail with hfail | hlt
    · exact hfail
    have hty := tyAt_pos h r.countOk hlt ht1
    have hok := posOf_ok h hc r.countOk hlt
    have hi := List.getElem?_eq_getElem hlt
    generalize cs[i] = c at hi
    have hvi : ∃ y, vs[i]? = some y := ⟨_, List.getElem?_eq_getElem (by rw [hv.1]; exact hlt)⟩
    obtain ⟨yi, hvi⟩ := hvi
    have hvil : i < vs.length := by rw [hv.1]; exact hlt
    have hev := hv.2 i c yi hi hvi
    cases pa with
    | nil =>
      simp only [typeAt, Option.some.injEq] at ht2
      subst ht2
      rw [← hty] at hd hroom
      obtain ⟨m', q, S', c', o', k1, k2, k3, k4, k5, k6, k7, k8, k9, k10, k11⟩ := setContUnsafe_at (inc := inc) h hc r hi hd (by
        intro hh
        have := hroom hh
        have := r.mx (var_hasSize h hc r.countOk hlt hh).2
        omega)
      have hset : d.setElemI m inc v ct.isVar [i] = some (m', q) := by
        simp only [setElemI, setCont, hc, hcnt, Bool.not_true, Bool.false_eq_true, if_false,
          Option.bind_eq_bind, Option.bind_some, ge_iff_le, Nat.not_le.mpr hlt]
        exact k1
      have hcan : ∀ m2 : Bytes, S ≤ m2.length → m2.take S = m.take S → d.canSetElem m2 inc v [i] = some q := by
        intro m2 h1 h2
        have r2 := hcong m2 h1 h2
        simp only [canSetElem, canSetCont, hc, getCount_eq h hc r2, Bool.not_true, Bool.false_eq_true, if_false,
          Option.bind_eq_bind, Option.bind_some, ge_iff_le, Nat.not_le.mpr hlt]
        exact k2 m2 o r2
      have hle' : S' ≤ m.length := by rw [← k3]; exact k4.le
      have hstay : ct.isVar = false → ∀ j b, cs[j]? = some (.var b) → o' j = o j := by
        intro hm j b hj
        have hji : j ≠ i := by
          rintro rfl
          have := (r.elt j _ hj).1
          rw [hty, hm] at this; cases this
        rw [k10 j b hji hj]
        have hz : c.hlen = 0 := by
          cases c with
          | var b => have := (r.elt i _ hi).1; rw [hty, hm] at this; cases this
          | _ => rfl
        rw [hz, Nat.sub_zero, ite_self]
      have hkeep : ∀ vs', EVals d (cs.set i c') vs' → Keeps d m S m' S' ct.isVar [i] := by
        intro vs' hv'
        exact keeps_step h hc r hv k4 hv' hi (by rw [hty]; exact id) (fun _ => k10) hstay (fun _ => k11) (by simp)
      cases q with
      | false =>
        obtain ⟨g1, g2⟩ := k7 rfl
        subst g1; subst g2
        have hk := hkeep vs (by rw [list_set_same hi]; exact hv)
        rw [list_set_same hi] at k4
        exact ⟨m', false, S', .node vs, hset, hcan, k3, hle', enc_of_crep h hc k4 hv, k5, k6, fun _ => ⟨rfl, rfl⟩,
          fun _ => rfl, by simp, hk⟩
      | true =>
        obtain ⟨y, g1, g2⟩ := k9 rfl
        refine ⟨m', true, S', .node (vs.set i y), hset, hcan, k3, hle', enc_of_crep h hc k4 (hv.set g1), k5, k6,
          by simp, by rw [← hty]; exact k8, fun _ => ⟨by simp [Val.has, hvi], y, by rw [← hty]; exact g2, ?_⟩,
          hkeep _ (hv.set g1)⟩
        simp [Val.upd, hvi]
    | cons j pa =>
      -- the growth allowed inside
      have hinc : ∃ inc', inc' ≤ inc ∧ (d.isVar = true → S + inc' ≤ d.hdr.maxSize) ∧
          (t.isVar = true → S + inc' ≤ m.length) ∧
          (∀ {β : Type} (m2 : Bytes) (k : Nat → Option β), CRep d m2 S cs o →
            (if d.isVar then (d.getSize m2).bind fun s => (sub32 d.hdr.maxSize s).bind fun x => k (min inc x)
              else k inc) = k inc') := by
        cases hdv : d.isVar with
        | false =>
          refine ⟨inc, Nat.le_refl _, by simp, ?_, by simp⟩
          intro hh
          have := (typeAt_ok (i :: j :: pa) h (by simp only [typeAt, Option.bind_eq_bind]; exact ht)).2 hh
          rw [hdv] at this; cases this
        | true =>
          have hmx := r.mx hdv
          refine ⟨min inc (d.hdr.maxSize - S), by omega, fun _ => by omega, ?_, ?_⟩
          · intro hh; have := hroom hh; omega
          · intro β m2 k r2
            simp only [if_true, getSize_eq h hc r2, Option.bind_some, sub32_eq hmx]
      obtain ⟨inc', hi1, hi2, hi3, hi4⟩ := hinc
      -- moving the element to the end
      have hmove : ∃ m1 o1, (∀ {β : Type} (k : Bytes × Bool → Option β), (∀ x y z, k (x, y) = k (x, z)) →
            (if t.isVar then (d.moveEnd m i (posOf d cs.length i)).bind k else k (m, false)) = k (m1, false)) ∧
          CRep d m1 S cs o1 ∧ (t.isVar = true → ∀ b, c = .var b → o1 i + b.length = S) ∧
          m1.length = m.length ∧ (∀ x, S ≤ x → m1[x]? = m[x]?) ∧ (t.isVar = true → Shift cs i c o o1) ∧
          (t.isVar = false → o1 = o) := by
        cases htv : t.isVar with
        | false => exact ⟨m, o, by simp, r, by simp, rfl, fun _ _ => rfl, by simp, fun _ => rfl⟩
        | true =>
          obtain ⟨m1, q, o1, e1, e2, e3, e4, e5, e6⟩ := moveEnd_any h hc r hi
          refine ⟨m1, o1, ?_, e2, fun _ => e3, e4, e5, fun _ => e6, by simp⟩
          intro β k hk
          simp only [if_true, e1, Option.bind_some]
          exact hk _ _ _
      obtain ⟨m1, o1, f1, r1, f2, f3, f4, f5, f6⟩ := hmove
      have hmvv : t.isVar = true → (posOf d cs.length i).ty.isVar = true := fun hh => by
        rw [hty]; exact (typeAt_ok _ (hty ▸ hok) ht2).2 hh
      have hset : d.setElemI m inc v t.isVar (i :: j :: pa) =
          (match eltPtr d (posOf d cs.length i) (o1 i) c with
          | none => some (m1, false)
          | some o => d.inChild m1 (posOf d cs.length i) o t.isVar
              (fun c => setElemI (posOf d cs.length i).ty c inc' v t.isVar (j :: pa))) := by
        simp only [setElemI, hc, hcnt, Bool.not_true, Bool.false_eq_true, if_false,
          Option.bind_eq_bind, Option.bind_some, ge_iff_le, Nat.not_le.mpr hlt, Option.pure_def]
        have := hi4 m (fun inc => (d.posInfo m i).bind fun p =>
          if t.isVar then (d.moveEnd m i p).bind fun x => (d.ptrAt x.1 p).bind fun y =>
            match y with
            | none => some (x.1, false)
            | some o => d.inChild x.1 p o t.isVar fun c => setElemI p.ty c inc v t.isVar (j :: pa)
          else (d.ptrAt m p).bind fun y =>
            match y with
            | none => some (m, false)
            | some o => d.inChild m p o t.isVar fun c => setElemI p.ty c inc v t.isVar (j :: pa)) r
        refine Eq.trans ?_ (Eq.trans this ?_)
        · rfl
        · rw [posInfo_eq h hc r hlt]
          simp only [Option.bind_some]
          have := f1 (fun x => (d.ptrAt x.1 (posOf d cs.length i)).bind fun y =>
            match y with
            | none => some (x.1, false)
            | some o => d.inChild x.1 (posOf d cs.length i) o t.isVar fun c =>
              setElemI (posOf d cs.length i).ty c inc' v t.isVar (j :: pa)) (fun _ _ _ => rfl)
          refine Eq.trans ?_ (Eq.trans this ?_)
          · rfl
          · simp only [ptrAt_eq h hc r1 hi, Option.bind_some]
      have hcan : ∀ (q : Bool) (m2 : Bytes), S ≤ m2.length → m2.take S = m.take S →
          (match eltPtr d (posOf d cs.length i) (o i) c with
            | none => some false
            | some o => canSetElem (posOf d cs.length i).ty (m2.drop o) inc' v (j :: pa)) = some q →
          d.canSetElem m2 inc v (i :: j :: pa) = some q := by
        intro q m2 h1 h2 hq
        have r2 := hcong m2 h1 h2
        simp only [canSetElem, hc, getCount_eq h hc r2, Bool.not_true, Bool.false_eq_true, if_false,
          Option.bind_eq_bind, Option.bind_some, ge_iff_le, Nat.not_le.mpr hlt, Option.pure_def]
        have := hi4 m2 (fun inc => (d.posInfo m2 i).bind fun p => (d.ptrAt m2 p).bind fun y =>
            match y with
            | none => some false
            | some o => canSetElem p.ty (m2.drop o) inc v (j :: pa)) r2
        refine Eq.trans ?_ (Eq.trans this ?_)
        · rfl
        · rw [posInfo_eq h hc r2 hlt]
          simp only [Option.bind_some, ptrAt_eq h hc r2 hi]
          exact hq
      have hfe := fixedEnd_le r1
      have hle1 := r1.le
      cases c with
      | null =>
        simp only [eltPtr] at hset hcan
        have hk : Keeps d m S m1 S t.isVar (i :: j :: pa) :=
          keeps_step h hc r hv (c' := .null) (by rw [list_set_same hi]; exact r1) (by rw [list_set_same hi]; exact hv) hi
            hmvv f5 (fun hh _ _ _ => by rw [f6 hh]) (by simp) (fun _ => Or.inl (by simp))
        exact ⟨m1, false, S, .node vs, hset, fun m2 h1 h2 => hcan false m2 h1 h2 rfl, f3, hS,
          enc_of_crep h hc r1 hv, by omega, fun x hx _ => f4 x hx, fun _ => ⟨rfl, rfl⟩, fun _ => rfl, by simp, hk⟩
      | bits w =>
        exfalso
        have hb := (r.elt i _ hi).1
        rw [hty] at hb
        cases ct with
        | prim => simp [typeAt, tyAtNoData, isCont] at ht2
        | _ => simp [isBit] at hb
      | fixd b =>
        obtain ⟨b1, b2, b3, b4⟩ := r1.elt i _ hi
        have hctv : t.isVar = false := by
          cases htv : t.isVar with
          | false => rfl
          | true =>
            have := (typeAt_ok _ (hty ▸ hok) ht2).2 htv
            rw [← hty, b2] at this; cases this
        have hlay := lay_of h hc r.countOk
        have hfx := hlay.fx i hlt b1
        simp only [slot, b2, Bool.false_eq_true, if_false] at hfx
        have hsz := (enc_size hok hev).2.2.2.2.2 b2
        have htk : ∀ m2 : Bytes, rd m2 (posOf d cs.length i).off (posOf d cs.length i).ty.hdr.size = b →
            (m2.drop (posOf d cs.length i).off).take b.length = b := by
          intro m2 hh; rw [hsz]; exact hh
        obtain ⟨c', q, Sc, yc, k1, k2, k3, k4, k5, k6, k7, k8, k9, k10, k11⟩ :=
          ih (d := (posOf d cs.length i).ty) (t := t) (m := m1.drop (posOf d cs.length i).off) (S := b.length)
            (val := yi) (inc := inc') (v := v) hok (by simp; omega) (by rw [htk m1 b4]; exact hev)
            (by rw [hty]; exact ht2) hd (by rw [hctv]; intro hh; cases hh)
        have hSc := k9 hctv
        subst hSc
        have hget : ∀ x, (m1.take (posOf d cs.length i).off ++ c')[x]? =
            if x < (posOf d cs.length i).off then m1[x]? else c'[x - (posOf d cs.length i).off]? :=
          fun x => atOff_get (by omega)
        have hout : ∀ x, x < (posOf d cs.length i).off ∨
            (posOf d cs.length i).off + (posOf d cs.length i).ty.hdr.size ≤ x →
            (m1.take (posOf d cs.length i).off ++ c')[x]? = m1[x]? := by
          intro x hx
          rw [hget]
          split
          · rfl
          · rw [k7 _ (by omega) (by omega), List.getElem?_drop]; congr 1; omega
        have hlen : (m1.take (posOf d cs.length i).off ++ c').length = m1.length := by
          simp only [List.length_append, List.length_take, k3, List.length_drop]; omega
        have hset2 : d.setElemI m inc v t.isVar (i :: j :: pa) = some (m1.take (posOf d cs.length i).off ++ c', q) := by
          rw [hset]
          simp only [eltPtr]
          rw [hctv] at k1 ⊢
          simp only [inChild, Bool.false_eq_true, if_false, atOff, k1, Option.bind_eq_bind, Option.bind_some,
            Option.pure_def]
        have hcan2 : ∀ m2 : Bytes, S ≤ m2.length → m2.take S = m.take S →
            d.canSetElem m2 inc v (i :: j :: pa) = some q := by
          intro m2 h1 h2
          refine hcan q m2 h1 h2 ?_
          simp only [eltPtr]
          have r2 := hcong m2 h1 h2
          exact k2 _ (by simp; omega) (by rw [htk m2 (r2.elt i _ hi).2.2.2, htk m1 b4])
        have hbits : ∀ k, k < bitsOf d cs.length →
            bit (m1.take (posOf d cs.length i).off ++ c') d.offBitmap k = bit m1 d.offBitmap k := by
          intro k hk
          apply bit_congr
          apply hout
          unfold bitmapBytes at hfx
          omega
        have hrep : CRep d (m1.take (posOf d cs.length i).off ++ c') S (cs.set i (.fixd (c'.take b.length))) o1 := by
          refine r1.updFixed h hc hi rfl rfl (by intro b hb; cases hb) hlen (fun k hk _ => hbits k hk) ?_ ?_
          · intro x hx hnot
            simp only [slot, b2, b1, Bool.false_eq_true, if_false, true_and] at hnot
            exact hout _ (by omega)
          · refine ⟨b1, b2, ?_, ?_⟩
            · intro hnv; rw [hbits _ (hlay.vb i hlt hnv)]; exact b3 hnv
            · rw [← hsz, show c'.take b.length = rd c' 0 b.length from (rd_zero_eq_take ..).symm]
              apply rd_ext
              intro x hx
              rw [hget, if_neg (by omega)]; congr 1; omega
        have hencs := enc_of_crep h hc hrep (hv.set (c' := .fixd (c'.take b.length)) (y' := yc) k5)
        have hcl : (c'.take b.length).length = b.length := by simp [k3]; omega
        have hk : Keeps d m S (m1.take (posOf d cs.length i).off ++ c') S t.isVar (i :: j :: pa) := by
          refine keeps_step h hc r hv hrep (hv.set (c' := .fixd (c'.take b.length)) (y' := yc) k5) hi hmvv f5
            (fun hh _ _ _ => by rw [f6 hh]) (by simp) (fun _ => Or.inr ⟨b, c'.take b.length, Or.inr ⟨rfl, rfl⟩, ?_⟩)
          rw [hcl]
          exact keeps_congr hok (by simp; omega) (Nat.le_refl _) (by rw [List.take_length, htk m1 b4])
            (by rw [htk m1 b4]; exact hev) (by simp [k3]; omega) (by rw [hcl]; exact Nat.le_refl _)
            (by rw [List.take_take, Nat.min_self]) k5 k11
        refine ⟨_, q, S, .node (vs.set i yc), hset2, hcan2, by rw [hlen, f3], hS, hencs, by omega, ?_, ?_,
          fun _ => rfl, ?_, hk⟩
        · intro x hx _; rw [hout x (Or.inr (by omega))]; exact f4 x hx
        · intro hq
          refine ⟨rfl, ?_⟩
          rw [(k8 hq).2]
          congr 1
          apply List.ext_getElem?
          intro l
          rw [List.getElem?_set]
          split
          · rename_i hil; subst hil; rw [hvi]
          · rfl
        · intro hq
          obtain ⟨g1, y, g2, g3⟩ := k10 hq
          refine ⟨by simp only [Val.has, hvi]; exact g1, y, g2, ?_⟩
          simp only [Val.upd, hvi, g3]
      | var b =>
        obtain ⟨b1, b2, b3, b4, b5, b6, b7⟩ := r1.elt i _ hi
        have hbnb := isVar_not_bit hok b1
        have hlay := lay_of h hc r.countOk
        have hfx := hlay.fx i hlt hbnb
        simp only [slot, b1, if_true] at hfx
        have hvs := var_hasSize h hc r.countOk hlt b1
        have hob : d.w ≤ d.offBitmap := by simp [offBitmap, offCountP, hvs.1]
        have htk : ∀ (m2 : Bytes) (a : Nat), rd m2 a b.length = b → (m2.drop a).take b.length = b := by
          intro m2 a hh; exact hh
        obtain ⟨c', q, Sc, yc, k1, k2, k3, k4, k5, k6, k7, k8, k9, k10, k11⟩ :=
          ih (d := (posOf d cs.length i).ty) (t := t) (m := m1.drop (o1 i)) (S := b.length)
            (val := yi) (inc := inc') (v := v) hok (by simp; omega) (by rw [htk m1 _ b5]; exact hev)
            (by rw [hty]; exact ht2) hd (by
              intro hh
              have h1 := hi3 hh
              have h2 := f2 hh b rfl
              simp only [List.length_drop]
              omega)
        have hget : ∀ x, (m1.take (o1 i) ++ c')[x]? = if x < o1 i then m1[x]? else c'[x - o1 i]? :=
          fun x => atOff_get (by omega)
        have hlen : (m1.take (o1 i) ++ c').length = m1.length := by
          simp only [List.length_append, List.length_take, k3, List.length_drop]; omega
        have hcan2 : ∀ m2 : Bytes, S ≤ m2.length → m2.take S = m.take S →
            d.canSetElem m2 inc v (i :: j :: pa) = some q := by
          intro m2 h1 h2
          refine hcan q m2 h1 h2 ?_
          simp only [eltPtr]
          have e2 := (hcong m2 h1 h2).elt i _ hi
          exact k2 _ (by simp; have := e2.2.2.2.1; omega) (by rw [htk m2 _ e2.2.2.2.2.1, htk m1 _ b5])
        obtain ⟨z1, z2, z3, z4, z5, z6⟩ := enc_size hok k5
        have hScl : (c'.take Sc).length = Sc := by simp [k3] at *; omega
        rw [hScl] at z1 z2 z3 z5 z6
        have hrd : rd (m1.take (o1 i) ++ c') (o1 i) Sc = c'.take Sc := by
          rw [show c'.take Sc = rd c' 0 Sc from (rd_zero_eq_take ..).symm]
          apply rd_ext
          intro x hx
          rw [hget, if_neg (by omega)]; congr 1; omega
        -- in place
        have hplace : Sc = b.length → CRep d (m1.take (o1 i) ++ c') S (cs.set i (.var (c'.take Sc))) o1 := by
          intro hsc
          refine r1.updPlace h hc hi (by rw [hScl, hsc]) (by rw [hScl]; exact z1) hlen ?_ (by rw [hScl]; exact hrd)
          intro x hx
          rw [hget]
          split
          · rfl
          · rw [k7 _ (by omega) (by omega), List.getElem?_drop]; congr 1; omega
        have hhigh : ∀ x, S ≤ x → o1 i + Sc ≤ x → (m1.take (o1 i) ++ c')[x]? = m[x]? := by
          intro x h1 h2
          rw [hget, if_neg (by omega), k7 _ (by omega) (by omega), List.getElem?_drop,
            show o1 i + (x - o1 i) = x by omega]
          exact f4 x h1
        have hvset : vs.set i yi = vs := by
          apply List.ext_getElem?
          intro l
          rw [List.getElem?_set]
          split
          · rename_i hil; subst hil; rw [hvi]
          · rfl
        have hupd : q = true → (Val.node vs).has (i :: j :: pa) ∧
            ∃ y, EDen t v y ∧ Val.node (vs.set i yc) = (Val.node vs).upd (i :: j :: pa) y := by
          intro hq
          obtain ⟨g1, y, g2, g3⟩ := k10 hq
          refine ⟨by simp only [Val.has, hvi]; exact g1, y, g2, ?_⟩
          simp only [Val.upd, hvi, g3]
        have hevs := hv.set (i := i) (c' := .var (c'.take Sc)) (y' := yc) k5
        have hck : Keeps (posOf d cs.length i).ty b b.length (c'.take Sc) (c'.take Sc).length t.isVar (j :: pa) := by
          rw [hScl]
          exact keeps_congr hok (by simp; omega) (Nat.le_refl _) (by rw [List.take_length, htk m1 _ b5])
            (by rw [htk m1 _ b5]; exact hev) (by rw [k3]; exact k4) (by rw [hScl]; exact Nat.le_refl _)
            (by rw [List.take_take, Nat.min_self]) k5 k11
        have hkeep : ∀ m' S' o', CRep d m' S' (cs.set i (.var (c'.take Sc))) o' → (∀ j, o' j = o1 j) →
            (t.isVar = true → o1 i + Sc = S') → Keeps d m S m' S' t.isVar (i :: j :: pa) := by
          intro m' S' o' r' ho hS'
          refine keeps_step h hc r hv r' hevs hi hmvv (fun hh l x hl hx => by rw [ho]; exact f5 hh l x hl hx)
            (fun hh _ _ _ => by rw [ho, f6 hh]) ?_ (fun _ => Or.inr ⟨b, c'.take Sc, Or.inl ⟨rfl, rfl⟩, hck⟩)
          intro hh x hx
          cases hx
          rw [ho, hScl]; exact hS' hh
        cases htv : t.isVar with
        | false =>
          have hsc := k9 htv
          have hset2 : d.setElemI m inc v t.isVar (i :: j :: pa) = some (m1.take (o1 i) ++ c', q) := by
            rw [hset]
            simp only [eltPtr]
            rw [htv] at k1 ⊢
            simp only [inChild, Bool.false_eq_true, if_false, atOff, k1, Option.bind_eq_bind, Option.bind_some,
              Option.pure_def]
          refine ⟨_, q, S, .node (vs.set i yc), hset2, hcan2, by rw [hlen, f3], hS,
            enc_of_crep h hc (hplace hsc) hevs, by omega, ?_, ?_, fun _ => rfl, hupd,
            htv ▸ hkeep _ _ _ (hplace hsc) (fun _ => rfl) (by rw [htv]; intro hh; cases hh)⟩
          · intro x hx _; exact hhigh x hx (by omega)
          · intro hq; exact ⟨rfl, by rw [(k8 hq).2, hvset]⟩
        | true =>
          have hend := f2 htv b rfl
          have hsz1 : d.sizeAt m1 (posOf d cs.length i) = some b.length := by
            unfold sizeAt
            rw [ptrAt_eq h hc r1 hi]
            simp only [hbnb, b1, Bool.false_eq_true, if_false, Bool.not_true, Option.bind_eq_bind,
              Option.bind_some, eltPtr]
            exact elt_size r1 hi
          cases q with
          | false =>
            obtain ⟨g1, g2⟩ := k8 rfl
            have hset2 : d.setElemI m inc v t.isVar (i :: j :: pa) = some (m1.take (o1 i) ++ c', false) := by
              rw [hset]
              simp only [eltPtr]
              rw [htv] at k1 ⊢
              simp only [inChild, if_true, atOff, k1, Option.bind_eq_bind, Option.bind_some,
                Option.pure_def, getSize_eq h hc r1, hsz1, Bool.false_eq_true, if_false]
            refine ⟨_, false, S, .node (vs.set i yc), hset2, hcan2, by rw [hlen, f3], hS,
              enc_of_crep h hc (hplace g1) hevs, by omega, ?_, ?_, fun _ => rfl, hupd,
              htv ▸ hkeep _ _ _ (hplace g1) (fun _ => rfl) (fun _ => by omega)⟩
            · intro x hx _; exact hhigh x hx (by omega)
            · intro hq; exact ⟨rfl, by rw [g2, hvset]⟩
          | true =>
            have hword : d.word (m1.take (o1 i) ++ c') (posOf d cs.length i).off = o1 i := by
              refine Eq.trans ?_ b2
              unfold word
              congr 1
              apply rd_ext
              intro x hx
              rw [hget, if_pos (by omega)]
            have hptr2 : d.ptrAt (m1.take (o1 i) ++ c') (posOf d cs.length i) = some (some (o1 i)) := by
              unfold ptrAt
              have hww : loadVal (m1.take (o1 i) ++ c') d.hdr.maxSize (posOf d cs.length i).off = some (o1 i) := by
                rw [word_eq rfl (by rw [hlen]; omega), hword]
              have hne : o1 i ≠ 0 := by have := fixedEnd_pos h hc r.countOk hlt b1; omega
              simp [not_var_needs b1, hbnb, b1, hww, hne]
            have hsz2 : d.sizeAt (m1.take (o1 i) ++ c') (posOf d cs.length i) = some Sc := by
              unfold sizeAt
              rw [hptr2]
              simp only [hbnb, b1, Bool.false_eq_true, if_false, Bool.not_true, Option.bind_eq_bind,
                Option.bind_some]
              have := getSize_at (d := (posOf d cs.length i).ty) (m := m1.take (o1 i) ++ c') (b := c'.take Sc)
                (o := o1 i) (by rw [hScl]; exact z1) (by rw [hScl]; exact hrd)
              rw [this, hScl]
            have hmx := r1.mx hvs.2
            have hlimd := (h.maxSize hvs.2).2
            unfold lim at hlimd
            have hS'mx : o1 i + Sc ≤ d.hdr.maxSize := by have := hi2 hvs.2; omega
            have hS'le : o1 i + Sc ≤ m1.length := by have := hi3 htv; omega
            have hset2 : d.setElemI m inc v t.isVar (i :: j :: pa) =
                some (wr (m1.take (o1 i) ++ c') 0 (leEnc d.w (o1 i + Sc)), true) := by
              rw [hset]
              simp only [eltPtr]
              rw [htv] at k1 ⊢
              have hww : vsz d.hdr.maxSize = d.w := rfl
              simp only [inChild, if_true, atOff, k1, Option.bind_eq_bind, Option.bind_some,
                Option.pure_def, getSize_eq h hc r1, hsz1, hsz2]
              rw [sub32_eq (by omega), show S - b.length = o1 i by omega]
              simp only [Option.bind_some]
              rw [u32_eq (by omega)]
              simp only [Option.bind_some, overwriteSize, hvs.1, Bool.not_true, Bool.false_eq_true, if_false]
              rw [if_neg (by omega)]
              unfold storeVal
              rw [hww, store_eq (by simp only [leEnc_length, hlen]; omega)]
              rfl
            have hg3 : ∀ x, d.w ≤ x → (wr (m1.take (o1 i) ++ c') 0 (leEnc d.w (o1 i + Sc)))[x]? =
                (m1.take (o1 i) ++ c')[x]? := by
              intro x hx; rw [wr_getElem?, if_neg (by simp only [leEnc_length]; omega)]
            have hrep : CRep d (wr (m1.take (o1 i) ++ c') 0 (leEnc d.w (o1 i + Sc))) (o1 i + Sc)
                (cs.set i (.var (c'.take Sc))) (fun j => if j = i then o1 i else o1 j) := by
              refine r1.updEnd h hc (c := .var b) (T := o1 i) hi b1 (by simp only [Elt.hlen]; omega)
                (fun _ _ => rfl) (by simp only [Elt.hlen, hScl]) (by omega) (by rw [wr_length, hlen]) (by omega) ?_ ?_ ?_
              · exact size_word (by rw [hlen]; omega)
              · intro x h1 h2 h3
                rw [hg3 x h2, hget, if_pos h1]
              · refine ⟨b1, ?_, b3, by rw [hScl]; omega, ?_, by rw [hScl]; exact z2, by rw [hScl]; exact z1⟩
                · have : d.word (wr (m1.take (o1 i) ++ c') 0 (leEnc d.w (o1 i + Sc))) (posOf d cs.length i).off =
                      d.word (m1.take (o1 i) ++ c') (posOf d cs.length i).off := by
                    unfold word; congr 1; apply rd_ext; intro x hx; exact hg3 _ (by omega)
                  rw [this, hword]
                · rw [hScl, ← hrd]
                  apply rd_ext
                  intro x hx
                  exact hg3 _ (by omega)
            refine ⟨_, true, o1 i + Sc, .node (vs.set i yc), hset2, hcan2, by rw [wr_length, hlen, f3], by omega,
              enc_of_crep h hc hrep hevs, by omega, ?_, by simp, (fun hh => by simp [htv] at hh), hupd,
              htv ▸ hkeep _ _ _ hrep (fun l => by by_cases hl : l = i <;> simp only [hl, if_true, if_false]) (fun _ => rfl)⟩
            intro x hx1 hx2
            rw [hg3 x (by omega)]
            exact hhigh x hx1 hx2

theorem setElemI_ok (pa : List Nat) {d t : Dti} {m : Bytes} {S : Nat} {val : Val} {inc : Nat} {v : Datum}
    (h : TyOk d) (hS : S ≤ m.length) (he : Enc d (m.take S) val) (ht : d.typeAt pa = some t) (hd : ∃ y, EDen t v y)
    (hroom : t.isVar = true → min (S + inc) d.hdr.maxSize ≤ m.length) : SetOk d t m S val inc v pa :=
  (setElemI_at pa h hS he ht hd hroom).ok

end Dti
end TS
