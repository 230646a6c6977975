import Verif.ContShrink
import Verif.ContGet
/-
Inserting and removing slots anywhere inside of a tuple.
-/
namespace TS
namespace Dti

/-- The contract of a change of the datum of type `d` and value `val` in the first `S` bytes of
`m`; `res` is the result of the change, `can` the function that predicts it. -/
def ResizeOk (d : Dti) (m : Bytes) (S inc : Nat) (val : Val) (res : Option (Bytes × Bool))
    (can : Bytes → Option Bool) (R : Val → Val → Prop) : Prop :=
  ∃ m' q S' val', res = some (m', q) ∧
    (∀ m2 : Bytes, S ≤ m2.length → m2.take S = m.take S → can m2 = some q) ∧
    m'.length = m.length ∧ S' ≤ m.length ∧ Enc d (m'.take S') val' ∧ S' ≤ S + inc ∧
    (∀ x, S ≤ x → S' ≤ x → m'[x]? = m[x]?) ∧ (q = false → S' = S ∧ val' = val) ∧
    (q = true → R val val')

/-- The contract, with where the elements other than those at and inside of `pa` go. -/
def ResizeAt (d : Dti) (m : Bytes) (S inc : Nat) (val : Val) (res : Option (Bytes × Bool))
    (can : Bytes → Option Bool) (R : Val → Val → Prop) (pa : List Nat) : Prop :=
  ∃ m' q S' val', res = some (m', q) ∧
    (∀ m2 : Bytes, S ≤ m2.length → m2.take S = m.take S → can m2 = some q) ∧
    m'.length = m.length ∧ S' ≤ m.length ∧ Enc d (m'.take S') val' ∧ S' ≤ S + inc ∧
    (∀ x, S ≤ x → S' ≤ x → m'[x]? = m[x]?) ∧ (q = false → S' = S ∧ val' = val) ∧
    (q = true → R val val') ∧ Keeps d m S m' S' true pa

theorem ResizeAt.ok {d : Dti} {m : Bytes} {S inc : Nat} {val : Val} {res : Option (Bytes × Bool)}
    {can : Bytes → Option Bool} {R : Val → Val → Prop} {pa : List Nat} (h : ResizeAt d m S inc val res can R pa) :
    ResizeOk d m S inc val res can R := by
  obtain ⟨m', q, S', val', k1, k2, k3, k4, k5, k6, k7, k8, k9, _⟩ := h
  exact ⟨m', q, S', val', k1, k2, k3, k4, k5, k6, k7, k8, k9⟩

/-- Nothing of the rest is changed by a change of the whole. -/
theorem ResizeOk.whole {d : Dti} {m : Bytes} {S inc : Nat} {val : Val} {res : Option (Bytes × Bool)}
    {can : Bytes → Option Bool} {R : Val → Val → Prop} (hd : TyOk d) (h : ResizeOk d m S inc val res can R) :
    ResizeAt d m S inc val res can R [] := by
  obtain ⟨m', q, S', val', k1, k2, k3, k4, k5, k6, k7, k8, k9⟩ := h
  exact ⟨m', q, S', val', k1, k2, k3, k4, k5, k6, k7, k8, k9, keeps_nil (size_eq hd (by omega) k5)⟩

theorem list_set_val {vs : List Val} {i : Nat} {y : Val} (h : vs[i]? = some y) : vs.set i y = vs := by
  apply List.ext_getElem?
  intro l
  rw [List.getElem?_set]
  split
  · rename_i hil; subst hil; rw [h]; simp [(List.getElem?_eq_some_iff.mp h).1]
  · rfl

section
variable {d : Dti} {m m' : Bytes} {S : Nat} {cs : List Elt} {o : Nat → Nat} {vs : List Val}

/-- A change of the variable sized element `i` is a change of its container. -/
theorem resize_step (h : TyOk d) (hc : d.isCont = true) (r : CRep d m S cs o) (hv : EVals d cs vs) {i : Nat}
    (hlt : i < cs.length) (hcv : (posOf d cs.length i).ty.isVar = true) {inc : Nat}
    (hmxi : S + inc ≤ d.hdr.maxSize) (hroom : S + inc ≤ m.length) {f : Bytes → Option (Bytes × Bool)}
    {can : Bytes → Option Bool} {R : Val → Val → Prop} {pa : List Nat}
    (hchild : ∀ (mc b : Bytes) y, vs[i]? = some y → mc.take b.length = b → Enc (posOf d cs.length i).ty b y →
      b.length + inc ≤ mc.length → ResizeAt (posOf d cs.length i).ty mc b.length inc y (f mc) can R pa) :
    ResizeAt d m S inc (.node vs)
      ((d.moveEnd m i (posOf d cs.length i)).bind fun x => (d.ptrAt x.1 (posOf d cs.length i)).bind fun y =>
        match y with
        | none => some (x.1, false)
        | some o => d.inChild x.1 (posOf d cs.length i) o true f)
      (fun m2 => (d.ptrAt m2 (posOf d cs.length i)).bind fun y =>
        match y with
        | none => some false
        | some o => can (m2.drop o))
      (fun v v' => ∃ vs y y', v = .node vs ∧ vs[i]? = some y ∧ R y y' ∧ v' = .node (vs.set i y')) (i :: pa) := by
  have hcong : ∀ m2 : Bytes, S ≤ m2.length → m2.take S = m.take S → CRep d m2 S cs o := by
    intro m2 h1 h2
    refine CRep.of_take h hc h1 ?_
    rw [h2]; exact r.take h hc
  have hok := posOf_ok h hc r.countOk hlt
  have hi := List.getElem?_eq_getElem hlt
  generalize cs[i] = c at hi
  have hvi : ∃ y, vs[i]? = some y := ⟨_, List.getElem?_eq_getElem (by rw [hv.1]; exact hlt)⟩
  obtain ⟨yi, hvi⟩ := hvi
  have hev := hv.2 i c yi hi hvi
  obtain ⟨m1, q1, o1, e1, r1, f2, f3, f4, f5⟩ := moveEnd_any h hc r hi
  unfold ResizeAt
  simp only [e1, Option.bind_some, ptrAt_eq h hc r1 hi]
  rcases var_elt h hc r hi hcv with rfl | ⟨b, rfl⟩
  · refine ⟨m1, false, S, .node vs, rfl, ?_, f3, r.le, enc_of_crep h hc r1 hv, by omega, fun x hx _ => f4 x hx,
      fun _ => ⟨rfl, rfl⟩, by simp, ?_⟩
    case' refine_2 =>
      exact keeps_step h hc r hv (c' := .null) (by rw [list_set_same hi]; exact r1) (by rw [list_set_same hi]; exact hv) hi
        (fun _ => hcv) (fun _ => f5) (by simp) (by simp) (fun _ => Or.inl (by simp))
    intro m2 h1 h2
    rw [ptrAt_eq h hc (hcong m2 h1 h2) hi]; rfl
  · obtain ⟨b1, b2, b3, b4, b5, b6, b7⟩ := r1.elt i _ hi
    have hfe := fixedEnd_le r1
    have hle1 := r1.le
    have hbnb := isVar_not_bit hok b1
    have hlay := lay_of h hc r.countOk
    have hfx := hlay.fx i hlt hbnb
    simp only [slot, b1, if_true] at hfx
    have hvs := var_hasSize h hc r.countOk hlt b1
    have hob : d.w ≤ d.offBitmap := by simp [offBitmap, offCountP, hvs.1]
    have htk : ∀ (m2 : Bytes) (a : Nat), rd m2 a b.length = b → (m2.drop a).take b.length = b := by
      intro m2 a hh; exact hh
    have hend := f2 b rfl
    obtain ⟨c', q, Sc, yc, k1, k2, k3, k4, k5, k6, k7, k8, k9, k10⟩ :=
      hchild (m1.drop (o1 i)) b yi hvi (htk m1 _ b5) hev (by simp only [List.length_drop]; omega)
    have hget : ∀ x, (m1.take (o1 i) ++ c')[x]? = if x < o1 i then m1[x]? else c'[x - o1 i]? :=
      fun x => atOff_get (by omega)
    have hlen : (m1.take (o1 i) ++ c').length = m1.length := by
      simp only [List.length_append, List.length_take, k3, List.length_drop]; omega
    have hcan2 : ∀ m2 : Bytes, S ≤ m2.length → m2.take S = m.take S →
        ((d.ptrAt m2 (posOf d cs.length i)).bind fun y =>
          match y with
          | none => some false
          | some o => can (m2.drop o)) = some q := by
      intro m2 h1 h2
      have r2 := hcong m2 h1 h2
      rw [ptrAt_eq h hc r2 hi]
      have e2 := r2.elt i _ hi
      exact k2 _ (by simp; have := e2.2.2.2.1; omega) (by rw [htk m2 _ e2.2.2.2.2.1, htk m1 _ b5])
    obtain ⟨z1, z2, z3, z4, z5, z6⟩ := enc_size hok k5
    have hScl : (c'.take Sc).length = Sc := by simp [k3] at *; omega
    rw [hScl] at z1 z2 z3 z5 z6
    have hrd : rd (m1.take (o1 i) ++ c') (o1 i) Sc = c'.take Sc := by
      rw [show c'.take Sc = rd c' 0 Sc from (rd_zero_eq_take ..).symm]
      apply rd_ext
      intro x hx
      rw [hget, if_neg (by omega)]; congr 1; omega
    have hplace : Sc = b.length → CRep d (m1.take (o1 i) ++ c') S (cs.set i (.var (c'.take Sc))) o1 := by
      intro hsc
      refine r1.updPlace h hc hi (by rw [hScl, hsc]) (by rw [hScl]; exact z1) hlen ?_ (by rw [hScl]; exact hrd)
      intro x hx
      rw [hget]
      split
      · rfl
      · rw [k7 _ (by omega) (by omega), List.getElem?_drop]; congr 1; omega
    have hhigh : ∀ x, S ≤ x → o1 i + Sc ≤ x → (m1.take (o1 i) ++ c')[x]? = m[x]? := by
      intro x h1 h2
      rw [hget, if_neg (by omega), k7 _ (by omega) (by omega), List.getElem?_drop,
        show o1 i + (x - o1 i) = x by omega]
      exact f4 x h1
    have hevs := hv.set (i := i) (c' := .var (c'.take Sc)) (y' := yc) k5
    have hck : Keeps (posOf d cs.length i).ty b b.length (c'.take Sc) (c'.take Sc).length true pa := by
      rw [hScl]
      exact keeps_congr hok (by simp; omega) (Nat.le_refl _) (by rw [List.take_length, htk m1 _ b5])
        (by rw [htk m1 _ b5]; exact hev) (by rw [k3]; exact k4) (by rw [hScl]; exact Nat.le_refl _)
        (by rw [List.take_take, Nat.min_self]) k5 k10
    have hkeep : ∀ m' S' o', CRep d m' S' (cs.set i (.var (c'.take Sc))) o' → (∀ j, o' j = o1 j) →
        o1 i + Sc = S' → Keeps d m S m' S' true (i :: pa) := by
      intro m' S' o' r' ho hS'
      refine keeps_step h hc r hv r' hevs hi (fun _ => hcv) (fun _ l x hl hx => by rw [ho]; exact f5 l x hl hx)
        (by simp) ?_ (fun _ => Or.inr ⟨b, c'.take Sc, Or.inl ⟨rfl, rfl⟩, hck⟩)
      intro _ x hx
      cases hx
      rw [ho, hScl]; exact hS'
    have hsz1 : d.sizeAt m1 (posOf d cs.length i) = some b.length := by
      unfold sizeAt
      rw [ptrAt_eq h hc r1 hi]
      simp only [hbnb, b1, Bool.false_eq_true, if_false, Bool.not_true, Option.bind_eq_bind,
        Option.bind_some, eltPtr]
      exact elt_size r1 hi
    simp only [eltPtr]
    cases q with
    | false =>
      obtain ⟨g1, g2⟩ := k8 rfl
      refine ⟨m1.take (o1 i) ++ c', false, S, .node vs, ?_, hcan2, by rw [hlen, f3], r.le, ?_, by omega, ?_,
        fun _ => ⟨rfl, rfl⟩, by simp, hkeep _ _ _ (hplace g1) (fun _ => rfl) (by omega)⟩
      · simp only [inChild, if_true, atOff, k1, Option.bind_eq_bind, Option.bind_some,
          Option.pure_def, getSize_eq h hc r1, hsz1, Bool.false_eq_true, if_false]
      · rw [g2, list_set_val hvi] at hevs
        exact enc_of_crep h hc (hplace g1) hevs
      · intro x hx _; exact hhigh x hx (by omega)
    | true =>
      have hword : d.word (m1.take (o1 i) ++ c') (posOf d cs.length i).off = o1 i := by
        refine Eq.trans ?_ b2
        unfold word
        congr 1
        apply rd_ext
        intro x hx
        rw [hget, if_pos (by omega)]
      have hptr2 : d.ptrAt (m1.take (o1 i) ++ c') (posOf d cs.length i) = some (some (o1 i)) := by
        unfold ptrAt
        have hww : loadVal (m1.take (o1 i) ++ c') d.hdr.maxSize (posOf d cs.length i).off = some (o1 i) := by
          rw [word_eq rfl (by rw [hlen]; omega), hword]
        have hne : o1 i ≠ 0 := by have := fixedEnd_pos h hc r.countOk hlt b1; omega
        simp [not_var_needs b1, hbnb, b1, hww, hne]
      have hsz2 : d.sizeAt (m1.take (o1 i) ++ c') (posOf d cs.length i) = some Sc := by
        unfold sizeAt
        rw [hptr2]
        simp only [hbnb, b1, Bool.false_eq_true, if_false, Bool.not_true, Option.bind_eq_bind,
          Option.bind_some]
        have := getSize_at (d := (posOf d cs.length i).ty) (m := m1.take (o1 i) ++ c') (b := c'.take Sc)
          (o := o1 i) (by rw [hScl]; exact z1) (by rw [hScl]; exact hrd)
        rw [this, hScl]
      have hmx := r1.mx hvs.2
      have hlimd := (h.maxSize hvs.2).2
      unfold lim at hlimd
      have hg3 : ∀ x, d.w ≤ x → (wr (m1.take (o1 i) ++ c') 0 (leEnc d.w (o1 i + Sc)))[x]? =
          (m1.take (o1 i) ++ c')[x]? := by
        intro x hx; rw [wr_getElem?, if_neg (by simp only [leEnc_length]; omega)]
      have hrep : CRep d (wr (m1.take (o1 i) ++ c') 0 (leEnc d.w (o1 i + Sc))) (o1 i + Sc)
          (cs.set i (.var (c'.take Sc))) (fun j => if j = i then o1 i else o1 j) := by
        refine r1.updEnd h hc (c := .var b) (T := o1 i) hi b1 (by simp only [Elt.hlen]; omega)
          (fun _ _ => rfl) (by simp only [Elt.hlen, hScl]) (by omega) (by rw [wr_length, hlen]) (by omega) ?_ ?_ ?_
        · exact size_word (by rw [hlen]; omega)
        · intro x h1 h2 h3
          rw [hg3 x h2, hget, if_pos h1]
        · refine ⟨b1, ?_, b3, by rw [hScl]; omega, ?_, by rw [hScl]; exact z2, by rw [hScl]; exact z1⟩
          · have : d.word (wr (m1.take (o1 i) ++ c') 0 (leEnc d.w (o1 i + Sc))) (posOf d cs.length i).off =
                d.word (m1.take (o1 i) ++ c') (posOf d cs.length i).off := by
              unfold word; congr 1; apply rd_ext; intro x hx; exact hg3 _ (by omega)
            rw [this, hword]
          · rw [hScl, ← hrd]
            apply rd_ext
            intro x hx
            exact hg3 _ (by omega)
      refine ⟨wr (m1.take (o1 i) ++ c') 0 (leEnc d.w (o1 i + Sc)), true, o1 i + Sc, .node (vs.set i yc), ?_, hcan2,
        by rw [wr_length, hlen, f3], by omega, enc_of_crep h hc hrep hevs, by omega, ?_, by simp,
        fun _ => ⟨vs, yi, yc, rfl, hvi, k9 rfl, rfl⟩,
        hkeep _ _ _ hrep (fun l => by by_cases hl : l = i <;> simp only [hl, if_true, if_false]) rfl⟩
      · have hww : vsz d.hdr.maxSize = d.w := rfl
        simp only [inChild, if_true, atOff, k1, Option.bind_eq_bind, Option.bind_some,
          Option.pure_def, getSize_eq h hc r1, hsz1, hsz2]
        rw [sub32_eq (by omega), show S - b.length = o1 i by omega]
        simp only [Option.bind_some]
        rw [u32_eq (by omega)]
        simp only [Option.bind_some, overwriteSize, hvs.1, Bool.not_true, Bool.false_eq_true, if_false]
        rw [if_neg (by omega)]
        unfold storeVal
        rw [hww, store_eq (by simp only [leEnc_length, hlen]; omega)]
        rfl
      · intro x hx1 hx2
        rw [hg3 x (by omega)]
        exact hhigh x hx1 hx2

end

/-- The elements of the container at `pa` were changed as `R` says, nothing else was. -/
def AtPath (R : List Val → List Val → Prop) (pa : List Nat) (v v' : Val) : Prop :=
  v.has pa ∧ ∃ vs vs', v.at' pa = some (.node vs) ∧ R vs vs' ∧ v' = v.upd pa (.node vs')

theorem AtPath.step {R : List Val → List Val → Prop} {pa : List Nat} {i : Nat} {vs : List Val} {y y' : Val}
    (hi : vs[i]? = some y) (h : AtPath R pa y y') : AtPath R (i :: pa) (.node vs) (.node (vs.set i y')) := by
  obtain ⟨h1, a, b, h2, h3, h4⟩ := h
  refine ⟨by simp only [Val.has, hi]; exact h1, a, b, by simp only [Val.at', hi]; exact h2, h3, ?_⟩
  simp only [Val.upd, hi, h4]

/-! ### expanding -/

/-- What has to hold for an element of type `t` with `n` elements to be expanded by `slots`: the
part of the container that has no variable sized elements in it stays below 2GB (the limit of
/repo/README.md:23); and for arrays of bit fields, that the bits of one element fit in 64 bits and
the number of elements in the element count. -/
def GrowPre (t : Dti) (n slots : Nat) : Prop :=
  fixedEnd t (n + slots) < lim ∧
  ∀ c, t.cont = some c → c.isBit = true → c.eltBits ≤ 64 ∧ n + slots < 256 ^ t.w

/-- `slots` new elements at `index`. -/
def Ins (c : Dti) (index slots : Nat) (vs vs' : List Val) : Prop :=
  index ≤ vs.length ∧ ∃ y0, EVal c (blank c) y0 ∧ vs' = insertAt vs index slots y0

theorem blank_val {c : Dti} (h : TyOk c) : ∃ y, EVal c (blank c) y := by
  unfold blank
  split
  · exact ⟨_, rfl⟩
  · split
    · exact ⟨_, rfl⟩
    · rename_i hn hb
      have hb : c.isBit = false := by simpa using hb
      have hv : c.isVar = false := by simp [isNullable] at hn; exact hn.1
      exact fixed_enc c _ h hv hb (by simp)

theorem EVals.insert {d c : Dti} {cs : List Elt} {vs : List Val} (hcd : d.cont = some c) (hv : EVals d cs vs)
    {index slots : Nat} (hi : index ≤ cs.length) {x : Elt} {y : Val} (hx : EVal c x y) :
    EVals d (insertAt cs index slots x) (insertAt vs index slots y) := by
  have hl := hv.1
  refine ⟨by rw [insertAt_length _ _ _ hi, insertAt_length _ _ _ (by omega), hl], ?_⟩
  intro j a b ha hb
  rw [cont_ty hcd]
  rcases insIdx_cases index slots j with ⟨k, hk, rfl⟩ | ⟨_, hji⟩
  · rw [insertAt_new _ _ hi hk] at ha
    rw [insertAt_new _ _ (by omega) hk] at hb
    cases ha; cases hb; exact hx
  · rw [hji, insertAt_old _ _ _ hi] at ha
    rw [hji, insertAt_old _ _ _ (by omega)] at hb
    have := hv.2 _ a b ha hb
    rw [cont_ty hcd] at this; exact this

theorem EVals.remove {d c : Dti} {cs : List Elt} {vs : List Val} (hcd : d.cont = some c) (hv : EVals d cs vs)
    {index slots : Nat} (hi : index + slots ≤ cs.length) :
    EVals d (removeAt cs index slots) (removeAt vs index slots) := by
  have hl := hv.1
  refine ⟨by rw [removeAt_length _ hi, removeAt_length _ (by omega), hl], ?_⟩
  intro j a b ha hb
  rw [cont_ty hcd]
  rw [removeAt_get _ _ hi] at ha
  rw [removeAt_get _ _ (by omega)] at hb
  have := hv.2 _ a b ha hb
  rw [cont_ty hcd] at this; exact this

theorem expand_leaf {d c : Dti} {m : Bytes} {S : Nat} {val : Val} {index slots inc : Nat} (h : TyOk d)
    (hvc : d.isVarCount = true) (hcd : d.cont = some c) (hS : S ≤ m.length) (he : Enc d (m.take S) val)
    (hg : ∀ vs, val = .node vs → GrowPre d vs.length slots) (hroom : min (S + inc) d.hdr.maxSize ≤ m.length) :
    ResizeOk d m S inc val (d.expand m index slots inc) (fun m2 => d.canExpand m2 index slots inc)
      (AtPath (Ins c index slots) []) := by
  obtain ⟨hc, hdv, c', hcd', hok, _⟩ := varCount_cont h hvc
  rw [hcd] at hcd'
  cases hcd'
  obtain ⟨cs, o, vs, rfl, r, hv⟩ := crep_of_enc h hc hS he
  obtain ⟨g1, g2⟩ := hg vs rfl
  rw [hv.1] at g1 g2
  have hlim := r.lt_lim h hc
  have hsum := r.sum
  unfold lim at hlim g1
  obtain ⟨m', q, k1, k2, k3, k4, k5, k6⟩ := expand_ok h hvc hcd r (index := index) (slots := slots) (inc := inc) rfl
    ⟨by omega, g2⟩ hroom
  have hcan : ∀ m2 : Bytes, S ≤ m2.length → m2.take S = m.take S → d.canExpand m2 index slots inc = some q := by
    intro m2 h1 h2
    refine k2 m2 o (CRep.of_take h hc h1 ?_)
    rw [h2]; exact r.take h hc
  cases q with
  | false =>
    have := k4 rfl
    subst this
    exact ⟨m', false, S, .node vs, k1, hcan, rfl, hS, he, by omega, fun _ _ _ => rfl, fun _ => ⟨rfl, rfl⟩, by simp⟩
  | true =>
    obtain ⟨⟨o', r'⟩, k7⟩ := k6 rfl
    obtain ⟨q1, q2, q3⟩ := k5.mp rfl
    obtain ⟨y0, hy0⟩ := blank_val hok
    have hle := r'.le
    refine ⟨m', true, _, .node (insertAt vs index slots y0), k1, hcan, k3, by omega,
      enc_of_crep h hc r' (hv.insert hcd q1 hy0), q3, fun x _ hx => k7 x hx, by simp, fun _ => ⟨trivial, ?_⟩⟩
    exact ⟨vs, _, rfl, ⟨by rw [hv.1]; exact q1, y0, hy0, rfl⟩, rfl⟩

theorem expandElemI_at (pa : List Nat) : ∀ {d t c : Dti} {m : Bytes} {S : Nat} {val : Val} {index slots inc : Nat},
    TyOk d → S ≤ m.length → Enc d (m.take S) val → d.typeAt pa = some t → t.isVarCount = true → t.cont = some c →
    (∀ vs, val.at' pa = some (.node vs) → GrowPre t vs.length slots) →
    min (S + inc) d.hdr.maxSize ≤ m.length →
    ResizeAt d m S inc val (d.expandElemI m index slots inc pa)
      (fun m2 => d.canExpandElemI m2 index slots inc pa) (AtPath (Ins c index slots) pa) pa := by
  induction pa with
  | nil =>
    intro d t c m S val index slots inc h hS he ht hvc hcd hg hroom
    simp only [typeAt, Option.some.injEq] at ht
    subst ht
    exact (expand_leaf h hvc hcd hS he (fun vs hh => hg vs (by rw [hh]; rfl)) hroom).whole h
  | cons i pa ih =>
    intro d t c m S val index slots inc h hS he ht hvc hcd hg hroom
    have htv := (typeAt_ok (i :: pa) h ht).2
    simp only [typeAt, Option.bind_eq_bind] at ht
    obtain ⟨ct, ht1, ht2⟩ := Option.bind_eq_some_iff.mp ht
    have hc : d.isCont = true := by
      cases hc : d.isCont with
      | true => rfl
      | false => simp [tyAtNoData, hc] at ht1
    obtain ⟨cs, o, vs, hval, r, hv⟩ := crep_of_enc h hc hS he
    subst hval
    have hcong : ∀ m2 : Bytes, S ≤ m2.length → m2.take S = m.take S → CRep d m2 S cs o := by
      intro m2 h1 h2
      refine CRep.of_take h hc h1 ?_
      rw [h2]; exact r.take h hc
    by_cases hlt : i < cs.length
    · have hty := tyAt_pos h r.countOk hlt ht1
      have hok := posOf_ok h hc r.countOk hlt
      have htok := (typeAt_ok pa (hty ▸ hok) ht2)
      have htvar : t.isVar = true := (varCount_cont htok.1 hvc).2.1
      have hcv : (posOf d cs.length i).ty.isVar = true := by rw [hty]; exact htok.2 htvar
      have hmx := r.mx (htv htvar)
      have hstep := resize_step h hc r hv hlt hcv (inc := min inc (d.hdr.maxSize - S)) (by omega) (by omega)
        (f := fun c => expandElemI (posOf d cs.length i).ty c index slots (min inc (d.hdr.maxSize - S)) pa)
        (can := fun c => canExpandElemI (posOf d cs.length i).ty c index slots (min inc (d.hdr.maxSize - S)) pa)
        (R := AtPath (Ins c index slots) pa) (by
          intro mc b y hy hb hey hroom'
          refine ih hok (by omega) (by rw [hb]; exact hey) (by rw [hty]; exact ht2) hvc hcd ?_ (by omega)
          intro vs' hvs'
          exact hg vs' (by simp only [Val.at', hy]; exact hvs'))
      obtain ⟨m', q, S', val', k1, k2, k3, k4, k5, k6, k7, k8, k9, k10⟩ := hstep
      refine ⟨m', q, S', val', ?_, ?_, k3, k4, k5, by omega, k7, k8, ?_, k10⟩
      · simp only [expandElemI, hc, getCount_eq h hc r, getSize_eq h hc r, sub32_eq hmx, posInfo_eq h hc r hlt,
          Bool.not_true, Bool.false_eq_true, if_false, Option.bind_eq_bind, Option.bind_some, ge_iff_le,
          Nat.not_le.mpr hlt]
        exact k1
      · intro m2 h1 h2
        have r2 := hcong m2 h1 h2
        simp only [canExpandElemI, hc, getCount_eq h hc r2, getSize_eq h hc r2, sub32_eq hmx, posInfo_eq h hc r2 hlt,
          Bool.not_true, Bool.false_eq_true, if_false, Option.bind_eq_bind, Option.bind_some, ge_iff_le,
          Nat.not_le.mpr hlt]
        exact k2 m2 h1 h2
      · intro hq
        obtain ⟨vs1, y, y', g1, g2, g3, g4⟩ := k9 hq
        cases g1
        rw [g4]; exact g3.step g2
    · have hge : i ≥ cs.length := by omega
      refine ⟨m, false, S, .node vs, ?_, ?_, rfl, hS, he, by omega, fun _ _ _ => rfl, fun _ => ⟨rfl, rfl⟩, by simp,
        keeps_out h hc r hv hge⟩
      · simp [expandElemI, hc, getCount_eq h hc r, hge]
      · intro m2 h1 h2
        simp [canExpandElemI, hc, getCount_eq h hc (hcong m2 h1 h2), hge]

theorem expandElemI_ok (pa : List Nat) {d t c : Dti} {m : Bytes} {S : Nat} {val : Val} {index slots inc : Nat}
    (h : TyOk d) (hS : S ≤ m.length) (he : Enc d (m.take S) val) (ht : d.typeAt pa = some t) (hvc : t.isVarCount = true)
    (hcd : t.cont = some c) (hg : ∀ vs, val.at' pa = some (.node vs) → GrowPre t vs.length slots)
    (hroom : min (S + inc) d.hdr.maxSize ≤ m.length) :
    ResizeOk d m S inc val (d.expandElemI m index slots inc pa)
      (fun m2 => d.canExpandElemI m2 index slots inc pa) (AtPath (Ins c index slots) pa) :=
  (expandElemI_at pa h hS he ht hvc hcd hg hroom).ok

/-! ### discarding -/

/-- Without `slots` elements from `index` on. -/
def Rem (index slots : Nat) (vs vs' : List Val) : Prop :=
  index < vs.length ∧ index + slots ≤ vs.length ∧ vs' = removeAt vs index slots

theorem discard_leaf {d c : Dti} {m : Bytes} {S : Nat} {val : Val} {index slots : Nat} (h : TyOk d)
    (hvc : d.isVarCount = true) (hcd : d.cont = some c) (hS : S ≤ m.length) (he : Enc d (m.take S) val)
    (hbits : c.isBit = true → c.eltBits ≤ 64) :
    ResizeOk d m S 0 val (d.discard m index slots) (fun m2 => d.canDiscard m2 index slots)
      (AtPath (Rem index slots) []) := by
  obtain ⟨hc, hdv, _⟩ := varCount_cont h hvc
  obtain ⟨cs, o, vs, rfl, r, hv⟩ := crep_of_enc h hc hS he
  obtain ⟨m', q, k1, k2, k3, k4, k5, k6⟩ := discard_ok h hvc hcd r (index := index) (slots := slots) hbits
  have hcan : ∀ m2 : Bytes, S ≤ m2.length → m2.take S = m.take S → d.canDiscard m2 index slots = some q := by
    intro m2 h1 h2
    refine k2 m2 o (CRep.of_take h hc h1 ?_)
    rw [h2]; exact r.take h hc
  cases q with
  | false =>
    have := k4 rfl
    subst this
    exact ⟨m', false, S, .node vs, k1, hcan, rfl, hS, he, by omega, fun _ _ _ => rfl, fun _ => ⟨rfl, rfl⟩, by simp⟩
  | true =>
    obtain ⟨⟨N, o', hN, r'⟩, k7⟩ := k6 rfl
    obtain ⟨q1, q2⟩ := k5.mp rfl
    refine ⟨m', true, N, .node (removeAt vs index slots), k1, hcan, k3, by omega,
      enc_of_crep h hc r' (hv.remove hcd q2), by omega, fun x hx _ => k7 x hx, by simp, fun _ => ⟨trivial, ?_⟩⟩
    exact ⟨vs, _, rfl, ⟨by rw [hv.1]; exact q1, by rw [hv.1]; exact q2, rfl⟩, rfl⟩

theorem discardElemI_at (pa : List Nat) : ∀ {d t c : Dti} {m : Bytes} {S : Nat} {val : Val} {index slots : Nat},
    TyOk d → S ≤ m.length → Enc d (m.take S) val → d.typeAt pa = some t → t.isVarCount = true → t.cont = some c →
    (c.isBit = true → c.eltBits ≤ 64) →
    ResizeAt d m S 0 val (d.discardElemI m index slots pa)
      (fun m2 => d.canDiscardElemI m2 index slots pa) (AtPath (Rem index slots) pa) pa := by
  induction pa with
  | nil =>
    intro d t c m S val index slots h hS he ht hvc hcd hg
    simp only [typeAt, Option.some.injEq] at ht
    subst ht
    exact (discard_leaf h hvc hcd hS he hg).whole h
  | cons i pa ih =>
    intro d t c m S val index slots h hS he ht hvc hcd hg
    have htv := (typeAt_ok (i :: pa) h ht).2
    simp only [typeAt, Option.bind_eq_bind] at ht
    obtain ⟨ct, ht1, ht2⟩ := Option.bind_eq_some_iff.mp ht
    have hc : d.isCont = true := by
      cases hc : d.isCont with
      | true => rfl
      | false => simp [tyAtNoData, hc] at ht1
    obtain ⟨cs, o, vs, hval, r, hv⟩ := crep_of_enc h hc hS he
    subst hval
    have hcong : ∀ m2 : Bytes, S ≤ m2.length → m2.take S = m.take S → CRep d m2 S cs o := by
      intro m2 h1 h2
      refine CRep.of_take h hc h1 ?_
      rw [h2]; exact r.take h hc
    by_cases hlt : i < cs.length
    · have hty := tyAt_pos h r.countOk hlt ht1
      have hok := posOf_ok h hc r.countOk hlt
      have htok := (typeAt_ok pa (hty ▸ hok) ht2)
      have htvar : t.isVar = true := (varCount_cont htok.1 hvc).2.1
      have hcv : (posOf d cs.length i).ty.isVar = true := by rw [hty]; exact htok.2 htvar
      have hmx := r.mx (htv htvar)
      have hstep := resize_step h hc r hv hlt hcv (inc := 0) (by omega) (by omega)
        (f := fun c => discardElemI (posOf d cs.length i).ty c index slots pa)
        (can := fun c => canDiscardElemI (posOf d cs.length i).ty c index slots pa)
        (R := AtPath (Rem index slots) pa) (by
          intro mc b y hy hb hey hroom'
          exact ih hok (by omega) (by rw [hb]; exact hey) (by rw [hty]; exact ht2) hvc hcd hg)
      obtain ⟨m', q, S', val', k1, k2, k3, k4, k5, k6, k7, k8, k9, k10⟩ := hstep
      refine ⟨m', q, S', val', ?_, ?_, k3, k4, k5, by omega, k7, k8, ?_, k10⟩
      · simp only [discardElemI, hc, getCount_eq h hc r, posInfo_eq h hc r hlt,
          Bool.not_true, Bool.false_eq_true, if_false, Option.bind_eq_bind, Option.bind_some, ge_iff_le,
          Nat.not_le.mpr hlt]
        exact k1
      · intro m2 h1 h2
        have r2 := hcong m2 h1 h2
        simp only [canDiscardElemI, hc, getCount_eq h hc r2, posInfo_eq h hc r2 hlt,
          Bool.not_true, Bool.false_eq_true, if_false, Option.bind_eq_bind, Option.bind_some, ge_iff_le,
          Nat.not_le.mpr hlt]
        exact k2 m2 h1 h2
      · intro hq
        obtain ⟨vs1, y, y', g1, g2, g3, g4⟩ := k9 hq
        cases g1
        rw [g4]; exact g3.step g2
    · have hge : i ≥ cs.length := by omega
      refine ⟨m, false, S, .node vs, ?_, ?_, rfl, hS, he, by omega, fun _ _ _ => rfl, fun _ => ⟨rfl, rfl⟩, by simp,
        keeps_out h hc r hv hge⟩
      · simp [discardElemI, hc, getCount_eq h hc r, hge]
      · intro m2 h1 h2
        simp [canDiscardElemI, hc, getCount_eq h hc (hcong m2 h1 h2), hge]

theorem discardElemI_ok (pa : List Nat) {d t c : Dti} {m : Bytes} {S : Nat} {val : Val} {index slots : Nat}
    (h : TyOk d) (hS : S ≤ m.length) (he : Enc d (m.take S) val) (ht : d.typeAt pa = some t) (hvc : t.isVarCount = true)
    (hcd : t.cont = some c) (hg : c.isBit = true → c.eltBits ≤ 64) :
    ResizeOk d m S 0 val (d.discardElemI m index slots pa)
      (fun m2 => d.canDiscardElemI m2 index slots pa) (AtPath (Rem index slots) pa) :=
  (discardElemI_at pa h hS he ht hvc hcd hg).ok

end Dti
end TS
