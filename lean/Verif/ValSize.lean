import Verif.PropsFin
import Verif.PropsCopy
/-
How many bytes a value takes, and that the value can be read off the elements.
-/
namespace TS
namespace Dti

mutual
/-- Bytes that a datum of type `d` with value `v` takes: those of the smallest datum, and for every
further element of an array its share of the bitmap and its slot, and for every element that varies
in size and is not NULL the bytes that it takes itself. -/
def Need : Dti → Val → Nat
  | .prim _ h, .raw _ => h.size
  | .str _ h, .node vs => if h.varCount then vsz h.maxSize + vs.length else h.count
  | .tup h fs, .node vs => Least (.tup h fs) + NeedAll fs vs
  | .arr h c, .node vs =>
    (if Varies c then vsz h.maxSize else 0) + (if h.varCount then vsz h.maxSize else 0) +
    bitmapBytes (vs.length * BitsOf c) +
    vs.length * (if c.isBit then 0 else if Varies c then vsz h.maxSize else Least c) +
    (if Varies c then (vs.map (Need c)).sum else 0)
  | _, _ => 0
def NeedAll : List (Fld × Dti) → List Val → Nat
  | (_, t) :: fs, y :: vs => (if Varies t then Need t y else 0) + NeedAll fs vs
  | _, _ => 0
end

/-- The size stored in every tuple type inside of `d` is that of the smallest tuple. -/
inductive Tight : Dti → Prop
  | prim (k h) : Tight (.prim k h)
  | str (b h) : Tight (.str b h)
  | tup (h : Hdr) (fs : List (Fld × Dti)) : h.size = Least (.tup h fs) → (∀ f t, (f, t) ∈ fs → Tight t) → Tight (.tup h fs)
  | arr (h : Hdr) (c) : Tight c → Tight (.arr h c)

theorem isVar_varies : ∀ d : Dti, TyOk d → d.isVar = Varies d := by
  intro d
  induction d using Dti.ind with
  | hp k h => intro ht; cases ht with | prim _ _ _ a => simp only [isVar, hdr, a, Varies]
  | hs b h => intro ht; cases ht with | str _ _ _ a => simp only [isVar, hdr, a, Varies]
  | ht h fs ih =>
    intro ht
    cases ht with
    | tup _ _ _ _ a3 _ _ a6 =>
      have : ∀ gs : List (Fld × Dti), (∀ f t, (f, t) ∈ gs → t.isVar = Varies t) → gs.any (fun p => p.2.isVar) = VariesAny gs := by
        intro gs
        induction gs with
        | nil => intro _; simp only [List.any_nil, VariesAny]
        | cons x gs ihg =>
          intro hg
          obtain ⟨f, t⟩ := x
          simp only [List.any_cons, VariesAny]
          rw [hg f t (by simp), ihg fun f t hm => hg f t (List.mem_cons_of_mem _ hm)]
      have h0 : (Dti.tup h fs).isVar = h.isVar := rfl
      rw [h0, a6, this fs fun f t hm => ih f t hm (a3 f t hm), Varies]
  | ha h c ih =>
    intro ht
    cases ht with
    | arr _ _ _ a2 a3 => simp only [isVar, hdr, a3, Varies]; rw [← ih a2]; rfl

theorem heap_eq {cs : List Elt} {l : List Nat} (hl : cs.length = l.length)
    (h : ∀ (i : Nat) (c : Elt) n, cs[i]? = some c → l[i]? = some n → c.hlen = n) : heap cs = l.sum := by
  induction cs generalizing l with
  | nil => cases l with
    | nil => rfl
    | cons => simp at hl
  | cons c cs ih =>
    cases l with
    | nil => simp at hl
    | cons n l =>
      have h0 := h 0 c n (by simp) (by simp)
      have h1 := ih (l := l) (by simpa using hl) (fun i c n hc hn => h (i + 1) c n (by simpa using hc) (by simpa using hn))
      simp [heap] at h1 ⊢
      omega

theorem needAll_eq (fs : List (Fld × Dti)) (vs : List Val) :
    NeedAll fs vs = (List.zipWith (fun p y => if Varies p.2 then Need p.2 y else 0) fs vs).sum := by
  induction fs generalizing vs with
  | nil => cases vs <;> simp [NeedAll]
  | cons x fs ih =>
    obtain ⟨f, t⟩ := x
    cases vs with
    | nil => simp [NeedAll]
    | cons y vs => simp [NeedAll, ih]

theorem need_null {t : Dti} : Need t .null = 0 := by cases t <;> simp [Need]

theorem fixedEnd_arr {h : Hdr} {c : Dti} {n : Nat} (hc1 : c.isVar = Varies c) (hc2 : c.hdr.size = Least c)
    (hv : h.isVar = (h.varCount || Varies c)) : fixedEnd (.arr h c) n =
      (if Varies c then vsz h.maxSize else 0) + (if h.varCount then vsz h.maxSize else 0) +
      bitmapBytes (n * BitsOf c) + n * (if c.isBit then 0 else if Varies c then vsz h.maxSize else Least c) := by
  have hb := bits_header hc1
  have hh : (Dti.arr h c).hdr = h := rfl
  simp only [fixedEnd, bitsOf, offBitmap, offCountP, hasSizeP, hasCountP, isVarCount, w,
    hh, hv, hc1, slot, hc2]
  cases hbit : c.isBit with
  | true =>
    simp only [hbit, if_true] at hb ⊢
    have h1 : c.needsValid.toNat + Least c = BitsOf c := by rw [hb, hc2]; cases c.needsValid <;> simp
    have h2 : Varies c = false := by
      cases c with
      | prim => rfl
      | _ => simp [isBit] at hbit
    rw [h1, h2]; cases h.varCount <;> simp
  | false =>
    simp only [hbit, Bool.false_eq_true, if_false, Nat.add_zero] at hb ⊢
    have h1 : c.needsValid.toNat = BitsOf c := by rw [hb]; cases c.needsValid <;> simp
    rw [h1]
    cases Varies c <;> cases h.varCount <;> simp

theorem size_least : ∀ d : Dti, TyOk d → Tight d → d.hdr.size = Least d := by
  intro d
  induction d using Dti.ind with
  | hp k h => intro _ _; rfl
  | hs b h =>
    intro ht _
    cases ht with
    | str _ _ _ a2 a3 a4 =>
      simp only [Least, hdr, ← a2]
      cases hv : h.isVar with
      | true => simpa using (a4 hv).1
      | false => simpa using (a3 hv).1
  | ht h fs _ => intro _ h2; cases h2; assumption
  | ha h c ih =>
    intro ht h2
    have hv : h.isVar = (h.varCount || Varies c) := by
      have := isVar_varies _ ht
      simpa only [isVar, hdr, Varies] using this
    cases h2 with
    | arr _ _ a1 =>
    cases ht with
    | arr _ _ b1 b2 b3 b4 b5 =>
      have hvc := isVar_varies c b2
      have hs := ih b2 a1
      simp only [hdr, Least]
      cases hc : h.varCount with
      | true => rw [b5 hc, fixedEnd_arr hvc hs hv]; simp [hc, bitmapBytes]
      | false => rw [(b4 hc).2.2, fixedEnd_arr hvc hs hv]; simp only [hc, Bool.false_eq_true, if_false]; omega

/-- The bytes of a datum are as many as its value needs. -/
theorem enc_need {d : Dti} {b : Bytes} {v : Val} (e : Enc d b v) : TyOk d → Tight d → b.length = Need d v := by
  induction e with
  | prim h1 h2 => intro _ _; simpa only [Need] using h2
  | @cont d b cs o vs hc r hlen hnull hbits hfix hvar ihf ihv =>
    intro ht htt
    have hsum := r.sum
    have hcnt : CountOk d cs.length := fun hv => r.cntF hv
    have hty : ∀ (i : Nat), i < cs.length → TyOk (posOf d cs.length i).ty := fun i hi => posOf_ok ht hc hcnt hi
    have key : ∀ (i : Nat) c y, cs[i]? = some c → vs[i]? = some y → Tight (posOf d cs.length i).ty →
        c.hlen = if Varies (posOf d cs.length i).ty then Need (posOf d cs.length i).ty y else 0 := by
      intro i c y hi hy hti
      have hlt : i < cs.length := (List.getElem?_eq_some_iff.mp hi).1
      have e := r.elt i c hi
      rw [← isVar_varies _ (hty i hlt)]
      cases c with
      | null =>
        rw [hnull i hi] at hy
        cases hy
        simp [Elt.hlen, need_null]
      | bits v =>
        have : (posOf d cs.length i).ty.isVar = false := by
          have h2 := hty i hlt
          have h1 := e.1
          generalize (posOf d cs.length i).ty = t at h1 h2
          cases h2 <;> simp_all [isBit, isVar, hdr]
        simp [Elt.hlen, this]
      | fixd x =>
        have := e.2.1
        simp [Elt.hlen, this]
      | var x =>
        have h1 := e.1
        simp only [Elt.hlen, h1, if_true]
        exact ihv i x y hi hy (hty i hlt) hti
    cases d with
    | prim => simp [isCont] at hc
    | str bin h =>
      have h0 : heap cs = 0 := by
        apply heap_zero
        intro i c hi
        have e := r.elt i c hi
        cases c with
        | var x => have h1 := e.1; simp [posOf, u8, isVar, hdr] at h1
        | _ => rfl
      rw [hsum, h0]
      cases ht with
      | str _ _ _ a2 a3 a4 =>
        cases hvc : h.varCount with
        | true => simp [fixedEnd, offBitmap, offCountP, hasCountP, isVarCount, hasSizeP, a2, hvc, Need, w, hdr, hlen]
        | false =>
          have hn := r.cntF (by simp [isVarCount, a2, hvc])
          simp only [hdr] at hn
          simp [fixedEnd, offBitmap, offCountP, hasCountP, isVarCount, hasSizeP, a2, hvc, Need, hn]
    | tup h fs =>
      cases htt with
      | tup _ _ a1 a2 =>
      cases ht with
      | tup _ _ b1 b2 b3 b4 b5 b6 =>
        have hn : cs.length = fs.length := by rw [b4]; exact r.cntF rfl
        rw [hsum]
        simp only [fixedEnd, Need, needAll_eq, a1]
        congr 1
        apply heap_eq
        · simp [hlen, hn]
        · intro i c n hi hni
          have hlt : i < cs.length := (List.getElem?_eq_some_iff.mp hi).1
          rw [List.getElem?_zipWith] at hni
          have hfi : fs[i]? = some fs[i] := List.getElem?_eq_getElem (by omega)
          have hvi : vs[i]? = some vs[i] := List.getElem?_eq_getElem (by omega)
          simp only [hfi, hvi, Option.some.injEq] at hni
          have hp : (posOf (.tup h fs) cs.length i).ty = fs[i].2 := by
            simp only [posOf, hfi]
          have := key i c _ hi hvi (by rw [hp]; exact a2 _ _ (List.getElem_mem (by omega)))
          rw [hp] at this
          rw [this]
          exact hni
    | arr h c =>
      cases htt with
      | arr _ _ a1 =>
      have hvc := isVar_varies c (by cases ht; assumption)
      have hp : ∀ i, (posOf (.arr h c) cs.length i).ty = c := by
        intro i; simp only [posOf]; repeat' split
        all_goals rfl
      have hheap : heap cs = if Varies c then (vs.map (Need c)).sum else 0 := by
        cases hv : Varies c with
        | true =>
          simp only [if_true]
          apply heap_eq
          · simp [hlen]
          · intro i x n hi hni
            have hlt : i < cs.length := (List.getElem?_eq_some_iff.mp hi).1
            have hvi : vs[i]? = some vs[i] := List.getElem?_eq_getElem (by omega)
            rw [List.getElem?_map, hvi] at hni
            simp only [Option.map_some, Option.some.injEq] at hni
            have := key i x _ hi hvi (by rw [hp]; exact a1)
            rw [hp, hv] at this
            simpa [hni] using this
        | false =>
          simp only [Bool.false_eq_true, if_false]
          apply heap_zero
          intro i x hi
          have hlt : i < cs.length := (List.getElem?_eq_some_iff.mp hi).1
          have hvi : vs[i]? = some vs[i] := List.getElem?_eq_getElem (by omega)
          have := key i x _ hi hvi (by rw [hp]; exact a1)
          rw [hp, hv] at this
          simpa using this
      have hs := size_least c (by cases ht; assumption) a1
      have hv : h.isVar = (h.varCount || Varies c) := by
        have := isVar_varies _ ht
        simpa only [isVar, hdr, Varies] using this
      rw [hsum, hheap, fixedEnd_arr hvc hs hv, ← hlen]
      simp only [Need]

theorem assignBits_map (fs : List (Fld × Dti)) (b : Nat) : (assignBits b fs).1.map Prod.snd = fs.map Prod.snd := by
  induction fs generalizing b with
  | nil => rfl
  | cons p r ih => obtain ⟨f, t⟩ := p; simp [assignBits, ih]

theorem assignOffs_map (w : Nat) (fs : List (Fld × Dti)) (s : Nat) : (assignOffs w s fs).1.map Prod.snd = fs.map Prod.snd := by
  induction fs generalizing s with
  | nil => rfl
  | cons p r ih =>
    obtain ⟨f, t⟩ := p
    simp only [assignOffs]
    split <;> simp [ih]

theorem needAll_map {fs gs : List (Fld × Dti)} (h : fs.map Prod.snd = gs.map Prod.snd) (vs : List Val) :
    NeedAll fs vs = NeedAll gs vs := by
  induction fs generalizing gs vs with
  | nil => cases gs with
    | nil => rfl
    | cons => simp at h
  | cons x fs ih =>
    cases gs with
    | nil => simp at h
    | cons y gs =>
      obtain ⟨f, t⟩ := x
      obtain ⟨g, u⟩ := y
      simp only [List.map_cons, List.cons.injEq] at h
      obtain ⟨rfl, h⟩ := h
      cases vs with
      | nil => simp only [NeedAll]
      | cons v vs => simp only [NeedAll, ih h]

/-- Finalising a type does not change what its values need. -/
theorem need_finalize : ∀ d d', finalize d = some d' → ∀ v, Need d' v = Need d v := by
  intro d
  induction d using Dti.ind with
  | hp k h =>
    intro d' hf v
    simp only [finalize, finPrim] at hf
    split at hf
    · cases hf; rfl
    · simp only [Option.ite_none_right_eq_some, Option.some.injEq] at hf
      obtain ⟨_, rfl⟩ := hf
      cases v <;> simp only [Need]
  | hs b h =>
    intro d' hf v
    simp only [finalize, finStr] at hf
    repeat' split at hf
    all_goals cases hf
    all_goals cases v <;> simp only [Need]
  | ht h fs ih =>
    intro d' hf v
    have hs := same_finalize _ _ hf
    simp only [finalize] at hf
    split at hf
    · cases hf; rfl
    · split at hf
      · cases hf
      · simp only [Option.bind_eq_bind, Option.bind_eq_some_iff] at hf
        obtain ⟨gs, h1, h2⟩ := hf
        unfold finTup at h2
        simp only [Option.ite_none_left_eq_some, Option.some.injEq] at h2
        obtain ⟨_, rfl⟩ := h2
        cases v with
        | node vs =>
          have hl := hs.least
          simp only [Need]
          rw [hl, needAll_map ((assignOffs_map _ _ _).trans (assignBits_map _ _))]
          congr 1
          clear hs hl
          have : ∀ (fs gs : List (Fld × Dti)), (∀ f t, (f, t) ∈ fs → ∀ t', finalize t = some t' → ∀ v, Need t' v = Need t v) →
              finalizeAll fs = some gs → ∀ vs, NeedAll gs vs = NeedAll fs vs := by
            intro fs
            induction fs with
            | nil => intro gs _ hg vs; simp only [finalizeAll, Option.some.injEq] at hg; rw [← hg]
            | cons x fs ihf =>
              intro gs ih hg vs
              obtain ⟨f, t⟩ := x
              simp only [finalizeAll, Option.bind_eq_bind, Option.bind_eq_some_iff, Option.pure_def, Option.some.injEq] at hg
              obtain ⟨t', g1, r, g2, rfl⟩ := hg
              cases vs with
              | nil => simp only [NeedAll]
              | cons v vs =>
                simp only [NeedAll, ih f t (by simp) t' g1, ihf r (fun f t hm => ih f t (List.mem_cons_of_mem _ hm)) g2,
                  (same_finalize t t' g1).varies]
          exact this fs gs ih h1 vs
        | _ => simp only [Need]
  | ha h c ih =>
    intro d' hf v
    simp only [finalize] at hf
    split at hf
    · cases hf; rfl
    · simp only [Option.bind_eq_bind, Option.bind_eq_some_iff] at hf
      obtain ⟨c', h1, h2⟩ := hf
      have hs := same_finalize c c' h1
      have hn : Need c' = Need c := funext (ih c' h1)
      have hall : ∃ hd', d' = .arr hd' c' ∧ hd'.maxSize = h.maxSize ∧ hd'.varCount = h.varCount := by
        simp only [finArr, finArrSize] at h2
        repeat' split at h2
        all_goals cases h2
        all_goals exact ⟨_, rfl, rfl, rfl⟩
      obtain ⟨hd', rfl, k1, k2⟩ := hall
      cases v with
      | node vs => simp only [Need, hs.varies, hs.bits, hs.bit, hs.least, k1, k2, hn]
      | _ => simp only [Need]

/-- The sizes that finalisation stores are those of the smallest data. -/
theorem tight_finalize {d : Dti} (hb : Built d) : Fits32 d → ∀ d', finalize d = some d' → Tight d' := by
  induction hb with
  | prim k h hf =>
    intro _ d' h'
    simp only [finalize, finPrim, hf, Bool.false_eq_true, if_false, Option.ite_none_right_eq_some, Option.some.injEq] at h'
    obtain ⟨_, rfl⟩ := h'
    exact .prim _ _
  | str b h hf =>
    intro _ d' h'
    simp only [finalize, finStr, hf, Bool.false_eq_true, if_false] at h'
    repeat' split at h'
    all_goals cases h'
    all_goals exact .str _ _
  | tup h fs hf hlen hfs ih =>
    intro hfit d' h'
    have h3 := ((finalize_spec (.tup h fs hf hlen hfs) hfit).2 d' h').2.2
    have hs := same_finalize _ _ h'
    simp only [Fits32] at hfit
    simp only [finalize, hf, Bool.false_eq_true, if_false] at h'
    split at h'
    · cases h'
    · simp only [Option.bind_eq_bind, Option.bind_eq_some_iff] at h'
      obtain ⟨gs, h1, h2⟩ := h'
      have e1 : ∀ f t, (f, t) ∈ gs → Tight t :=
        finalizeAll_types (fun f t hm t' ht' => ih f t hm (fits_all hfit.2 f t hm) t' ht') h1
      unfold finTup at h2
      simp only [Option.ite_none_left_eq_some, Option.some.injEq] at h2
      obtain ⟨_, rfl⟩ := h2
      refine .tup _ _ ?_ (assignOffs_types _ _ _ _ (assignBits_types gs 0 _ e1))
      rw [hs.least]; exact h3
  | arr h c hf hc ih =>
    intro hfit d' h'
    simp only [Fits32] at hfit
    simp only [finalize, hf, Bool.false_eq_true, if_false, Option.bind_eq_bind, Option.bind_eq_some_iff] at h'
    obtain ⟨c', h1, h2⟩ := h'
    have ht := ih hfit.2 c' h1
    simp only [finArr, finArrSize] at h2
    repeat' split at h2
    all_goals cases h2
    all_goals exact .arr _ _ ht
  | again hb hf ih =>
    intro hfit d' h'
    rw [Props.C30_idempotent hf] at h'
    cases h'
    exact ih ((same_finalize _ _ hf).fits.mp hfit) _ hf

/-! ### Values are told apart by reading -/

theorem leDec_inj {a b : Bytes} (hl : a.length = b.length) (h : leDec a = leDec b) : a = b := by
  induction a generalizing b with
  | nil => cases b with
    | nil => rfl
    | cons => simp at hl
  | cons x a ih =>
    cases b with
    | nil => simp at hl
    | cons y b =>
      simp only [leDec] at h
      have hx := x.toNat_lt
      have hy := y.toNat_lt
      have h1 : x.toNat = y.toNat := by omega
      have h2 : leDec a = leDec b := by omega
      rw [UInt8.toNat_inj.mp h1, ih (by simpa using hl) h2]

theorem intDec_inj {a b : Bytes} (hl : a.length = b.length) (h : intDec a = intDec b) : a = b := by
  apply leDec_inj hl
  have ha := leDec_lt a
  have hb := leDec_lt b
  unfold intDec at h
  rw [hl] at h ha
  generalize 256 ^ b.length = P at *
  split at h <;> split at h <;> omega

/-- The two values look the same from the outside: what is inside of a node is not looked at. -/
def LooksAs : Option Val → Option Val → Prop
  | none, none => True
  | some .null, some .null => True
  | some (.bits a), some (.bits b) => a = b
  | some (.raw a), some (.raw b) => a = b
  | some (.node _), some (.node _) => True
  | _, _ => False

theorem val_ext_at : ∀ (n : Nat) (v v' : Val), sizeOf v ≤ n → (∀ pa, LooksAs (v.at' pa) (v'.at' pa)) → v = v' := by
  intro n
  induction n with
  | zero => intro v v' hn; cases v <;> simp at hn
  | succ n ih =>
    intro v v' hn h
    have h0 := h []
    cases v with
    | null => cases v' <;> simp_all [Val.at', LooksAs]
    | bits a => cases v' <;> simp_all [Val.at', LooksAs]
    | raw a => cases v' <;> simp_all [Val.at', LooksAs]
    | node vs =>
      cases v' with
      | node vs' =>
        congr 1
        apply List.ext_getElem?
        intro i
        have hi := fun pa => h (i :: pa)
        simp only [Val.at'] at hi
        cases hv : vs[i]? with
        | none =>
          have := hi []
          simp only [hv] at this
          cases hv' : vs'[i]? with
          | none => rfl
          | some y' => rw [hv'] at this; cases y' <;> simp [Val.at', LooksAs] at this
        | some y =>
          cases hv' : vs'[i]? with
          | none =>
            have := hi []
            simp only [hv, hv'] at this
            cases y <;> simp [Val.at', LooksAs] at this
          | some y' =>
            have hlt := List.sizeOf_lt_of_mem (List.mem_of_getElem? hv)
            congr 1
            refine ih y y' ?_ fun pa => ?_
            · simp at hn; omega
            · have := hi pa
              simpa only [hv, hv'] using this
      | _ => simp [Val.at', LooksAs] at h0

theorem shows_looks {t : Dti} {y y' : Val} {a b : Datum} (hy : Held t y) (hy' : Held t y')
    (h1 : Shows t y a) (h2 : Shows t y' b) (hs : Same (some (some a)) (some (some b))) : LooksAs (some y) (some y') := by
  have raw : ∀ {z : Bytes}, Held t (.raw z) → ∃ k h, t = .prim k h ∧ z.length = h.size := by
    intro z hz
    rcases hz with hz | ⟨_, hz, _⟩ | ⟨b, hz⟩
    · cases hz
    · cases hz
    · cases hz with
      | prim _ h2 => exact ⟨_, _, rfl, h2⟩
  cases y with
  | null =>
    simp only [Shows] at h1
    subst h1
    cases y' with
    | null => trivial
    | bits v => obtain ⟨_, rfl⟩ := h2; simp [Same] at hs
    | raw x =>
      cases t with
      | prim k h => cases k <;> simp only [Shows] at h2 <;> first | exact h2.elim | (subst h2; simp [Same] at hs)
      | _ => exact h2.elim
    | node vs =>
      cases t with
      | prim => exact h2.elim
      | str bin h => obtain ⟨_, _, rfl⟩ := h2; simp [Same] at hs
      | tup h fs => obtain ⟨_, _, rfl, _⟩ := h2; simp [Same] at hs
      | arr h c => obtain ⟨_, _, rfl, _⟩ := h2; simp [Same] at hs
  | bits v =>
    obtain ⟨hb, rfl⟩ := h1
    cases y' with
    | null => simp only [Shows] at h2; subst h2; simp [Same] at hs
    | bits v' => obtain ⟨_, rfl⟩ := h2; simp [Same] at hs; exact hs
    | raw x =>
      cases t with
      | prim k h => cases k <;> simp [isBit] at hb; exact h2.elim
      | _ => exact h2.elim
    | node vs => cases t <;> simp [isBit] at hb; exact h2.elim
  | raw x =>
    obtain ⟨k, h, rfl, hl⟩ := raw hy
    cases y' with
    | null =>
      simp only [Shows] at h2
      subst h2
      cases k <;> simp only [Shows] at h1 <;> first | exact h1.elim | (subst h1; simp [Same] at hs)
    | bits v =>
      obtain ⟨hb, rfl⟩ := h2
      cases k <;> simp [isBit] at hb
      exact h1.elim
    | raw x' =>
      obtain ⟨k', h', he, hl'⟩ := raw hy'
      cases he
      have hll : x.length = x'.length := by omega
      simp only [LooksAs]
      cases k <;> simp only [Shows] at h1 h2 <;> first
        | exact h1.elim
        | (subst h1; subst h2; simp [Same] at hs
           first | exact leDec_inj hll hs | exact intDec_inj hll hs | exact hs)
    | node vs => exact h2.elim
  | node vs =>
    cases y' with
    | node => trivial
    | null =>
      simp only [Shows] at h2
      subst h2
      cases t with
      | prim => exact h1.elim
      | str bin h => obtain ⟨_, _, rfl⟩ := h1; simp [Same] at hs
      | tup h fs => obtain ⟨_, _, rfl, _⟩ := h1; simp [Same] at hs
      | arr h c => obtain ⟨_, _, rfl, _⟩ := h1; simp [Same] at hs
    | bits v =>
      obtain ⟨hb, _⟩ := h2
      cases t <;> simp [isBit] at hb
      exact h1.elim
    | raw x => obtain ⟨k, h, rfl, _⟩ := raw hy'; exact h1.elim

/-- Two values of the same type that are read alike at a position look the same there. -/
theorem looks_at {d : Dti} {m m' : Bytes} {S S' : Nat} {v v' : Val} {pa : List Nat} (hd : TyOk d) (hS : S ≤ m.length)
    (hS' : S' ≤ m'.length) (e : Enc d (m.take S) v) (e' : Enc d (m'.take S') v')
    (hs : Same (d.getElem m pa) (d.getElem m' pa)) : LooksAs (v.at' pa) (v'.at' pa) := by
  have g := getElem_ok pa hd hS e
  have g' := getElem_ok pa hd hS' e'
  unfold GetOk at g g'
  cases hv : v.at' pa with
  | none =>
    simp only [hv] at g
    cases hv' : v'.at' pa with
    | none => trivial
    | some y' =>
      simp only [hv'] at g'
      rcases g' with ⟨_, g'⟩ | ⟨_, _, _, g', _⟩ <;> rw [g, g'] at hs <;> simp [Same] at hs
  | some y =>
    simp only [hv] at g
    cases hv' : v'.at' pa with
    | none =>
      simp only [hv'] at g'
      rcases g with ⟨_, g⟩ | ⟨_, _, _, g, _⟩ <;> rw [g, g'] at hs <;> simp [Same] at hs
    | some y' =>
      simp only [hv'] at g'
      rcases g with ⟨rfl, g⟩ | ⟨t, dt, gt, g, gs⟩
      · rcases g' with ⟨rfl, g'⟩ | ⟨t', dt', gt', g', gs'⟩
        · trivial
        · rw [g, g'] at hs
          exact shows_looks (.inl rfl) (held_at pa hd (.inr (.inr ⟨_, e'⟩)) hv' gt') rfl gs' hs
      · rcases g' with ⟨rfl, g'⟩ | ⟨t', dt', gt', g', gs'⟩
        · rw [g, g'] at hs
          exact shows_looks (held_at pa hd (.inr (.inr ⟨_, e⟩)) hv gt) (.inl rfl) gs rfl hs
        · rw [gt] at gt'
          cases gt'
          rw [g, g'] at hs
          exact shows_looks (held_at pa hd (.inr (.inr ⟨_, e⟩)) hv gt) (held_at pa hd (.inr (.inr ⟨_, e'⟩)) hv' gt) gs gs' hs

/-- Two values of the same type that are read alike at every position are equal. -/
theorem val_ext {d : Dti} {m m' : Bytes} {S S' : Nat} {v v' : Val} (hd : TyOk d) (hS : S ≤ m.length) (hS' : S' ≤ m'.length)
    (e : Enc d (m.take S) v) (e' : Enc d (m'.take S') v') (h : ∀ pa, Same (d.getElem m pa) (d.getElem m' pa)) : v = v' :=
  val_ext_at _ v v' (Nat.le_refl _) fun pa => looks_at hd hS hS' e e' (h pa)

end Dti
end TS
