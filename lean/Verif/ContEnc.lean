import Verif.ContMove
/-
Abstract values: what a byte string of a type means, independent of its physical layout.
-/
namespace TS

/-- The logical value of an element: NULL, the value of a bit field, the bytes of a number, or the
values of the elements of a string, binary, tuple or array. -/
inductive Val where
  | null
  | bits (v : Nat)
  | raw (b : Bytes)
  | node (vs : List Val)

namespace Dti

/-- `b` is one datum of type `d` with logical value `v`. -/
inductive Enc : Dti → Bytes → Val → Prop
  | prim {k : PKind} {h : Hdr} {b : Bytes} : k ≠ .bitField → b.length = h.size →
      Enc (.prim k h) b (.raw b)
  | cont {d : Dti} {b : Bytes} {cs : List Elt} {o : Nat → Nat} {vs : List Val} :
      d.isCont = true → CRep d b b.length cs o → vs.length = cs.length →
      (∀ i : Nat, cs[i]? = some .null → vs[i]? = some .null) →
      (∀ (i : Nat) v, cs[i]? = some (.bits v) → vs[i]? = some (.bits v)) →
      (∀ (i : Nat) x y, cs[i]? = some (.fixd x) → vs[i]? = some y → Enc (posOf d cs.length i).ty x y) →
      (∀ (i : Nat) x y, cs[i]? = some (.var x) → vs[i]? = some y → Enc (posOf d cs.length i).ty x y) →
      Enc d b (.node vs)

/-- The element content `c` of type `t` has value `y`. -/
def EVal (t : Dti) (c : Elt) (y : Val) : Prop :=
  match c with
  | .null => y = .null
  | .bits v => y = .bits v
  | .fixd x => Enc t x y
  | .var x => Enc t x y

/-- The elements `cs` of a container of type `d` have the values `vs`. -/
def EVals (d : Dti) (cs : List Elt) (vs : List Val) : Prop :=
  vs.length = cs.length ∧
    ∀ (i : Nat) c y, cs[i]? = some c → vs[i]? = some y → EVal (posOf d cs.length i).ty c y

theorem enc_node {d : Dti} {b : Bytes} {cs : List Elt} {o : Nat → Nat} {vs : List Val}
    (hc : d.isCont = true) (r : CRep d b b.length cs o) (hv : EVals d cs vs) : Enc d b (.node vs) := by
  refine .cont hc r hv.1 ?_ ?_ ?_ ?_
  · intro i hi
    have hlt : i < vs.length := by rw [hv.1]; exact (List.getElem?_eq_some_iff.mp hi).1
    have hy := List.getElem?_eq_getElem hlt
    have := hv.2 i _ _ hi hy
    rw [hy]; exact congrArg some this
  · intro i v hi
    have hlt : i < vs.length := by rw [hv.1]; exact (List.getElem?_eq_some_iff.mp hi).1
    have hy := List.getElem?_eq_getElem hlt
    have := hv.2 i _ _ hi hy
    rw [hy]; exact congrArg some this
  · intro i x y hx hy; exact hv.2 i _ _ hx hy
  · intro i x y hx hy; exact hv.2 i _ _ hx hy

theorem enc_cont {d : Dti} {b : Bytes} {v : Val} (hc : d.isCont = true) (h : Enc d b v) :
    ∃ cs o vs, v = .node vs ∧ CRep d b b.length cs o ∧ EVals d cs vs := by
  cases h with
  | prim => simp [isCont] at hc
  | cont h1 r h2 hn hb hf hv =>
    rename_i cs o vs
    refine ⟨cs, o, vs, rfl, r, h2, ?_⟩
    intro i c y hc hy
    cases c with
    | null => rw [hn i hc] at hy; cases hy; rfl
    | bits v => rw [hb i v hc] at hy; cases hy; rfl
    | fixd x => exact hf i x y hc hy
    | var x => exact hv i x y hc hy

theorem enc_prim {k : PKind} {h : Hdr} {b : Bytes} {v : Val} (e : Enc (.prim k h) b v) :
    k ≠ .bitField ∧ b.length = h.size ∧ v = .raw b := by
  cases e with
  | prim h1 h2 => exact ⟨h1, h2, rfl⟩
  | cont h1 => simp [isCont] at h1

/-- A list of witnesses. -/
theorem exists_list {P : Nat → Val → Prop} (n : Nat) (h : ∀ i, i < n → ∃ x, P i x) :
    ∃ vs : List Val, vs.length = n ∧ ∀ (i : Nat) y, vs[i]? = some y → P i y := by
  induction n with
  | zero => exact ⟨[], rfl, by simp⟩
  | succ n ih =>
    obtain ⟨vs, h1, h2⟩ := ih (fun i hi => h i (by omega))
    obtain ⟨x, hx⟩ := h n (by omega)
    refine ⟨vs ++ [x], by simp [h1], ?_⟩
    intro i y hy
    by_cases hi : i < n
    · rw [List.getElem?_append_left (by omega)] at hy; exact h2 i y hy
    · rw [List.getElem?_append_right (by omega)] at hy
      have : i = n := by
        have := (List.getElem?_eq_some_iff.mp hy).1
        simp at this; omega
      subst this
      simp [h1] at hy; subst hy; exact hx

/-! ### Size of a datum -/

theorem fixed_not_var {d : Dti} (hv : d.isVar = false) : d.isVarCount = false ∧ d.hasSizeP = false := by
  cases d <;> simp_all [isVarCount, hasSizeP, isVar, hdr]

theorem enc_size {d : Dti} {b : Bytes} {v : Val} (h : TyOk d) (e : Enc d b v) :
    d.getSize b = some b.length ∧ 1 ≤ b.length ∧ b.length < lim ∧ d.isBit = false ∧
    (d.isVar = true → d.hdr.size ≤ b.length ∧ b.length ≤ d.hdr.maxSize) ∧
    (d.isVar = false → b.length = d.hdr.size) := by
  cases hc : d.isCont with
  | true =>
    obtain ⟨cs, o, vs, rfl, r, hv⟩ := enc_cont hc e
    have hs := getSize_eq h hc r
    have hlim := r.lt_lim h hc
    have hp := h.size_pos
    have hsum := r.sum
    have hmin : d.hdr.size ≤ b.length := by
      cases hvc : d.isVarCount with
      | false =>
        have h1 := fixedEnd_count h hvc
        have h2 := r.cntF hvc
        rw [h2] at hsum; omega
      | true =>
        have h0 : fixedEnd d 0 = d.hdr.size := by
          cases h with
          | prim => rfl
          | str bb h a1 a2 a3 a4 =>
            simp [isVarCount] at hvc
            have := (a4 hvc).1
            simp [fixedEnd, offBitmap, offCountP, hasSizeP, hasCountP, isVarCount, hvc, hdr, this, w]
          | tup => simp [isVarCount] at hvc
          | arr h c a1 a2 a3 a4 a5 => simp [isVarCount] at hvc; exact (a5 hvc.2).symm
        have hmono : fixedEnd d 0 ≤ fixedEnd d cs.length := by
          cases d with
          | prim => exact Nat.le_refl _
          | tup => exact Nat.le_refl _
          | str => simp [fixedEnd]
          | arr hh c =>
            simp only [fixedEnd, bitsOf]
            split
            · simp [bitmapBytes]
            · simp [bitmapBytes]; omega
        omega
    refine ⟨hs, by omega, hlim, isCont_not_bit hc, fun hv => ⟨hmin, r.mx hv⟩, ?_⟩
    intro hv
    obtain ⟨f1, f2⟩ := fixed_not_var hv
    rw [no_var_heap h hc r f2, r.cntF f1, fixedEnd_count h f1] at hsum
    omega
  | false =>
    cases d with
    | prim k hh =>
      obtain ⟨h1, h2, h3⟩ := enc_prim e
      have hp := h.size_pos
      have hl := h.size_lt
      have hv : isVar (.prim k hh) = false := by cases h; assumption
      have hb : isBit (.prim k hh) = false := by
        cases k <;> simp_all [isBit]
      simp only [hdr] at hp hl
      refine ⟨by simp [getSize, hb, hv, hdr, h2], by omega, by omega, hb, ?_, ?_⟩
      · intro hh; rw [hv] at hh; cases hh
      · intro _; exact h2
    | _ => simp [isCont] at hc

/-! ### Data without variable sized content -/

/-- The element a position holds if it is not a variable sized one with content. -/
def eltOf (d : Dti) (m : Bytes) (p : PosInfo) : Elt :=
  if p.ty.needsValid && !bit m d.offBitmap p.vbit then .null
  else if p.ty.isBit then .bits (bitsVal m d.offBitmap p.off p.ty.hdr.size)
  else if p.ty.isVar then .null
  else .fixd (rd m p.off p.ty.hdr.size)

theorem eltOf_hlen (d : Dti) (m : Bytes) (p : PosInfo) : (eltOf d m p).hlen = 0 := by
  unfold eltOf
  split
  · rfl
  · split
    · rfl
    · split <;> rfl

theorem eltOf_at {d : Dti} {m : Bytes} {S fe o : Nat} {p : PosInfo}
    (hw : p.ty.isVar = true → d.word m p.off = 0) : EltAt d m S fe p o (eltOf d m p) := by
  unfold eltOf
  split
  · rename_i h; simp at h; left; exact h
  · rename_i h
    have hn : p.ty.needsValid = true → bit m d.offBitmap p.vbit = true := by
      intro hh; simpa [hh] using h
    split
    · rename_i hb; exact ⟨hb, hn, rfl⟩
    · rename_i hb
      split
      · rename_i hv; right; exact ⟨hv, hw hv⟩
      · rename_i hv; exact ⟨by simpa using hb, by simpa using hv, hn, rfl⟩

/-- The elements of a container without variable sized content. -/
def eltsOf (d : Dti) (m : Bytes) (n : Nat) : List Elt := (List.range n).map (fun i => eltOf d m (posOf d n i))

@[simp] theorem eltsOf_length (d : Dti) (m : Bytes) (n : Nat) : (eltsOf d m n).length = n := by simp [eltsOf]

theorem eltsOf_get {d : Dti} {m : Bytes} {n i : Nat} {c : Elt} (h : (eltsOf d m n)[i]? = some c) :
    i < n ∧ c = eltOf d m (posOf d n i) := by
  have hi := (List.getElem?_eq_some_iff.mp h).1
  simp at hi
  simp [eltsOf, hi] at h
  exact ⟨hi, h.symm⟩

theorem crep_noVar {d : Dti} {m : Bytes} {n : Nat} (hl : fixedEnd d n ≤ m.length)
    (hmx : d.isVar = true → fixedEnd d n ≤ d.hdr.maxSize) (hn : CountOk d n)
    (hcv : d.isVarCount = true → d.word m d.offCountP = n)
    (hsp : d.hasSizeP = true → d.word m 0 = fixedEnd d n % 256 ^ d.w)
    (hw : ∀ i, i < n → (posOf d n i).ty.isVar = true → d.word m (posOf d n i).off = 0) :
    CRep d m (fixedEnd d n) (eltsOf d m n) (fun _ => 0) := by
  have hz : heap (eltsOf d m n) = 0 := by
    apply heap_zero
    intro i c hi
    rw [(eltsOf_get hi).2]; exact eltOf_hlen _ _ _
  refine ⟨hl, hmx, by simpa [CountOk] using hn, by simpa using hcv, hsp, by simp [hz], ?_, ?_⟩
  · intro i c hi
    obtain ⟨h1, h2⟩ := eltsOf_get hi
    subst h2
    simp only [eltsOf_length]
    exact eltOf_at (hw i h1)
  · intro i j a b _ hi
    have := (eltsOf_get hi).2
    have h2 := eltOf_hlen d m (posOf d n i)
    rw [← this] at h2
    unfold eltOf at this
    split at this
    · cases this
    · split at this
      · cases this
      · split at this <;> cases this

/-- Any bytes of the right length are a datum of a fixed sized type. -/
theorem fixed_enc (d : Dti) : ∀ b, TyOk d → d.isVar = false → d.isBit = false →
    b.length = d.hdr.size → ∃ v, Enc d b v := by
  induction d using ind with
  | hp k h =>
    intro b _ _ hb hl
    exact ⟨_, .prim (by intro hk; subst hk; simp [isBit] at hb) hl⟩
  | hs bin h =>
    intro b hok hv _ hl
    obtain ⟨f1, f2⟩ := fixed_not_var hv
    have hfe := fixedEnd_count hok f1
    have r := crep_noVar (d := .str bin h) (m := b) (n := h.count) (by simp only [hdr] at *; omega)
      (by rw [hv]; intro hh; cases hh) (fun _ => rfl) (by rw [f1]; intro hh; cases hh)
      (by rw [f2]; intro hh; cases hh) (by intro i hi hh; cases hh)
    rw [show fixedEnd (.str bin h) h.count = b.length by rw [hl]; exact hfe] at r
    obtain ⟨vs, g1, g2⟩ := exists_list (P := fun i y => EVal (posOf (.str bin h) h.count i).ty
      (eltOf (.str bin h) b (posOf (.str bin h) h.count i)) y) h.count (by
        intro i hi
        have hs : h.count = h.size := hfe ▸ (by
          simp [fixedEnd, offBitmap, offCountP, hasSizeP, hasCountP, f1, hdr] at hfe
          simp [fixedEnd, offBitmap, offCountP, hasSizeP, hasCountP, f1, hdr])
        refine ⟨.raw (rd b (posOf (.str bin h) h.count i).off 1), ?_⟩
        have : eltOf (.str bin h) b (posOf (.str bin h) h.count i) =
          .fixd (rd b (posOf (.str bin h) h.count i).off 1) := rfl
        rw [this]
        refine Enc.prim (by decide) ?_
        have hoff : (posOf (.str bin h) h.count i).off = i := by
          simp [posOf, offBitmap, offCountP, hasSizeP, hasCountP, f1]
        rw [hoff, rd_length _ _ _ (by simp only [hdr] at hl; omega)])
    refine ⟨_, enc_node (vs := vs) rfl r ⟨by simp [g1], ?_⟩⟩
    intro i c y hi hy
    obtain ⟨_, h2⟩ := eltsOf_get hi
    subst h2
    simp only [eltsOf_length]
    exact g2 i y hy
  | ht h fs ih =>
    intro b hok hv _ hl
    obtain ⟨f1, f2⟩ := fixed_not_var hv
    have hfe := fixedEnd_count hok f1
    simp only [hdr] at hfe hl
    have hnv : ∀ i, i < h.count → (posOf (.tup h fs) h.count i).ty.isVar = false := by
      intro i hi
      cases hh : (posOf (.tup h fs) h.count i).ty.isVar with
      | false => rfl
      | true =>
        have := (var_hasSize hok rfl (n := h.count) (fun _ => rfl) hi hh).2
        rw [hv] at this; cases this
    have r := crep_noVar (d := .tup h fs) (m := b) (n := h.count) (by simp only [hdr] at *; omega)
      (by rw [hv]; intro hh; cases hh) (fun _ => rfl) (by rw [f1]; intro hh; cases hh)
      (by rw [f2]; intro hh; cases hh) (by intro i hi hh; rw [hnv i hi] at hh; cases hh)
    rw [show fixedEnd (.tup h fs) h.count = b.length by rw [hl]; exact hfe] at r
    have hlay := lay_of hok rfl (n := h.count) (fun _ => rfl)
    obtain ⟨vs, g1, g2⟩ := exists_list (P := fun i y => EVal (posOf (.tup h fs) h.count i).ty
      (eltOf (.tup h fs) b (posOf (.tup h fs) h.count i)) y) h.count (by
        intro i hi
        unfold eltOf
        split
        · exact ⟨_, rfl⟩
        · split
          · exact ⟨_, rfl⟩
          · rename_i hb
            have hb : (posOf (.tup h fs) h.count i).ty.isBit = false := by simpa using hb
            rw [hnv i hi]
            simp only [Bool.false_eq_true, if_false]
            have hpo := posOf_ok hok rfl (n := h.count) (fun _ => rfl) hi
            have hfx := hlay.fx i hi hb
            simp only [slot, hnv i hi, Bool.false_eq_true, if_false] at hfx
            have hmem : ∃ f, (f, (posOf (.tup h fs) h.count i).ty) ∈ fs := by
              have hlen : fs.length = h.count := by cases hok; assumption
              have hx := List.getElem?_eq_getElem (l := fs) (i := i) (by omega)
              refine ⟨fs[i].1, ?_⟩
              simp only [posOf, hx]
              exact List.getElem_mem _
            obtain ⟨f, hf⟩ := hmem
            exact ih f _ hf _ hpo (hnv i hi) hb (rd_length _ _ _ (by omega)))
    refine ⟨_, enc_node (vs := vs) rfl r ⟨by simp [g1], ?_⟩⟩
    intro i c y hi hy
    obtain ⟨_, h2⟩ := eltsOf_get hi
    subst h2
    simp only [eltsOf_length]
    exact g2 i y hy
  | ha h c ih =>
    intro b hok hv _ hl
    obtain ⟨f1, f2⟩ := fixed_not_var hv
    have hfe := fixedEnd_count hok f1
    simp only [hdr] at hfe hl
    have hty : ∀ i, (posOf (.arr h c) h.count i).ty = c := by
      intro i; simp only [posOf]; split
      · split <;> rfl
      · rfl
    have hnv : ∀ i, i < h.count → (posOf (.arr h c) h.count i).ty.isVar = false := by
      intro i hi
      cases hh : (posOf (.arr h c) h.count i).ty.isVar with
      | false => rfl
      | true =>
        have := (var_hasSize hok rfl (n := h.count) (fun _ => rfl) hi hh).2
        rw [hv] at this; cases this
    have r := crep_noVar (d := .arr h c) (m := b) (n := h.count) (by simp only [hdr] at *; omega)
      (by rw [hv]; intro hh; cases hh) (fun _ => rfl) (by rw [f1]; intro hh; cases hh)
      (by rw [f2]; intro hh; cases hh) (by intro i hi hh; rw [hnv i hi] at hh; cases hh)
    rw [show fixedEnd (.arr h c) h.count = b.length by rw [hl]; exact hfe] at r
    have hlay := lay_of hok rfl (n := h.count) (fun _ => rfl)
    obtain ⟨vs, g1, g2⟩ := exists_list (P := fun i y => EVal (posOf (.arr h c) h.count i).ty
      (eltOf (.arr h c) b (posOf (.arr h c) h.count i)) y) h.count (by
        intro i hi
        unfold eltOf
        split
        · exact ⟨_, rfl⟩
        · split
          · exact ⟨_, rfl⟩
          · rename_i hb
            have hb : (posOf (.arr h c) h.count i).ty.isBit = false := by simpa using hb
            rw [hnv i hi]
            simp only [Bool.false_eq_true, if_false]
            have hpo := posOf_ok hok rfl (n := h.count) (fun _ => rfl) hi
            have hfx := hlay.fx i hi hb
            simp only [slot, hnv i hi, Bool.false_eq_true, if_false] at hfx
            have hn := hnv i hi
            simp only [EVal]
            rw [hty] at hb hpo hn ⊢
            refine ih _ hpo hn hb (rd_length _ _ _ ?_)
            rw [hty] at hfx
            omega)
    refine ⟨_, enc_node (vs := vs) rfl r ⟨by simp [g1], ?_⟩⟩
    intro i c y hi hy
    obtain ⟨_, h2⟩ := eltsOf_get hi
    subst h2
    simp only [eltsOf_length]
    exact g2 i y hy

end Dti
end TS
