import Verif.Valid
/-
A weaker check of bytes of unknown origin, which is enough for reading elements. The library has no
such check.
-/
namespace TS
namespace Dti

/-- The fixed part of the container lies within the memory, and what its offsets point to
satisfies `f`. -/
def reachOk (d : Dti) (m : Bytes) (f : Nat → Bytes → Bool) : Bool :=
  let n := d.annCount m
  decide (d.offBitmap ≤ m.length) && decide (fixedEnd d n ≤ m.length) && decide (fixedEnd d n < 2 ^ 32) &&
  (List.range n).all (fun i =>
    !(posOf d n i).ty.isVar || decide (d.word m (posOf d n i).off = 0) ||
      f i (m.drop (d.word m (posOf d n i).off)))

mutual
/-- The fixed part of every container that can be reached through offsets from a datum of type `d`
at the start of `m` lies within `m`. -/
def safe : Dti → Bytes → Bool
  | .prim k h, m => decide (k = .bitField) || decide (h.size ≤ m.length)
  | .str s h, m => reachOk (.str s h) m (fun _ _ => true)
  | .tup h fs, m => reachOk (.tup h fs) m (safeAt fs)
  | .arr h c, m => reachOk (.arr h c) m (fun _ => safe c)
def safeAt : List (Fld × Dti) → Nat → Bytes → Bool
  | [], _, _ => false
  | (_, t) :: _, 0, x => safe t x
  | _ :: fs, i + 1, x => safeAt fs i x
end

theorem safeAt_eq (fs : List (Fld × Dti)) : ∀ (i : Nat) (x : Bytes),
    safeAt fs i x = match fs[i]? with | some (_, t) => safe t x | none => false := by
  induction fs with
  | nil => intro i x; simp [safeAt]
  | cons p fs ih =>
    intro i x
    obtain ⟨f, t⟩ := p
    cases i with
    | zero => simp [safeAt]
    | succ i => simp [safeAt, ih]

/-- What `safe` says about a container. -/
structure Reach (d : Dti) (m : Bytes) (n : Nat) : Prop where
  cnt : n = d.annCount m
  pre : d.offBitmap ≤ m.length
  fix : fixedEnd d n ≤ m.length
  lt : fixedEnd d n < 2 ^ 32
  elt : ∀ i, i < n → (posOf d n i).ty.isVar = true → d.word m (posOf d n i).off ≠ 0 →
    safe (posOf d n i).ty (m.drop (d.word m (posOf d n i).off)) = true

theorem reachOk_iff {d : Dti} {m : Bytes} {f : Nat → Bytes → Bool}
    (hf : ∀ i, i < d.annCount m → (posOf d (d.annCount m) i).ty.isVar = true → ∀ x, f i x = safe (posOf d (d.annCount m) i).ty x) :
    reachOk d m f = true ↔ Reach d m (d.annCount m) := by
  simp only [reachOk, Bool.and_eq_true, decide_eq_true_eq, List.all_eq_true, List.mem_range,
      Bool.or_eq_true, Bool.not_eq_true']
  constructor
  · intro ⟨⟨⟨h1, h2⟩, h3⟩, h4⟩
    refine ⟨rfl, h1, h2, h3, ?_⟩
    intro i hi hv hw
    rcases h4 i hi with (h | h) | h
    · rw [hv] at h; cases h
    · exact absurd h hw
    · rw [← hf i hi hv]; exact h
  · intro ⟨_, h1, h2, h3, h4⟩
    refine ⟨⟨⟨h1, h2⟩, h3⟩, ?_⟩
    intro i hi
    cases hv : (posOf d (d.annCount m) i).ty.isVar with
    | false => exact .inl (.inl rfl)
    | true =>
      by_cases hw : d.word m (posOf d (d.annCount m) i).off = 0
      · exact .inl (.inr hw)
      · right; rw [hf i hi hv]; exact h4 i hi hv hw

theorem safe_cont {d : Dti} (h : TyOk d) (hc : d.isCont = true) (m : Bytes) :
    safe d m = true ↔ Reach d m (d.annCount m) := by
  cases d with
  | prim => simp [isCont] at hc
  | str s hh =>
    rw [safe]
    exact reachOk_iff (by intro i _ hv; simp [posOf, u8, isVar, hdr] at hv)
  | arr hh c =>
    rw [safe]
    apply reachOk_iff
    intro i _ _ x
    have : (posOf (.arr hh c) (annCount (.arr hh c) m) i).ty = c := by
      simp only [posOf]; split
      · split <;> rfl
      · rfl
    rw [this]
  | tup hh fs =>
    rw [safe]
    apply reachOk_iff
    intro i hi _ x
    have hl : fs.length = hh.count := by cases h; assumption
    have hi : i < fs.length := by simpa [annCount, isVarCount, hdr, hl] using hi
    rw [safeAt_eq]
    simp only [posOf]
    rw [List.getElem?_eq_getElem hi]

/-- A datum of fixed size is safe wherever there is room for it. -/
theorem safe_fixed {d : Dti} {m : Bytes} (h : TyOk d) (hv : d.isVar = false) (hl : d.hdr.size ≤ m.length) :
    safe d m = true := by
  cases hc : d.isCont with
  | false =>
    cases d with
    | prim k hh => simp only [hdr] at hl; simp [safe, hl]
    | _ => simp [isCont] at hc
  | true =>
    rw [safe_cont h hc]
    obtain ⟨f1, f2⟩ := fixed_not_var hv
    have hn : d.annCount m = d.hdr.count := by simp [annCount, f1]
    have hcn := annCount_ok d m
    have hfe := fixedEnd_count h f1
    have hbm := bitmap_le_fixedEnd h hc hcn
    have hlim := h.size_lt
    unfold lim at hlim
    rw [hn] at hbm hcn ⊢
    refine ⟨hn.symm, by omega, by omega, by omega, ?_⟩
    intro i hi hvv
    have := (var_hasSize h hc hcn hi hvv).2
    rw [hv] at this; cases this

theorem reach_count {d : Dti} {m : Bytes} {n : Nat} (hc : d.isCont = true) (r : Reach d m n) :
    d.getCount m = some n := by
  unfold getCount
  rw [hc, r.cnt]
  cases hv : d.isVarCount with
  | false => simp [annCount, hv]
  | true =>
    simp only [Bool.not_true, Bool.false_eq_true, if_false]
    have h1 := r.pre
    rw [word_eq rfl (by simp [offBitmap, hasCountP, hv] at h1; omega)]
    simp [annCount, hv]

theorem reach_pos {d : Dti} {m : Bytes} {n i : Nat} (h : TyOk d) (hc : d.isCont = true) (r : Reach d m n)
    (hi : i < n) : d.posInfo m i = some (posOf d n i) := by
  have hcnt := reach_count hc r
  have hcn : CountOk d n := r.cnt ▸ annCount_ok d m
  have hlay := lay_of h hc hcn
  have hlim := r.lt
  have hbm := bitmap_le_fixedEnd h hc hcn
  cases d with
  | prim => simp [isCont] at hc
  | tup hh fs =>
    have hlen : fs.length = n := by
      cases h with
      | tup _ _ a1 a2 a3 a4 => rw [a4]; exact (hcn rfl).symm
    simp only [posInfo, posOf]
    rw [List.getElem?_eq_getElem (by omega)]
    rfl
  | str b hh =>
    have hfx := (hlay.fx i hi rfl).2
    simp only [posOf] at hfx
    have : slot (w (.str b hh)) u8 = 1 := rfl
    rw [this] at hfx
    simp only [posInfo, bitmapBits, tyAt, posOf]
    have hu : u8.isBit = false := rfl
    have hn : u8.needsValid = false := rfl
    have hz : u8.hdr.size = 1 := rfl
    have hv : u8.isVar = false := rfl
    simp only [Option.bind_eq_bind, Option.bind_some, hu, hn, hz, hv, bitmapBytes]
    simp
    rw [u32_eq (by omega)]
    simp
    rw [u32_eq (by omega)]
    rfl
  | arr hh c =>
    simp only [posInfo, bitmapBits, tyAt, hcnt, Option.bind_eq_bind, Option.bind_some]
    cases hb : c.isBit with
    | true =>
      simp only [bitsOf, hb, if_true] at hbm
      simp only [if_true, Option.pure_def, Option.bind_some]
      rw [u32_eq (by omega)]
      simp only [Option.bind_some, posOf, hb, if_true]
      split <;> rfl
    | false =>
      simp only [bitsOf, hb, Bool.false_eq_true, if_false] at hbm
      simp only [Bool.false_eq_true, if_false, Option.pure_def, Option.bind_some]
      rw [u32_eq (by omega)]
      have hfx := (hlay.fx i hi (by simp [posOf, hb])).2
      simp only [posOf, hb, Bool.false_eq_true, if_false] at hfx
      simp only [Option.bind_some, posOf, hb, Bool.false_eq_true, if_false]
      cases hv : c.isVar with
      | false =>
        simp only [slot, hv, Bool.false_eq_true, if_false] at hfx ⊢
        simp only [Bool.not_false, if_true]
        rw [u32_eq (by omega)]; rfl
      | true =>
        simp only [slot, hv, if_true] at hfx ⊢
        simp only [Bool.not_true, Bool.false_eq_true, if_false]
        rw [u32_eq (by omega)]
        simp [needsValid, hv]

/-- Where the element is: NULL, in the bitmap, or at an offset at which it is safe. -/
theorem reach_ptr {d : Dti} {m : Bytes} {n i : Nat} (h : TyOk d) (hc : d.isCont = true) (r : Reach d m n)
    (hi : i < n) : let p := posOf d n i
    d.ptrAt m p = some none ∨
    (p.ty.isBit = true ∧ d.ptrAt m p = some (some d.offBitmap) ∧
      (getBits m d.offBitmap p.off p.ty.hdr.size).isSome) ∨
    (p.ty.isBit = false ∧ ∃ o, d.ptrAt m p = some (some o) ∧ safe p.ty (m.drop o) = true) := by
  intro p
  have hcn : CountOk d n := r.cnt ▸ annCount_ok d m
  have hlay := lay_of h hc hcn
  have hbm := bitmap_le_fixedEnd h hc hcn
  have hfix := r.fix
  have hok : TyOk p.ty := posOf_ok h hc hcn hi
  have helt := r.elt i hi
  have l1 := hlay.vb i hi
  have l2 := hlay.bf i hi
  have l3 := hlay.fx i hi
  change p.ty.isVar = true → _ at helt
  change p.ty.needsValid = true → p.vbit < _ at l1
  change p.ty.isBit = true → p.off + p.ty.hdr.size ≤ _ at l2
  change p.ty.isBit = false → _ ≤ p.off ∧ p.off + slot d.w p.ty ≤ _ at l3
  have hbb : ∀ a k, a ≤ k → bitmapBytes a ≤ bitmapBytes k := by
    intro a k hak; unfold bitmapBytes; omega
  have hvalid : ∃ v, (if p.ty.needsValid = true then getBit m d.offBitmap p.vbit else some true) = some v := by
    cases hn : p.ty.needsValid with
    | false => exact ⟨true, rfl⟩
    | true =>
      have := l1 hn
      refine ⟨_, getBit_eq ?_⟩
      have h8 : p.vbit / 8 < bitmapBytes (bitsOf d n) := by unfold bitmapBytes; omega
      omega
  obtain ⟨v, hv⟩ := hvalid
  have hp : d.ptrAt m p = if !v then some none else if p.ty.isBit then some (some d.offBitmap)
      else if !p.ty.isVar then some (some p.off)
      else (loadVal m d.hdr.maxSize p.off).bind fun o => some (if o = 0 then none else some o) := by
    unfold ptrAt
    by_cases hn : p.ty.needsValid = true
    · rw [if_pos hn] at hv ⊢
      rw [hv]; rfl
    · rw [if_neg hn] at hv ⊢
      cases hv; rfl
  rw [hp]
  cases v with
  | false => exact .inl rfl
  | true =>
    simp only [Bool.not_true, Bool.false_eq_true, if_false]
    cases hb : p.ty.isBit with
    | true =>
      right; left
      refine ⟨rfl, by simp, ?_⟩
      have h64 : p.ty.hdr.size ≤ 64 := hok.bit_le hb
      unfold getBits
      rw [if_pos h64, getBitsN_eq _ _ (by have := hbb _ _ (l2 hb); omega)]
      rfl
    | false =>
      simp only [Bool.false_eq_true, if_false]
      have l3 := l3 hb
      cases hvv : p.ty.isVar with
      | false =>
        right; right
        simp only [slot, hvv, Bool.false_eq_true, if_false] at l3
        refine ⟨trivial, p.off, by simp, safe_fixed hok hvv (by simp; omega)⟩
      | true =>
        simp only [slot, hvv, if_true] at l3
        simp only [Bool.not_true, Bool.false_eq_true, if_false]
        rw [word_eq rfl (by omega)]
        by_cases hw : d.word m p.off = 0
        · left; simp [hw]
        · right; right
          refine ⟨trivial, d.word m p.off, by simp [hw], helt hvv hw⟩

theorem safe_datum {d : Dti} {m : Bytes} (h : TyOk d) (hs : safe d m = true) : (d.getDatum m).isSome := by
  cases d with
  | prim k hh =>
    cases k with
    | bitField => rfl
    | _ =>
      have hl : hh.size ≤ m.length := by simpa [safe] using hs
      simp [getDatum, load, hl]
  | tup => rfl
  | arr => rfl
  | str s hh =>
    have r := (safe_cont h rfl m).mp hs
    have hcnt := reach_count rfl r
    have hf := r.fix
    generalize annCount (.str s hh) m = n at hcnt hf
    simp only [fixedEnd] at hf
    cases s <;> simp [getDatum, hcnt, load, hf]

theorem safe_cont_get {d : Dti} {m : Bytes} (i : Nat) (h : TyOk d) (hs : safe d m = true) :
    (d.getCont m i).isSome := by
  unfold getCont
  cases hc : d.isCont with
  | false => rfl
  | true =>
    have r := (safe_cont h hc m).mp hs
    have hcn := annCount_ok d m
    generalize annCount d m = n at r hcn
    simp only [Bool.not_true, Bool.false_eq_true, if_false, reach_count hc r, Option.bind_eq_bind, Option.bind_some]
    by_cases hi : i < n
    · rw [if_neg (by omega)]
      unfold getContUnsafe getAt
      simp only [reach_pos h hc r hi, Option.bind_eq_bind, Option.bind_some]
      have hok := posOf_ok h hc hcn hi
      rcases reach_ptr h hc r hi with h1 | ⟨h1, h2, h3⟩ | ⟨h1, o, h2, h3⟩
      · simp [h1]
      · simp only [h2, Option.bind_some, h1, if_true]
        obtain ⟨x, hx⟩ := Option.isSome_iff_exists.mp h3
        simp [hx]
      · simp only [h2, Option.bind_some, h1, Bool.false_eq_true, if_false]
        exact safe_datum hok h3
    · rw [if_pos (by omega)]; rfl

/-- Reading any element of a safe datum stays within the memory. -/
theorem safe_get (pa : List Nat) : ∀ {d : Dti} {m : Bytes}, TyOk d → safe d m = true →
    (Dti.getElem d m pa).isSome := by
  induction pa with
  | nil => intro d m h hs; exact safe_datum h hs
  | cons i pa ih =>
    intro d m h hs
    cases pa with
    | nil => exact safe_cont_get i h hs
    | cons j pa =>
      unfold Dti.getElem
      cases hc : d.isCont with
      | false => rfl
      | true =>
        have r := (safe_cont h hc m).mp hs
        have hcn := annCount_ok d m
        generalize annCount d m = n at r hcn
        simp only [Bool.not_true, Bool.false_eq_true, if_false, reach_count hc r, Option.bind_eq_bind, Option.bind_some]
        by_cases hi : i < n
        · rw [if_neg (by omega)]
          simp only [reach_pos h hc r hi, Option.bind_some]
          have hok := posOf_ok h hc hcn hi
          rcases reach_ptr h hc r hi with h1 | ⟨h1, h2, h3⟩ | ⟨h1, o, h2, h3⟩
          · simp [h1]
          · simp only [h2, Option.bind_some]
            have : (posOf d n i).ty.isCont = false := by
              cases hx : (posOf d n i).ty.isCont with
              | false => rfl
              | true => rw [isCont_not_bit hx] at h1; cases h1
            cases pa <;> simp [Dti.getElem, getCont, this]
          · simp only [h2, Option.bind_some]
            exact ih hok h3
        · rw [if_pos (by omega)]; rfl

/-- Bytes behind the memory do not make it unsafe. -/
theorem word_append {d : Dti} {m r : Bytes} {a : Nat} (h : a + d.w ≤ m.length) : d.word (m ++ r) a = d.word m a := by
  unfold word
  congr 1
  simp only [rd]
  rw [List.drop_append_of_le_length (by omega), List.take_append_of_le_length (by simp; omega)]

theorem safe_append : ∀ d, TyOk d → ∀ m r, safe d m = true → safe d (m ++ r) = true := by
  apply indPos
  · intro k h _ m r hs
    simp [safe] at hs ⊢
    rcases hs with hs | hs
    · exact .inl hs
    · right; omega
  · intro d hd hc ih m r hs
    rw [safe_cont hd hc] at hs ⊢
    have hn : d.annCount (m ++ r) = d.annCount m := by
      unfold annCount
      cases hv : d.isVarCount with
      | false => rfl
      | true =>
        have h1 := hs.pre
        simp only [if_true]
        exact word_append (by simp [offBitmap, hasCountP, hv] at h1; omega)
    rw [hn]
    have hcn := annCount_ok d m
    obtain ⟨h0, h1, h2, h3, h4⟩ := hs
    generalize annCount d m = n at *
    refine ⟨hn.symm, by simp; omega, by simp; omega, h3, ?_⟩
    intro i hi hv hw
    have hl := (lay_of hd hc hcn).fx i hi (isVar_not_bit (posOf_ok hd hc hcn hi) hv)
    simp only [slot, hv, if_true] at hl
    have hwd : d.word (m ++ r) (posOf d n i).off = d.word m (posOf d n i).off := word_append (by omega)
    rw [hwd] at hw ⊢
    have := h4 i hi hv hw
    rw [List.drop_append]
    exact ih n i hcn hi _ _ this

/-- Every encoding is safe. -/
theorem safe_enc : ∀ d, TyOk d → d.isBit = false → ∀ b v, Enc d b v → safe d b = true := by
  intro d hd
  revert d
  refine indPos ?_ ?_
  · intro k h _ _ b v e
    have := enc_prim e
    simp [safe, this.2.1]
  · intro d hd hc ih _ b v e
    obtain ⟨cs, o, vs, rfl, r, hv⟩ := enc_cont hc e
    have hn : d.annCount b = cs.length := by
      unfold annCount
      cases h : d.isVarCount with
      | true => simpa using r.cntV h
      | false => simpa using (r.cntF h).symm
    have hcn := r.countOk
    have hlim := r.lt_lim hd hc
    unfold lim at hlim
    have hfe := fixedEnd_le r
    rw [safe_cont hd hc, hn]
    refine ⟨hn.symm, prefix_le hd hc r, hfe, by omega, ?_⟩
    intro i hi hvv hw
    have hok := posOf_ok hd hc hcn hi
    have hci := List.getElem?_eq_getElem hi
    have hy := List.getElem?_eq_getElem (l := vs) (i := i) (by rw [hv.1]; exact hi)
    have he := r.elt i _ hci
    have hev := hv.2 i _ _ hci hy
    have hnb := isVar_not_bit hok hvv
    generalize cs[i] = c at he hev
    cases c with
    | null =>
      rcases he with ⟨h1, _⟩ | ⟨_, h2⟩
      · rw [not_var_needs hvv] at h1; cases h1
      · exact absurd h2 hw
    | bits x => rw [he.1] at hnb; cases hnb
    | fixd x => rw [he.2.1] at hvv; cases hvv
    | var x =>
      obtain ⟨_, h2, _, h4, h5, _, _⟩ := he
      rw [h2, drop_eq_append (l := x.length), h5]
      exact safe_append _ hok _ _ (ih _ i hcn hi hnb _ _ hev)

end Dti
end TS
