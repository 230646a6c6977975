import Verif.ContGrow
/-
`can_expand_container` and `expand_container` on a well formed container.
-/
namespace TS
namespace Dti

/-- The list with `s` copies of `x` inserted in front of element `i`. -/
def insertAt {α : Type} (l : List α) (i s : Nat) (x : α) : List α := l.take i ++ List.replicate s x ++ l.drop i

theorem insertAt_length {α : Type} (l : List α) {i : Nat} (s : Nat) (x : α) (h : i ≤ l.length) :
    (insertAt l i s x).length = l.length + s := by simp [insertAt]; omega

theorem insertAt_new {α : Type} (l : List α) {i s k : Nat} (x : α) (h : i ≤ l.length) (hk : k < s) :
    (insertAt l i s x)[i + k]? = some x := by
  unfold insertAt
  rw [List.getElem?_append_left (by simp; omega), List.getElem?_append_right (by simp; omega),
    List.getElem?_replicate, if_pos (by simp; omega)]

theorem insertAt_old {α : Type} (l : List α) {i s : Nat} (j : Nat) (x : α) (h : i ≤ l.length) :
    (insertAt l i s x)[insIdx i s j]? = l[j]? := by
  unfold insertAt insIdx
  split
  · rw [List.getElem?_append_left (by simp; omega), List.getElem?_append_left (by simp; omega),
      List.getElem?_take_of_lt (by omega)]
  · rw [List.getElem?_append_right (by simp; omega), List.getElem?_drop]
    congr 1; simp; omega

/-- Where the element at `j` of the longer list came from. -/
def insSrc (i s j : Nat) : Nat := if j < i then j else j - s

theorem insIdx_cases (i s j : Nat) : (∃ k, k < s ∧ j = i + k) ∨ (¬ (i ≤ j ∧ j < i + s) ∧ j = insIdx i s (insSrc i s j)) := by
  unfold insIdx insSrc
  by_cases h1 : j < i
  · right; rw [if_pos h1, if_pos h1]; exact ⟨by omega, rfl⟩
  · by_cases h2 : j < i + s
    · left; exact ⟨j - i, by omega, by omega⟩
    · right; rw [if_neg h1, if_neg (by omega)]; exact ⟨by omega, by omega⟩

theorem insertAt_zero {α : Type} (l : List α) (i : Nat) (x : α) : insertAt l i 0 x = l := by
  simp [insertAt]

section
variable {d c : Dti} {m m' : Bytes} {S : Nat} {cs : List Elt} {o : Nat → Nat}

theorem heap_insertAt {i s : Nat} {x : Elt} (hx : x.hlen = 0) : heap (insertAt cs i s x) = heap cs := by
  have h1 : heap (List.replicate s x) = 0 := by
    apply heap_zero
    intro j y hj
    rw [List.getElem?_replicate] at hj
    split at hj
    · cases hj; exact hx
    · cases hj
  unfold insertAt
  rw [heap_append, heap_append, h1, Nat.add_zero, ← heap_append, List.take_append_drop]

theorem blank_hlen (c : Dti) : (blank c).hlen = 0 ∧ ∀ b, blank c ≠ .var b := by
  unfold blank
  split
  · exact ⟨rfl, by simp⟩
  · split
    · exact ⟨rfl, by simp⟩
    · exact ⟨rfl, by simp⟩

/-- A container whose elements were moved to other indices. -/
theorem CRep.regroup (h : TyOk d) (hvc : d.isVarCount = true) (hcd : d.cont = some c)
    (r : CRep d m S cs o) {cs' : List Elt} {N : Nat} (f g : Nat → Nat)
    (hle : N ≤ m'.length) (hmx : N ≤ d.hdr.maxSize) (hcnt : d.word m' d.offCountP = cs'.length)
    (hsz : d.hasSizeP = true → d.word m' 0 = N % 256 ^ d.w)
    (hsum : N = fixedEnd d cs'.length + heap cs')
    (helt : ∀ j y, cs'[j]? = some y → (y = blank c ∧ Zeroed d c m' cs'.length j) ∨
      (cs[f j]? = some y ∧ Moved d c m m' cs.length cs'.length (f j) j g))
    (hinj : ∀ j k a b, cs'[j]? = some (.var a) → cs'[k]? = some (.var b) → j ≠ k → f j ≠ f k)
    (hheap : ∀ i b, cs[i]? = some (.var b) → (∃ j, i = f j ∧ cs'[j]? = some (.var b)) →
      fixedEnd d cs'.length ≤ g (o i) ∧
      g (o i) + b.length ≤ N ∧ rd m' (g (o i)) b.length = rd m (o i) b.length)
    (hmono : c.isVar = true → ∀ x y l, fixedEnd d cs.length ≤ x → fixedEnd d cs.length ≤ y → x + l ≤ y → g x + l ≤ g y) :
    CRep d m' N cs' (fun j => g (o (f j))) := by
  obtain ⟨hc, hv, _⟩ := varCount_cont h hvc
  have hfe : 1 ≤ fixedEnd d cs.length := by
    have h1 := bitmap_le_fixedEnd h hc r.countOk
    have h2 : d.w ≤ d.offBitmap := by simp [offBitmap, hasCountP, hvc]
    have h3 := vsz_pos d.hdr.maxSize
    unfold w at h2
    omega
  have hvar : ∀ j b, cs'[j]? = some (.var b) → cs[f j]? = some (.var b) := by
    intro j b hj
    rcases helt j _ hj with ⟨hh, _⟩ | ⟨hh, _⟩
    · exact absurd hh.symm ((blank_hlen c).2 b)
    · exact hh
  refine ⟨hle, fun _ => hmx, ?_, fun _ => hcnt, hsz, hsum, ?_, ?_⟩
  · intro hh; rw [hvc] at hh; cases hh
  · intro j y hj
    rcases helt j y hj with ⟨hy, hz⟩ | ⟨hy, hm⟩
    · rw [hy]; exact hz.elt hcd
    · refine hm.elt hcd (r.elt _ _ hy) hfe ?_
      intro b hb
      subst hb
      exact ⟨rfl, hheap _ b hy ⟨j, rfl, hj⟩⟩
  · intro j k a b hjk hj hk
    have h1 := hvar j a hj
    have h2 := hvar k b hk
    have e1 := r.elt _ _ h1
    have e2 := r.elt _ _ h2
    have hcv : c.isVar = true := by have := e1.1; rw [cont_ty hcd] at this; exact this
    rcases r.disj _ _ a b (hinj j k a b hj hk hjk) h1 h2 with hh | hh
    · left; exact hmono hcv _ _ _ e1.2.2.1 e2.2.2.1 hh
    · right; exact hmono hcv _ _ _ e2.2.2.1 e1.2.2.1 hh

theorem Moved.after {m2 : Bytes} {n n' i j : Nat} {g : Nat → Nat} (hcd : d.cont = some c) (hok : TyOk c)
    (mv : Moved d c m m' n n' i j g) (hs : ∀ x l, d.offBitmap ≤ x → rd m2 x l = rd m' x l) :
    Moved d c m m2 n n' i j g := by
  have hb : ∀ k, bit m2 d.offBitmap k = bit m' d.offBitmap k := fun k =>
    bit_of_rd (hs (d.offBitmap + k / 8) 1 (by omega)) (by omega) (by omega)
  have ho : c.isBit = false → d.offBitmap ≤ (posOf d n' j).off := by
    intro hh; rw [cont_posOf hcd hh]; simp only; omega
  refine ⟨fun hn => by rw [hb]; exact mv.vb hn, fun hn x hx => by rw [hb]; exact mv.bf hn x hx,
    fun h1 h2 => by rw [hs _ _ (ho h1)]; exact mv.fx h1 h2, fun h1 => ?_⟩
  have := mv.wd h1
  unfold word at this ⊢
  rw [hs _ _ (ho (isVar_not_bit hok h1))]; exact this

theorem Zeroed.after {m2 : Bytes} {n' j : Nat} (hcd : d.cont = some c) (hok : TyOk c)
    (z : Zeroed d c m' n' j) (hs : ∀ x l, d.offBitmap ≤ x → rd m2 x l = rd m' x l) :
    Zeroed d c m2 n' j := by
  have hb : ∀ k, bit m2 d.offBitmap k = bit m' d.offBitmap k := fun k =>
    bit_of_rd (hs (d.offBitmap + k / 8) 1 (by omega)) (by omega) (by omega)
  have ho : c.isBit = false → d.offBitmap ≤ (posOf d n' j).off := by
    intro hh; rw [cont_posOf hcd hh]; simp only; omega
  refine ⟨fun hn => by rw [hb]; exact z.vb hn, fun hn x hx => by rw [hb]; exact z.bf hn x hx,
    fun h1 h2 => by rw [hs _ _ (ho h1)]; exact z.fx h1 h2, fun h1 => ?_⟩
  have := z.wd h1
  unfold word at this ⊢
  rw [hs _ _ (ho (isVar_not_bit hok h1))]; exact this

/-- Storing size and count. -/
theorem putPrefix_ok (h : TyOk d) (hvc : d.isVarCount = true) {s n : Nat} (h1 : 1 ≤ s)
    (hs : s ≤ d.hdr.maxSize) (hn : n < 256 ^ d.w) (hl : d.offBitmap ≤ m.length) :
    ∃ m', d.putPrefix m s n = some m' ∧ m'.length = m.length ∧
      (∀ x l, d.offBitmap ≤ x → rd m' x l = rd m x l) ∧ d.word m' d.offCountP = n ∧
      (d.hasSizeP = true → d.word m' 0 = s % 256 ^ d.w) := by
  obtain ⟨hc, hv, _⟩ := varCount_cont h hvc
  have hob : d.offBitmap = d.offCountP + d.w := by simp [offBitmap, hasCountP, hvc]
  have hww : vsz d.hdr.maxSize = d.w := rfl
  have hfirst : ∃ m1, whenB d.hasSizeP (fun m => storeVal m d.hdr.maxSize 0 s) m = some m1 ∧
      m1.length = m.length ∧ (∀ x l, d.offCountP ≤ x → rd m1 x l = rd m x l) ∧
      (d.hasSizeP = true → d.word m1 0 = s % 256 ^ d.w) := by
    cases hp : d.hasSizeP with
    | false => exact ⟨m, rfl, rfl, fun _ _ _ => rfl, by simp⟩
    | true =>
      have hoc : d.offCountP = d.w := by simp [offCountP, hp]
      simp only [whenB, if_true, storeVal]
      rw [hww, store_eq (by simp; omega)]
      refine ⟨_, rfl, by simp, ?_, fun _ => size_word (by omega)⟩
      intro x l hx
      exact rd_wr_disj _ _ _ _ _ (by simp; omega)
  obtain ⟨m1, e1, l1, o1, z1⟩ := hfirst
  unfold putPrefix
  rw [e1]
  simp only [Option.bind_eq_bind, Option.bind_some, hasCountP, hvc, whenB, if_true, storeVal]
  rw [hww, store_eq (by simp; omega)]
  refine ⟨_, rfl, by simp [l1], ?_, ?_, ?_⟩
  · intro x l hx
    rw [rd_wr_disj _ _ _ _ _ (by simp; omega)]
    exact o1 x l (by omega)
  · unfold word
    have := rd_wr_same m1 d.offCountP (leEnc d.w n) (by simp; omega)
    rw [leEnc_length] at this
    rw [this, leDec_leEnc, Nat.mod_eq_of_lt hn]
  · intro hp
    have hoc : d.offCountP = d.w := by simp [offCountP, hp]
    have : d.word (wr m1 d.offCountP (leEnc d.w n)) 0 = d.word m1 0 := by
      unfold word; rw [rd_wr_disj _ _ _ _ _ (by simp; omega)]
    rw [this]; exact z1 hp

/-- What `/repo/README.md:23` asks of the caller, and what has to be asked in addition for bit
fields: the size of the container with all its new slots is below 2^32 (4GB), the bits of one
element fit in 64 bits and their number fits in the element count of the container. -/
structure MayGrow (d : Dti) (n slots hp : Nat) : Prop where
  size : fixedEnd d (n + slots) + hp < 4294967296
  bits : ∀ c, d.cont = some c → c.isBit = true → c.eltBits ≤ 64 ∧ n + slots < 256 ^ d.w

theorem grownSize_eq (hcd : d.cont = some c) (hok : TyOk c) {n slots old hp : Nat}
    (hold : old = fixedEnd d n + hp) (h0 : c.isVar = false → hp = 0)
    (hg : fixedEnd d (n + slots) + hp < 4294967296) :
    d.grownSize c old (n + slots) slots = fixedEnd d (n + slots) + hp := by
  unfold grownSize
  cases hb : c.isBit with
  | true =>
    have := h0 (bit_not_var hok hb)
    rw [cont_fixedEnd_bit hcd hb] at hg ⊢
    simp only [if_true]
    rw [Nat.mul_comm c.eltBits, w32_eq (by omega)]; omega
  | false =>
    rw [cont_fixedEnd hcd hb] at hg ⊢
    simp only [Bool.false_eq_true, if_false]
    cases hv : c.isVar with
    | false =>
      have := h0 hv
      have hz1 := hok.size_pos
      have hsl : slot d.w c = c.hdr.size := by simp [slot, hv]
      rw [hsl] at hg ⊢
      have hnz : n + slots ≤ (n + slots) * c.hdr.size := Nat.le_mul_of_pos_right _ (by omega)
      have hbb : (n + slots) * c.needsValid.toNat ≤ n + slots := by
        cases c.needsValid <;> simp
      simp only [Bool.not_false, if_true]
      rw [Nat.mul_comm c.hdr.size, w32_eq (x := (n + slots) * c.needsValid.toNat) (by omega),
        w32_eq (x := (n + slots) * c.hdr.size) (by omega), w32_eq (by omega)]
      omega
    | true =>
      have hsl : slot d.w c = d.w := by simp [slot, hv]
      have hnv : c.needsValid = false := by simp [needsValid, hv]
      rw [cont_fixedEnd hcd hb, hsl, hnv] at hold
      rw [hsl, hnv] at hg ⊢
      simp only [Bool.toNat_false, Nat.mul_zero, Bool.not_true, Bool.false_eq_true, if_false] at hg hold ⊢
      have : (n + slots) * d.w = n * d.w + slots * d.w := Nat.add_mul _ _ _
      rw [Nat.mul_comm d.w slots, w32_eq (x := slots * d.w) (by omega), w32_eq (by omega)]
      omega

theorem fixedEnd_mono (hcd : d.cont = some c) {n k : Nat} (h : n ≤ k) : fixedEnd d n ≤ fixedEnd d k := by
  cases hb : c.isBit with
  | true =>
    rw [cont_fixedEnd_bit hcd hb, cont_fixedEnd_bit hcd hb]
    have := bitmapBytes_mono (Nat.mul_le_mul_right c.eltBits h)
    omega
  | false =>
    rw [cont_fixedEnd hcd hb, cont_fixedEnd hcd hb]
    have h1 := bitmapBytes_mono (Nat.mul_le_mul_right c.needsValid.toNat h)
    have h2 := Nat.mul_le_mul_right (slot d.w c) h
    omega

theorem elems_le (hcd : d.cont = some c) (hok : TyOk c) (hb : c.isBit = false) (n : Nat) :
    d.offBitmap + n ≤ fixedEnd d n := by
  rw [cont_fixedEnd hcd hb]
  have : 1 ≤ slot d.w c := by
    unfold slot
    split
    · exact vsz_pos _
    · exact hok.size_pos
  have := Nat.le_mul_of_pos_right n (show 0 < slot d.w c by omega)
  omega

/-- The heap of a container of fixed size elements is empty. -/
theorem heap_fixed (hcd : d.cont = some c) (r : CRep d m S cs o) (hv : c.isVar = false) : heap cs = 0 := by
  apply heap_zero
  intro i x hi
  have e := r.elt i x hi
  cases x with
  | var b => have := e.1; rw [cont_ty hcd, hv] at this; cases this
  | _ => rfl

theorem word_lt_size (h : TyOk d) (hvc : d.isVarCount = true) (hcd : d.cont = some c) (r : CRep d m S cs o)
    (hv : c.isVar = true) {i : Nat} (hi : i < cs.length) : d.word m (posOf d cs.length i).off < S := by
  obtain ⟨hc, _⟩ := varCount_cont h hvc
  have hx := List.getElem?_eq_getElem hi
  have e := r.elt i _ hx
  have hfe := fixedEnd_le r
  have hp := fixedEnd_pos h hc r.countOk hi (by rw [cont_ty hcd]; exact hv)
  rcases var_elt h hc r hx (by rw [cont_ty hcd]; exact hv) with hh | ⟨b, hh⟩
  · rw [hh] at e
    rcases e with ⟨h1, _⟩ | ⟨_, h2⟩
    · rw [cont_ty hcd] at h1; simp [needsValid, hv] at h1
    · omega
  · rw [hh] at e
    have := e.2.1; have := e.2.2.2.1; have := e.2.2.2.2.2.1
    omega

theorem growBody_ok (h : TyOk d) (hvc : d.isVarCount = true) (hcd : d.cont = some c) (hok : TyOk c)
    (r : CRep d m S cs o) {index slots N : Nat} (hi : index ≤ cs.length)
    (hN : N = fixedEnd d (cs.length + slots) + heap cs) (hg : MayGrow d cs.length slots (heap cs))
    (hmx : N ≤ d.hdr.maxSize) (hl : N ≤ m.length) :
    ∃ m', d.growBody c m S cs.length index slots = some m' ∧ Grown d c m m' cs.length index slots S N := by
  have hsum := r.sum
  have h32 := hg.size
  unfold growBody
  cases hb : c.isBit with
  | true =>
    have h0 := heap_fixed hcd r (bit_not_var hok hb)
    simp only [if_true]
    exact growBit_ok hcd hok hb (hg.bits c hcd hb).1 hi (by omega) hl
  | false =>
    simp only [Bool.false_eq_true, if_false]
    cases hv : c.isVar with
    | false =>
      have h0 := heap_fixed hcd r hv
      simp only [Bool.not_false, if_true]
      exact growFixed_ok hcd hok hb hv hi (by omega) (by omega) (by omega) hl
    | true =>
      simp only [Bool.not_true, Bool.false_eq_true, if_false]
      have hpow : d.hdr.maxSize ≤ 256 ^ d.w :=
        le_pow_vsz (by have := (h.maxSize (varCount_cont h hvc).2.1).2; unfold lim at this; omega)
      have hsl : slot d.w c = d.w := by simp [slot, hv]
      have hnv : c.needsValid = false := by simp [needsValid, hv]
      refine growVar_ok hcd hok hv hi (fixedEnd_le r) ?_ (by omega) hl
        (fun i hi => word_lt_size h hvc hcd r hv hi) (Nat.le_trans hmx hpow)
      rw [cont_fixedEnd hcd hb, hsl, hnv] at hN hsum
      simp only [Bool.toNat_false, Nat.mul_zero] at hN hsum
      have : (cs.length + slots) * d.w = cs.length * d.w + slots * d.w := Nat.add_mul _ _ _
      omega

/-- `expand_container` and `can_expand_container`. -/
theorem expand_ok (h : TyOk d) (hvc : d.isVarCount = true) (hcd : d.cont = some c) (r : CRep d m S cs o)
    {index slots inc N : Nat} (hN : N = fixedEnd d (cs.length + slots) + heap cs)
    (hg : MayGrow d cs.length slots (heap cs)) (hroom : min (S + inc) d.hdr.maxSize ≤ m.length) :
    ∃ m' q, d.expand m index slots inc = some (m', q) ∧
      (∀ m2 o2, CRep d m2 S cs o2 → d.canExpand m2 index slots inc = some q) ∧
      m'.length = m.length ∧ (q = false → m' = m) ∧
      (q = true ↔ index ≤ cs.length ∧ N ≤ d.hdr.maxSize ∧ N ≤ S + inc) ∧
      (q = true → (∃ o', CRep d m' N (insertAt cs index slots (blank c)) o') ∧
        ∀ x, N ≤ x → m'[x]? = m[x]?) := by
  obtain ⟨hc, hdv, c', hcd', hok, hps⟩ := varCount_cont h hvc
  rw [hcd] at hcd'
  cases hcd'
  have hcnt := getCount_eq h hc r
  have hsz := getSize_eq h hc r
  have hmxS := r.mx hdv
  have hpow : d.hdr.maxSize ≤ 256 ^ d.w :=
    le_pow_vsz (by have := (h.maxSize hdv).2; unfold lim at this; omega)
  have hw4 : 256 ^ d.w ≤ 256 ^ 4 := Nat.pow_le_pow_right (by decide) (vsz_le _)
  have hsum := r.sum
  have hmono := fixedEnd_mono hcd (show cs.length ≤ cs.length + slots by omega)
  have h32 := hg.size
  have hn32 : cs.length + slots < 4294967296 := by
    cases hb : c.isBit with
    | true => have := (hg.bits c hcd hb).2; omega
    | false => have := elems_le hcd hok hb (cs.length + slots); omega
  unfold expand canExpand
  simp only [hvc, Bool.not_true, Bool.false_eq_true, if_false, hcnt, Option.bind_eq_bind, Option.bind_some]
  rw [if_neg (show ¬ (slots + cs.length ≥ 4294967296) by omega)]
  by_cases hidx : index > cs.length
  · rw [if_pos hidx]
    refine ⟨m, false, rfl, ?_, rfl, fun _ => rfl, by simp; omega, by simp⟩
    intro m2 o2 r2
    rw [getCount_eq h hc r2]
    simp only [Option.bind_some]
    rw [if_neg (show ¬ (slots + cs.length ≥ 4294967296) by omega), if_pos hidx]; rfl
  · rw [if_neg hidx]
    by_cases hs0 : slots = 0
    · subst hs0
      rw [if_pos rfl]
      have hNS : N = S := by rw [hN, hsum]; simp
      subst hNS
      refine ⟨m, true, rfl, ?_, rfl, by simp, ?_, fun _ => ⟨⟨o, ?_⟩, fun _ _ => rfl⟩⟩
      · intro m2 o2 r2
        rw [getCount_eq h hc r2]
        simp only [Option.bind_some]
        rw [if_neg (by omega), if_neg hidx, if_pos trivial]; rfl
      · simp; omega
      · rw [insertAt_zero]; exact r
    · rw [if_neg hs0]
      have hgs := grownSize_eq (old := S) hcd hok (slots := slots) hsum (fun hv => heap_fixed hcd r hv) h32
      rw [← hN] at hgs
      simp only [hcd, hsz, Option.bind_some, hgs]
      have hcan : ∀ m2 o2, CRep d m2 S cs o2 →
          ((d.getCount m2).bind fun n => if slots + n ≥ 4294967296 then pure false
            else if index > n then pure false
            else if slots = 0 then pure true
            else (some c).bind fun c => (d.getSize m2).bind fun old =>
              pure (fits d.hdr.maxSize old (d.grownSize c old (n + slots) slots) inc)) =
            some (fits d.hdr.maxSize S N inc) := by
        intro m2 o2 r2
        rw [getCount_eq h hc r2, getSize_eq h hc r2]
        simp only [Option.bind_some, hgs]
        rw [if_neg (show ¬ (slots + cs.length ≥ 4294967296) by omega), if_neg hidx, if_neg hs0]; rfl
      have hfit : fits d.hdr.maxSize S N inc = true ↔ index ≤ cs.length ∧ N ≤ d.hdr.maxSize ∧ N ≤ S + inc := by
        simp only [fits, Bool.not_eq_true', Bool.or_eq_false_iff, Bool.and_eq_false_iff, decide_eq_false_iff_not]
        omega
      cases hq : fits d.hdr.maxSize S N inc with
      | false =>
        rw [hq] at hfit hcan
        simp only [Bool.not_false, if_true]
        exact ⟨m, false, rfl, hcan, rfl, fun _ => rfl, hfit, by simp⟩
      | true =>
        rw [hq] at hfit hcan
        have hf := hfit.mp rfl
        simp only [Bool.not_true, Bool.false_eq_true, if_false]
        obtain ⟨m1, e1, G⟩ := growBody_ok h hvc hcd hok r (slots := slots) hf.1 hN hg hf.2.1 (by omega)
        have hofe := bitmap_le_fixedEnd h hc (n := cs.length + slots) (by intro hh; rw [hvc] at hh; cases hh)
        have hNpos : 1 ≤ N := by
          have h2 : d.w ≤ d.offBitmap := by simp [offBitmap, hasCountP, hvc]
          have h3 := vsz_pos d.hdr.maxSize
          unfold w at h2
          omega
        have hnw : cs.length + slots < 256 ^ d.w := by
          cases hb : c.isBit with
          | true => exact (hg.bits c hcd hb).2
          | false =>
            have h1 := elems_le hcd hok hb (cs.length + slots)
            have h2 : d.w ≤ d.offBitmap := by simp [offBitmap, hasCountP, hvc]
            have h3 : 1 ≤ d.w := vsz_pos d.hdr.maxSize
            generalize 256 ^ d.w = P at *
            omega
        obtain ⟨m2, e2, l2, o2, w2, z2⟩ := putPrefix_ok (m := m1) h hvc hNpos hf.2.1 hnw (by rw [G.len]; omega)
        rw [e1]
        simp only [Option.bind_some, e2]
        have hlen : (insertAt cs index slots (blank c)).length = cs.length + slots := insertAt_length _ _ _ hf.1
        have hrd : ∀ x l, N ≤ x → rd m2 x l = rd m x l := by
          intro x l hx; rw [o2 x l (by omega), G.out x l hx]
        refine ⟨m2, true, rfl, hcan, by rw [l2, G.len], by simp, hfit,
          fun _ => ⟨⟨fun j => o (insSrc index slots j) + d.w * slots, ?_⟩, ?_⟩⟩
        · refine r.regroup h hvc hcd (m' := m2) (f := insSrc index slots) (g := (· + d.w * slots)) (N := N)
            (by rw [l2, G.len]; omega) hf.2.1 (by rw [w2, hlen]) z2 ?_ ?_ ?_ ?_ ?_
          · rw [hlen, heap_insertAt (blank_hlen c).1]; exact hN
          · intro j y hj
            have hjl : j < cs.length + slots := by rw [← hlen]; exact (List.getElem?_eq_some_iff.mp hj).1
            rw [hlen]
            rcases insIdx_cases index slots j with ⟨k, hk, rfl⟩ | ⟨_, hji⟩
            · left
              rw [insertAt_new _ _ hf.1 hk] at hj
              cases hj
              exact ⟨rfl, (G.new k hk).after hcd hok o2⟩
            · right
              rw [hji, insertAt_old _ _ _ hf.1] at hj
              have hil := (List.getElem?_eq_some_iff.mp hj).1
              refine ⟨hj, ?_⟩
              have := (G.old _ hil).after hcd hok o2
              rw [← hji] at this; exact this
          · intro j k a b hj hk hjk
            rcases insIdx_cases index slots j with ⟨t, ht, rfl⟩ | ⟨_, hji⟩
            · rw [insertAt_new _ _ hf.1 ht] at hj
              exact absurd (Option.some.inj hj) ((blank_hlen c).2 a)
            · rcases insIdx_cases index slots k with ⟨t, ht, rfl⟩ | ⟨_, hki⟩
              · rw [insertAt_new _ _ hf.1 ht] at hk
                exact absurd (Option.some.inj hk) ((blank_hlen c).2 b)
              · intro he; rw [he] at hji; omega
          · intro i b hi hex
            have e := r.elt i _ hi
            have hcv : c.isVar = true := by have := e.1; rw [cont_ty hcd] at this; exact this
            have hb := isVar_not_bit hok hcv
            have hsl : slot d.w c = d.w := by simp [slot, hcv]
            have hnv : c.needsValid = false := by simp [needsValid, hcv]
            have hfe1 := cont_fixedEnd hcd hb cs.length
            have hfe2 := cont_fixedEnd hcd hb (cs.length + slots)
            rw [hsl, hnv] at hfe1 hfe2
            simp only [Bool.toNat_false, Nat.mul_zero] at hfe1 hfe2
            have : (cs.length + slots) * d.w = cs.length * d.w + slots * d.w := Nat.add_mul _ _ _
            have hmc : d.w * slots = slots * d.w := Nat.mul_comm _ _
            have e3 := e.2.2.1
            have e4 := e.2.2.2.1
            have hbo := bitmap_le_fixedEnd h hc r.countOk
            rw [hlen]
            refine ⟨by omega, by omega, ?_⟩
            rw [o2 _ _ (by omega)]
            exact G.heap hcv _ _ e3 e4
          · intro _ x y l _ _ hxy; omega
        · intro x hx
          have := congrArg (fun b => b[0]?) (hrd x 1 hx)
          simpa [rd_getElem?] using this

end
end Dti
end TS
