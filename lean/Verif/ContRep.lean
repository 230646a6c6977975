import Verif.TypeSpec
import Verif.Bits
/-
Representation relation between the bytes of a container and the list of its elements.
-/
namespace TS

/-- Content of one element of a container: NULL, a bit field, the bytes of a fixed sized element,
the bytes of a variable sized element. -/
inductive Elt where
  | null
  | bits (v : Nat)
  | fixd (b : Bytes)
  | var (b : Bytes)
deriving DecidableEq, Repr

/-- Bytes the element takes behind the fixed part of its container. -/
def Elt.hlen : Elt → Nat
  | .var b => b.length
  | _ => 0

/-- Bytes all variable sized elements take. -/
def heap (cs : List Elt) : Nat := (cs.map Elt.hlen).sum

theorem heap_append (a b : List Elt) : heap (a ++ b) = heap a + heap b := by simp [heap]

theorem heap_set {cs : List Elt} {i : Nat} {c c' : Elt} (h : cs[i]? = some c) :
    heap (cs.set i c') + c.hlen = heap cs + c'.hlen := by
  induction cs generalizing i with
  | nil => simp at h
  | cons x cs ih =>
    cases i with
    | zero => simp at h; subst h; simp [heap]; omega
    | succ i =>
      simp at h
      have := ih h
      simp [heap] at this ⊢; omega

theorem hlen_le_heap {cs : List Elt} {i : Nat} {c : Elt} (h : cs[i]? = some c) :
    c.hlen ≤ heap cs := by
  have := heap_set (c' := .null) h
  simp [Elt.hlen] at this ⊢
  omega

theorem heap_zero {cs : List Elt} (h : ∀ (i : Nat) (c : Elt), cs[i]? = some c → c.hlen = 0) : heap cs = 0 := by
  induction cs with
  | nil => rfl
  | cons x cs ih =>
    have h0 := h 0 x (by simp)
    have := ih (fun i c hc => h (i + 1) c (by simpa using hc))
    simp [heap] at this ⊢; exact ⟨h0, this⟩

namespace Dti

/-- The number stored in an offset, size or count word of a container of type `d`. -/
def word (d : Dti) (m : Bytes) (a : Nat) : Nat := leDec (rd m a d.w)

/-- Element `c` is stored at position `p` of the container of type `d` and size `S` in `m`, whose
fixed part ends at `fe`; `o` is the offset of the element if it is variable sized. -/
def EltAt (d : Dti) (m : Bytes) (S fe : Nat) (p : PosInfo) (o : Nat) : Elt → Prop
  | .null => (p.ty.needsValid = true ∧ bit m d.offBitmap p.vbit = false) ∨
      (p.ty.isVar = true ∧ d.word m p.off = 0)
  | .bits v => p.ty.isBit = true ∧ (p.ty.needsValid = true → bit m d.offBitmap p.vbit = true) ∧
      bitsVal m d.offBitmap p.off p.ty.hdr.size = v
  | .fixd b => p.ty.isBit = false ∧ p.ty.isVar = false ∧
      (p.ty.needsValid = true → bit m d.offBitmap p.vbit = true) ∧ rd m p.off p.ty.hdr.size = b
  | .var b => p.ty.isVar = true ∧ d.word m p.off = o ∧ fe ≤ o ∧ o + b.length ≤ S ∧
      rd m o b.length = b ∧ 1 ≤ b.length ∧ p.ty.getSize b = some b.length

/-- The memory `m` starts with a container of type `d` and size `S` whose elements are `cs`;
`o i` is the offset of element `i` if it is variable sized and not NULL. -/
structure CRep (d : Dti) (m : Bytes) (S : Nat) (cs : List Elt) (o : Nat → Nat) : Prop where
  le : S ≤ m.length
  mx : d.isVar = true → S ≤ d.hdr.maxSize
  cntF : d.isVarCount = false → cs.length = d.hdr.count
  cntV : d.isVarCount = true → d.word m d.offCountP = cs.length
  szP : d.hasSizeP = true → d.word m 0 = S % 256 ^ d.w
  sum : S = fixedEnd d cs.length + heap cs
  elt : ∀ i c, cs[i]? = some c → EltAt d m S (fixedEnd d cs.length) (posOf d cs.length i) (o i) c
  disj : ∀ i j a b, i ≠ j → cs[i]? = some (.var a) → cs[j]? = some (.var b) →
    o i + a.length ≤ o j ∨ o j + b.length ≤ o i

theorem u8_ok : TyOk u8 := TyOk.prim _ _ rfl rfl (by decide) (by decide) (by decide) (by decide) (by decide)

section
variable {d : Dti} {m : Bytes} {S : Nat} {cs : List Elt} {o : Nat → Nat}

theorem posOf_ok (h : TyOk d) (hc : d.isCont = true) {n i : Nat} (hn : CountOk d n) (hi : i < n) :
    TyOk (posOf d n i).ty := by
  cases h with
  | prim => simp [isCont] at hc
  | str => exact u8_ok
  | tup h fs a1 a2 a3 a4 a5 =>
    have hn : n = h.count := hn rfl
    simp only [posOf]
    have hx := List.getElem?_eq_getElem (l := fs) (i := i) (by omega)
    rw [hx]
    exact a3 _ _ (List.getElem_mem _)
  | arr h c a1 a2 =>
    simp only [posOf]
    split
    · split <;> exact a2
    · exact a2

theorem CRep.countOk (r : CRep d m S cs o) : CountOk d cs.length := fun h => r.cntF h

/-- A container with a variable sized element type stores its size. -/
theorem var_hasSize (h : TyOk d) (hc : d.isCont = true) {n i : Nat} (hn : CountOk d n) (hi : i < n)
    (hv : (posOf d n i).ty.isVar = true) : d.hasSizeP = true ∧ d.isVar = true := by
  cases h with
  | prim => simp [isCont] at hc
  | str => simp [posOf, u8, isVar, hdr] at hv
  | tup h fs a1 a2 a3 a4 a5 a6 =>
    have hn : n = h.count := hn rfl
    have : h.isVar = true := by
      rw [a6]
      simp only [posOf] at hv
      have hx := List.getElem?_eq_getElem (l := fs) (i := i) (by omega)
      rw [hx] at hv
      exact List.any_eq_true.mpr ⟨_, List.getElem_mem _, hv⟩
    simp [hasSizeP, isVar, hdr, this]
  | arr h c a1 a2 a3 =>
    have hcv : c.isVar = true := by
      simp only [posOf] at hv
      split at hv
      · split at hv <;> exact hv
      · exact hv
    have : h.isVar = true := by rw [a3, hcv]; simp
    exact ⟨by simp [hasSizeP, this, hcv], this⟩

theorem CRep.lt_lim (r : CRep d m S cs o) (h : TyOk d) (hc : d.isCont = true) : S < lim := by
  cases hv : d.isVar with
  | true => have := r.mx hv; have := (h.maxSize hv).2; omega
  | false =>
    have hz : heap cs = 0 := by
      apply heap_zero
      intro i c hi
      have hlt : i < cs.length := (List.getElem?_eq_some_iff.mp hi).1
      have he := r.elt i c hi
      cases c with
      | var b =>
        have := (var_hasSize h hc r.countOk hlt he.1).2
        rw [hv] at this; cases this
      | _ => rfl
    have hsum := r.sum
    rw [hz] at hsum
    have hvc : d.isVarCount = false := by
      cases d <;> simp_all [isVarCount, isVar, hdr]
    rw [r.cntF hvc] at hsum
    have hs : fixedEnd d d.hdr.count = d.hdr.size := by
      cases h with
      | prim => rfl
      | str b h a1 a2 a3 a4 =>
        have := (a3 hv).1
        simp [isVar, hdr] at hv
        simp [fixedEnd, offBitmap, offCountP, hasSizeP, hasCountP, isVarCount, hv, hdr, this]
      | tup => rfl
      | arr h c a1 a2 a3 a4 =>
        simp [isVar, hdr] at hv
        rw [a3] at hv
        simp at hv
        exact (a4 hv.1).2.2.symm
    have := h.size_lt
    omega

theorem fixedEnd_le (r : CRep d m S cs o) : fixedEnd d cs.length ≤ S := by
  have := r.sum; omega

theorem bitmap_le_fixedEnd (h : TyOk d) (hc : d.isCont = true) {n : Nat} (hn : CountOk d n) :
    d.offBitmap + bitmapBytes (bitsOf d n) ≤ fixedEnd d n := by
  cases h with
  | prim => simp [isCont] at hc
  | str b h => simp [bitsOf, bitmapBytes, fixedEnd]
  | tup h fs a1 a2 a3 a4 a5 a6 a7 a8 =>
    have ho : offBitmap (.tup h fs) = if h.isVar then vsz h.maxSize else 0 := by
      simp [offBitmap, offCountP, hasSizeP, hasCountP, isVarCount, w, hdr]
      cases h.isVar <;> simp
    rw [ho]; exact a8
  | arr h c => simp only [fixedEnd]; split <;> omega

theorem word_eq {ps : Nat} (hm : d.hdr.maxSize = ps) {a : Nat} (h : a + d.w ≤ m.length) :
    loadVal m ps a = some (d.word m a) := by
  subst hm
  unfold loadVal word
  unfold w at h ⊢
  rw [load_eq h]; rfl

theorem prefix_le (h : TyOk d) (hc : d.isCont = true) (r : CRep d m S cs o) : d.offBitmap ≤ S := by
  have h1 := bitmap_le_fixedEnd h hc r.countOk
  have h2 := fixedEnd_le r
  omega

theorem getCount_eq (h : TyOk d) (hc : d.isCont = true) (r : CRep d m S cs o) :
    d.getCount m = some cs.length := by
  unfold getCount
  rw [hc]
  cases hv : d.isVarCount with
  | false => simp [r.cntF hv]
  | true =>
    simp only [Bool.not_true, Bool.false_eq_true, if_false]
    have h1 := prefix_le h hc r
    have h2 := r.le
    rw [word_eq rfl (by simp [offBitmap, hasCountP, hv] at h1; omega), r.cntV hv]

theorem isCont_not_bit (hc : d.isCont = true) : d.isBit = false := by
  cases d <;> simp_all [isCont, isBit]

theorem no_var_heap (h : TyOk d) (hc : d.isCont = true) (r : CRep d m S cs o)
    (hs : d.hasSizeP = false) : heap cs = 0 := by
  apply heap_zero
  intro i c hi
  have hlt : i < cs.length := (List.getElem?_eq_some_iff.mp hi).1
  have he := r.elt i c hi
  cases c with
  | var b =>
    have := (var_hasSize h hc r.countOk hlt he.1).1
    rw [hs] at this; cases this
  | _ => rfl

theorem fixedEnd_count (h : TyOk d) (hv : d.isVarCount = false) : fixedEnd d d.hdr.count = d.hdr.size := by
  cases h with
  | prim => rfl
  | str b h a1 a2 a3 a4 =>
    simp [isVarCount] at hv
    have := (a3 hv).1
    simp [fixedEnd, offBitmap, offCountP, hasSizeP, hasCountP, isVarCount, hv, hdr, this]
  | tup => rfl
  | arr h c a1 a2 a3 a4 =>
    simp [isVarCount] at hv
    have hvc : h.varCount = false := by
      cases hh : h.varCount with
      | false => rfl
      | true =>
        rw [hh] at a3 hv
        simp at a3 hv
        rw [a3] at hv; cases hv
    exact (a4 hvc).2.2.symm

theorem getSize_eq (h : TyOk d) (hc : d.isCont = true) (r : CRep d m S cs o) :
    d.getSize m = some S := by
  unfold getSize
  rw [isCont_not_bit hc]
  simp only [Bool.false_eq_true, if_false]
  have h1 := prefix_le h hc r
  have h2 := r.le
  cases hv : d.isVar with
  | false =>
    simp only [Bool.not_false, if_true]
    have hs : d.hasSizeP = false := by
      cases d <;> simp_all [hasSizeP, isVar, hdr]
    have hvc : d.isVarCount = false := by
      cases d <;> simp_all [isVarCount, isVar, hdr]
    have := r.sum
    rw [no_var_heap h hc r hs, r.cntF hvc, fixedEnd_count h hvc] at this
    rw [this]; rfl
  | true =>
    simp only [Bool.not_true, Bool.false_eq_true, if_false]
    cases hs : d.hasSizeP with
    | true =>
      simp only [if_true]
      rw [word_eq rfl (by simp [offBitmap, offCountP, hs] at h1; omega)]
      simp only [Option.bind_eq_bind, Option.bind_some, Option.pure_def]
      rw [r.szP hs]
      have hS := r.mx hv
      have hpow : d.hdr.maxSize ≤ 256 ^ d.w :=
        le_pow_vsz (by have := (h.maxSize hv).2; unfold lim at this; omega)
      have hw1 : 1 ≤ d.w := vsz_pos _
      have hpos : 1 ≤ S := by simp [offBitmap, offCountP, hs] at h1; omega
      by_cases hlt : S < 256 ^ d.w
      · rw [Nat.mod_eq_of_lt hlt, if_neg (by omega)]
      · have he : S = 256 ^ d.w := by omega
        rw [he, Nat.mod_self, if_pos rfl]
        congr 1; omega
    | false =>
      simp only [Bool.false_eq_true, if_false]
      have hvc : d.isVarCount = true := by
        rcases (h.prefix hv).2 with hh | hh
        · rw [hs] at hh; cases hh
        · exact hh
      have hsum := r.sum
      rw [no_var_heap h hc r hs] at hsum
      have hlim := r.lt_lim h hc
      unfold lim at hlim
      rw [word_eq rfl (by simp [offBitmap, hasCountP, hvc] at h1; omega), r.cntV hvc]
      have ho : d.offBitmap = d.w := by simp [offBitmap, offCountP, hasCountP, hs, hvc]
      cases d with
      | prim => simp [isCont] at hc
      | tup => simp [isVarCount] at hvc
      | str b h =>
        have hu : u8.isBit = false := rfl
        have hn : u8.needsValid = false := rfl
        have hz : u8.hdr.size = 1 := rfl
        simp only [cont, Option.bind_eq_bind, Option.bind_some, hu, hn, hz]
        simp only [fixedEnd, ho] at hsum
        simp [bitmapBytes]
        rw [u32_eq (by omega)]
        congr 1
        omega
      | arr hh c =>
        have hcv : c.isVar = false := by
          simp [hasSizeP] at hs
          simp [isVar, hdr] at hv
          exact hs hv
        simp only [cont, Option.bind_eq_bind, Option.bind_some]
        simp only [fixedEnd, ho, bitsOf, slot, hcv, Bool.false_eq_true, if_false] at hsum
        split
        · rename_i hb
          rw [if_pos hb, if_pos hb] at hsum
          rw [u32_eq (by omega)]
          congr 1
          omega
        · rename_i hb
          rw [if_neg hb, if_neg hb] at hsum
          rw [u32_eq (by omega)]
          congr 1
          omega

theorem posInfo_eq (h : TyOk d) (hc : d.isCont = true) (r : CRep d m S cs o) {i : Nat}
    (hi : i < cs.length) : d.posInfo m i = some (posOf d cs.length i) := by
  have hcnt := getCount_eq h hc r
  have hlay := lay_of h hc r.countOk
  have hfe := fixedEnd_le r
  have hlim := r.lt_lim h hc
  have hbm := bitmap_le_fixedEnd h hc r.countOk
  unfold lim at hlim
  cases d with
  | prim => simp [isCont] at hc
  | tup hh fs =>
    have hlen : fs.length = cs.length := by
      cases h with
      | tup _ _ a1 a2 a3 a4 => rw [a4]; exact (r.cntF rfl).symm
    simp only [posInfo, posOf]
    rw [List.getElem?_eq_getElem (by omega)]
    rfl
  | str b hh =>
    have hfx := (hlay.fx i hi rfl).2
    simp only [posOf] at hfx
    have : slot (w (.str b hh)) u8 = 1 := rfl
    rw [this] at hfx
    simp only [posInfo, bitmapBits, tyAt, posOf]
    have hu : u8.isBit = false := rfl
    have hn : u8.needsValid = false := rfl
    have hz : u8.hdr.size = 1 := rfl
    have hv : u8.isVar = false := rfl
    simp only [Option.bind_eq_bind, Option.bind_some, hu, hn, hz, hv, bitmapBytes]
    simp
    rw [u32_eq (by omega)]
    simp
    rw [u32_eq (by omega)]
    rfl
  | arr hh c =>
    simp only [posInfo, bitmapBits, tyAt, hcnt, Option.bind_eq_bind, Option.bind_some]
    cases hb : c.isBit with
    | true =>
      simp only [bitsOf, hb, if_true] at hbm
      simp only [if_true, Option.pure_def, Option.bind_some]
      rw [u32_eq (by omega)]
      simp only [Option.bind_some, posOf, hb, if_true]
      split <;> rfl
    | false =>
      simp only [bitsOf, hb, Bool.false_eq_true, if_false] at hbm
      simp only [Bool.false_eq_true, if_false, Option.pure_def, Option.bind_some]
      rw [u32_eq (by omega)]
      have hfx := (hlay.fx i hi (by simp [posOf, hb])).2
      simp only [posOf, hb, Bool.false_eq_true, if_false] at hfx
      simp only [Option.bind_some, posOf, hb, Bool.false_eq_true, if_false]
      cases hv : c.isVar with
      | false =>
        simp only [slot, hv, Bool.false_eq_true, if_false] at hfx ⊢
        simp only [Bool.not_false, if_true]
        rw [u32_eq (by omega)]; rfl
      | true =>
        simp only [slot, hv, if_true] at hfx ⊢
        simp only [Bool.not_true, Bool.false_eq_true, if_false]
        rw [u32_eq (by omega)]
        simp [needsValid, hv]

end
end Dti
end TS
