import Verif.ContSet
/-
Setting an element anywhere inside of a tuple.
-/
namespace TS

namespace Val

/-- The value at a position; everything inside of NULL is NULL
(`get_value_from_element_from_tuple` answers that way). -/
def at' : Val → List Nat → Option Val
  | v, [] => some v
  | .null, _ :: _ => some .null
  | .node vs, i :: pa =>
    match vs[i]? with
    | some y => at' y pa
    | none => none
  | _, _ :: _ => none

/-- The position exists: every container on the way to it is there. -/
def has : Val → List Nat → Prop
  | _, [] => True
  | .node vs, i :: pa =>
    match vs[i]? with
    | some y => has y pa
    | none => False
  | _, _ :: _ => False

/-- The value with the one at a position replaced. -/
def upd : Val → List Nat → Val → Val
  | _, [], x => x
  | .node vs, i :: pa, x =>
    match vs[i]? with
    | some y => .node (vs.set i (upd y pa x))
    | none => .node vs
  | v, _ :: _, _ => v

theorem at_upd_same (v : Val) (pa : List Nat) (x : Val) (h : v.has pa) : (v.upd pa x).at' pa = some x := by
  induction pa generalizing v with
  | nil => simp [upd, at']
  | cons i pa ih =>
    cases v with
    | node vs =>
      simp only [has] at h
      cases hi : vs[i]? with
      | none => rw [hi] at h; exact absurd h id
      | some y =>
        rw [hi] at h
        have hlt := (List.getElem?_eq_some_iff.mp hi).1
        simp only [upd, hi, at', List.getElem?_set, if_true, hlt]
        exact ih y h
    | _ => simp [has] at h

theorem at_upd_other (v : Val) (pa pb : List Nat) (x : Val) (h1 : ¬ pa <+: pb) (h2 : ¬ pb <+: pa) :
    (v.upd pa x).at' pb = v.at' pb := by
  induction pa generalizing v pb with
  | nil => exact absurd List.nil_prefix h1
  | cons i pa ih =>
    cases pb with
    | nil => exact absurd List.nil_prefix h2
    | cons j pb =>
      cases v with
      | node vs =>
        simp only [upd]
        cases hi : vs[i]? with
        | none => rfl
        | some y =>
          have hlt := (List.getElem?_eq_some_iff.mp hi).1
          simp only [at', List.getElem?_set]
          by_cases hij : i = j
          · subst hij
            rw [if_pos rfl, if_pos hlt, hi]
            simp only
            apply ih
            · intro hh; exact h1 (List.cons_prefix_cons.mpr ⟨rfl, hh⟩)
            · intro hh; exact h2 (List.cons_prefix_cons.mpr ⟨rfl, hh⟩)
          · rw [if_neg hij]
      | _ => rfl

end Val

namespace Dti

/-- A type with a variable sized type inside of it is variable sized. -/
theorem typeAt_ok {d t : Dti} (pa : List Nat) (h : TyOk d) (ht : d.typeAt pa = some t) :
    TyOk t ∧ (t.isVar = true → d.isVar = true) := by
  induction pa generalizing d with
  | nil => simp [typeAt] at ht; subst ht; exact ⟨h, id⟩
  | cons i pa ih =>
    simp only [typeAt, Option.bind_eq_bind] at ht
    obtain ⟨c, h1, h2⟩ := Option.bind_eq_some_iff.mp ht
    have : TyOk c ∧ (c.isVar = true → d.isVar = true) := by
      unfold tyAtNoData at h1
      split at h1
      · cases h1
      · split at h1
        · cases h1
        · cases h with
          | prim => simp [tyAt] at h1
          | str => simp [tyAt] at h1; subst h1; exact ⟨u8_ok, by intro hh; cases hh⟩
          | tup hh fs a1 a2 a3 a4 a5 a6 =>
            simp only [tyAt] at h1
            obtain ⟨⟨f, t'⟩, g1, g2⟩ := Option.map_eq_some_iff.mp h1
            simp only at g2
            subst g2
            have hm := List.mem_of_getElem? g1
            refine ⟨a3 _ _ hm, fun hv => ?_⟩
            show hh.isVar = true
            rw [a6]; exact List.any_eq_true.mpr ⟨_, hm, hv⟩
          | arr hh c' a1 a2 a3 =>
            simp only [tyAt] at h1
            cases h1
            refine ⟨a2, fun hv => ?_⟩
            show hh.isVar = true
            rw [a3, hv]; simp
    obtain ⟨g1, g2⟩ := ih this.1 h2
    exact ⟨g1, fun hv => this.2 (g2 hv)⟩

theorem tyAt_pos {d t : Dti} {n i : Nat} (h : TyOk d) (hn : CountOk d n) (hi : i < n)
    (ht : d.tyAtNoData i = some t) : (posOf d n i).ty = t := by
  unfold tyAtNoData at ht
  split at ht
  · cases ht
  · split at ht
    · cases ht
    · cases h with
      | prim => simp [tyAt] at ht
      | str => simpa [tyAt, posOf] using ht
      | tup hh fs a1 a2 a3 a4 =>
        have hn : n = hh.count := hn rfl
        simp only [tyAt] at ht
        simp only [posOf]
        rw [List.getElem?_eq_getElem (by omega)] at ht ⊢
        simpa using ht
      | arr hh c =>
        simp only [tyAt] at ht
        cases ht
        simp only [posOf]
        split
        · split <;> rfl
        · rfl

section
variable {d : Dti} {m m' : Bytes} {S : Nat} {cs : List Elt} {o : Nat → Nat}

/-- Replacing a variable sized element by one of the same length in the same place. -/
theorem CRep.updPlace (h : TyOk d) (hc : d.isCont = true) (r : CRep d m S cs o) {i : Nat} {b b' : Bytes}
    (hi : cs[i]? = some (.var b)) (hbl : b'.length = b.length)
    (hbs : (posOf d cs.length i).ty.getSize b' = some b'.length)
    (hl : m'.length = m.length) (hsame : ∀ x, x < o i ∨ o i + b.length ≤ x → m'[x]? = m[x]?)
    (hnew : rd m' (o i) b'.length = b') : CRep d m' S (cs.set i (.var b')) o := by
  have hlt : i < cs.length := (List.getElem?_eq_some_iff.mp hi).1
  have hlay := lay_of h hc r.countOk
  have hbm := bitmap_le_fixedEnd h hc r.countOk
  obtain ⟨e1, e2, e3, e4, e5, e6, e7⟩ := r.elt i _ hi
  have hrd : ∀ a l, a + l ≤ fixedEnd d cs.length → rd m' a l = rd m a l := by
    intro a l hal; apply rd_ext; intro x hx; exact hsame _ (by omega)
  have hbit : ∀ k, k < bitsOf d cs.length → bit m' d.offBitmap k = bit m d.offBitmap k := by
    intro k hk
    apply bit_congr
    unfold bitmapBytes at hbm
    apply hsame; omega
  have hheap := heap_set (c' := .var b') hi
  simp only [Elt.hlen] at hheap
  refine ⟨by rw [hl]; exact r.le, r.mx, by simpa using r.cntF, ?_, ?_, ?_, ?_, ?_⟩
  · intro hv
    unfold word
    rw [hrd _ _ (by simp [offBitmap, hasCountP, hv] at hbm; omega), List.length_set]; exact r.cntV hv
  · intro hs
    unfold word
    rw [hrd _ _ (by simp [offBitmap, offCountP, hs] at hbm; omega)]; exact r.szP hs
  · have := r.sum; rw [List.length_set]; omega
  · intro j c2 hj
    rw [List.length_set]
    rw [List.getElem?_set] at hj
    by_cases hij : i = j
    · subst hij
      rw [if_pos rfl, if_pos hlt] at hj
      cases hj
      refine ⟨e1, ?_, e3, by omega, hnew, by omega, hbs⟩
      have hfx := hlay.fx i hlt (isVar_not_bit (posOf_ok h hc r.countOk hlt) e1)
      simp only [slot, e1, if_true] at hfx
      unfold word
      rw [hrd _ _ hfx.2]; exact e2
    · rw [if_neg hij] at hj
      have hjl : j < cs.length := (List.getElem?_eq_some_iff.mp hj).1
      have hok := posOf_ok h hc r.countOk hjl
      have ej := r.elt j c2 hj
      refine ej.frame ?_ ?_ ?_ (isVar_not_bit hok) ?_
      · intro hn; exact hbit _ (hlay.vb j hjl hn)
      · intro hb x hx; exact hbit _ (by have := hlay.bf j hjl hb; omega)
      · intro hb; exact hrd _ _ (by have := hlay.fx j hjl hb; omega)
      · intro bj hb; subst hb
        obtain ⟨h1, h2, h3, h4, h5, h6, h7⟩ := ej
        refine ⟨h4, ?_⟩
        apply rd_ext
        intro x hx
        have := r.disj i j b bj hij hi hj
        exact hsame _ (by omega)
  · intro j k a a' hjk hj hk
    rw [List.getElem?_set] at hj hk
    by_cases hij : i = j
    · subst hij
      rw [if_pos rfl, if_pos hlt] at hj
      rw [if_neg hjk] at hk
      cases hj
      have := r.disj i k b a' hjk hi hk
      omega
    · rw [if_neg hij] at hj
      by_cases hik : i = k
      · subst hik
        rw [if_pos rfl, if_pos hlt] at hk
        cases hk
        have := r.disj j i a b hjk hj hi
        omega
      · rw [if_neg hik] at hk
        exact r.disj j k a a' hjk hj hk

theorem EVals.set {vs : List Val} (hv : EVals d cs vs) {i : Nat} {c' : Elt} {y' : Val}
    (he : EVal (posOf d cs.length i).ty c' y') : EVals d (cs.set i c') (vs.set i y') := by
  refine ⟨by simp [hv.1], ?_⟩
  intro j c y hj hy
  rw [List.length_set]
  rw [List.getElem?_set] at hj hy
  by_cases hij : i = j
  · subst hij
    simp only [if_true] at hj hy
    split at hj
    · split at hy
      · cases hj; cases hy; exact he
      · cases hy
    · cases hj
  · rw [if_neg hij] at hj hy
    exact hv.2 j c y hj hy

theorem enc_of_crep (h : TyOk d) (hc : d.isCont = true) (r : CRep d m S cs o) {vs : List Val}
    (hv : EVals d cs vs) : Enc d (m.take S) (.node vs) := by
  have hl : (m.take S).length = S := by have := r.le; simp; omega
  have r' := r.take h hc
  refine enc_node (cs := cs) (o := o) hc ?_ hv
  rw [hl]; exact r'

theorem crep_of_enc (h : TyOk d) (hc : d.isCont = true) {val : Val} (hS : S ≤ m.length)
    (e : Enc d (m.take S) val) : ∃ cs o vs, val = .node vs ∧ CRep d m S cs o ∧ EVals d cs vs := by
  have hl : (m.take S).length = S := by simp; omega
  obtain ⟨cs, o, vs, h1, r, hv⟩ := enc_cont hc e
  rw [hl] at r
  exact ⟨cs, o, vs, h1, CRep.of_take h hc hS r, hv⟩

end

end Dti
end TS
