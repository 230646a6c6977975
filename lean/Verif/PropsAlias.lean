import Verif.AliasSet
import Verif.PropsCopy
import Verif.PropsHist
/-
Property C71: copying an element of a tuple to another element of the same tuple.
-/
namespace TS
namespace Dti

mutual
/-- How deep a type is nested. -/
def depth : Dti → Nat
  | .prim .. => 0
  | .str .. => 1
  | .tup _ fs => depthAll fs + 1
  | .arr _ c => depth c + 1
def depthAll : List (Fld × Dti) → Nat
  | [] => 0
  | (_, t) :: r => max (depth t) (depthAll r)
end

theorem depth_mem {f : Fld} {t : Dti} : ∀ {fs : List (Fld × Dti)}, (f, t) ∈ fs → t.depth ≤ depthAll fs
  | [], h => by cases h
  | (g, u) :: r, h => by
    simp only [depthAll]
    rcases List.mem_cons.mp h with h | h
    · cases h; omega
    · have := depth_mem h; omega

theorem tyAtNoData_depth {d t : Dti} {i : Nat} (h : d.tyAtNoData i = some t) : t.depth < d.depth := by
  unfold tyAtNoData at h
  split at h
  · cases h
  · split at h
    · cases h
    · cases d with
      | prim => cases h
      | str => simp only [tyAt, Option.some.injEq] at h; subst h; simp [u8, depth]
      | tup hh fs =>
        simp only [tyAt, Option.map_eq_some_iff] at h
        obtain ⟨p, hp, rfl⟩ := h
        have := depth_mem (List.mem_of_getElem? hp : (p.1, p.2) ∈ fs)
        simp only [depth]; omega
      | arr hh c => simp only [tyAt, Option.some.injEq] at h; subst h; simp [depth]

theorem typeAt_depth (pa : List Nat) : ∀ {d t : Dti}, d.typeAt pa = some t → t.depth + pa.length ≤ d.depth := by
  induction pa with
  | nil => intro d t h; simp only [typeAt, Option.some.injEq] at h; subst h; simp
  | cons i pa ih =>
    intro d t h
    simp only [typeAt, Option.bind_eq_bind, Option.bind_eq_some_iff] at h
    obtain ⟨u, h1, h2⟩ := h
    have := tyAtNoData_depth h1
    have := ih h2
    simp only [List.length_cons]; omega

theorem depthAll_all2 {fs gs : List (Fld × Dti)} (h : All2 (fun p q => p.2.depth = q.2.depth) fs gs) :
    depthAll fs = depthAll gs := by
  induction h with
  | nil => rfl
  | cons h1 _ ih => simp only [depthAll, h1, ih]

theorem ident_depth {d : Dti} (hd : TyOk d) : ∀ {e : Dti}, TyOk e → ident d e = some true → d.depth = e.depth := by
  induction d using Dti.ind with
  | hp k h => intro e _ hi; obtain ⟨_, rfl, _⟩ := ident_prim hi; rfl
  | hs b h => intro e _ hi; obtain ⟨_, rfl, _⟩ := ident_str hi; rfl
  | ht h fs ih =>
    intro e he hi
    obtain ⟨h2, gs, rfl, _, hcnt, hall⟩ := ident_tup hi
    cases hd with
    | tup _ _ _ _ a3 a4 =>
      cases he with
      | tup _ _ _ _ b3 b4 =>
        have := identAll_true (by omega) hall
        simp only [depth]
        rw [depthAll_all2 (this.imp_mem (fun p q hp hq hh => ih p.1 p.2 hp (a3 _ _ hp) (b3 _ _ hq) hh))]
  | ha h c ih =>
    intro e he hi
    obtain ⟨h2, c2, rfl, _, _, _, hc⟩ := ident_arr hi
    cases hd with
    | arr _ _ _ a2 =>
      cases he with
      | arr _ _ _ b2 => simp only [depth]; rw [ih a2 b2 hc]

theorem ident_head {d e : Dti} (h : ident d e = some true) : HeadEq d.hdr e.hdr ∧ d.isCont = e.isCont ∧ d.isStr = e.isStr := by
  cases d with
  | prim k hh => obtain ⟨h2, rfl, h3⟩ := ident_prim h; exact ⟨h3, rfl, rfl⟩
  | str k hh => obtain ⟨h2, rfl, h3⟩ := ident_str h; exact ⟨h3, rfl, rfl⟩
  | tup hh fs => obtain ⟨h2, gs, rfl, h3, _⟩ := ident_tup h; exact ⟨h3, rfl, rfl⟩
  | arr hh c => obtain ⟨h2, c2, rfl, h3, _⟩ := ident_arr h; exact ⟨h3, rfl, rfl⟩

/-- Types between which bytes are copied as they are are nested equally deep. -/
theorem copies_depth {t t2 : Dti} (h : TyOk t) (h2 : TyOk t2)
    (hi : ident t t2 = some true ∨ (t.isStr = true ∧ t2.isStr = true)) : t.depth = t2.depth := by
  rcases hi with hi | ⟨h3, h4⟩
  · exact ident_depth h h2 hi
  · cases t <;> simp only [isStr, Bool.false_eq_true] at h3
    cases t2 <;> simp only [isStr, Bool.false_eq_true] at h4
    rfl

/-- The bytes that are copied from an element are bytes of the element. -/
theorem covers_in {d t t2 : Dti} {m : Bytes} {S : Nat} {val : Val} {l : Loc} {pa2 : List Nat} {a n x : Nat} (h : TyOk d)
    (hS : S ≤ m.length) (e : Enc d (m.take S) val) (hv : t.isVar = false)
    (hi : ident t t2 = some true ∨ (t.isStr = true ∧ t2.isStr = true))
    (hs : Spot d m pa2 a n t2) (hp : PointsTo l 0 a n t2) (hx : l.covers t x) : a ≤ x ∧ x < a + n := by
  cases l with
  | val v => exact hx.elim
  | bytes b k => obtain ⟨h1, h2, h3⟩ := hp; obtain ⟨h4, h5⟩ := hx; omega
  | ptr b =>
    obtain ⟨h1, h2, h3⟩ := hp; obtain ⟨h4, h5⟩ := hx
    rcases hi with hi | ⟨_, hi⟩
    · obtain ⟨k1, k2, k3, k4, k5, y, k6⟩ := spot_in pa2 h hS e hs
      have hz := enc_size k1 k6
      have hl : ((m.drop a).take n).length = n := by simp; omega
      have g := (ident_head hi).1
      have : t2.isVar = false := by unfold isVar at hv ⊢; rw [← g.isVar]; exact hv
      have := hz.2.2.2.2.2 this
      have := g.size hv
      omega
    · rw [h2] at hi; cases hi

/-- The bytes to be copied are not in the bitmap of the container of the destination. -/
theorem copy_clear {d t t2 : Dti} {m : Bytes} {S : Nat} {val : Val} {l : Loc} {pa pa2 : List Nat} {a n : Nat} (h : TyOk d)
    (hS : S ≤ m.length) (e : Enc d (m.take S) val) (ht : d.typeAt pa = some t) (hv : t.isVar = false)
    (hi : ident t t2 = some true ∨ (t.isStr = true ∧ t2.isStr = true))
    (hs : Spot d m pa2 a n t2) (hp : PointsTo l 0 a n t2) :
    ∀ q i b k u c, pa = q ++ [i] → Spot d m q b k u → u.getCount (m.drop b) = some c →
      ∀ x, l.covers t x → x < b + u.offBitmap ∨ b + u.offBitmap + bitmapBytes (bitsOf u c) ≤ x := by
  rintro q i b k u c rfl hsq hcnt x hx
  obtain ⟨x1, x2⟩ := covers_in h hS e hv hi hs hp hx
  obtain ⟨k1, k2, k3, k4, k5, y, k6⟩ := spot_in q h hS e hsq
  obtain ⟨s1, s2, s3, s4, s5, z, s6⟩ := spot_in pa2 h hS e hs
  have htu : u.typeAt [i] = some t := by simpa only [Props.typeAt_append, k4, Option.bind_some] using ht
  have hcu := typeAt_cont htu
  obtain ⟨cs, o, vs, _, r, hvs⟩ := crep_of_enc k1 hcu (by simp; omega) k6
  have := getCount_eq k1 hcu r
  rw [hcnt] at this; cases this
  have hfe := fixedEnd_le r
  have hbm := bitmap_le_fixedEnd k1 hcu r.countOk
  by_cases hq : pa2 <+: q
  · obtain ⟨s, rfl⟩ := hq
    rw [List.append_assoc, Props.typeAt_append, s4, Option.bind_some] at ht
    have := typeAt_depth _ ht
    have := copies_depth (typeAt_ok _ s1 ht).1 s1 hi
    simp only [List.length_append, List.length_cons, List.length_nil] at *
    omega
  · by_cases hq2 : q <+: pa2
    · obtain ⟨s, rfl⟩ := hq2
      cases s with
      | nil => simp at hq
      | cons j s =>
        obtain ⟨u1, u2, u3⟩ := spot_under q h hS e hsq hs
        obtain ⟨_, cs', o', vs', b', c', kk, g1, r', hvs', h2, h4, h5, h6, h7, h8⟩ := spot_step k1 (by simp; omega) k6 u3
        have := getCount_eq k1 hcu r'
        rw [hcnt] at this
        injection this with this
        obtain ⟨k', y', a1, a2, a3, a4, a5, a6, a7, a8⟩ := kid_of k1 hcu r' hvs' (by omega) h4 h5
        rw [← this] at a7
        omega
    · rcases spot_apart q h hS e hsq hs hq2 hq with g | g <;> omega

/-- Copying within one tuple is copying between two tuples if setting the element is. -/
theorem self_eq (cv : Conv) {d t : Dti} {m : Bytes} {S : Nat} {val : Val} {pa pa2 : List Nat} {inc : Nat} (h : TyOk d)
    (hS : S ≤ m.length) (e : Enc d (m.take S) val) (ht : d.typeAt pa = some t)
    (hk : ∀ l w a n t2, l.points → l.den m = some w → d.getElem m pa2 = some (some w) → d.typeAt pa2 = some t2 → Spot d m pa2 a n t2 →
      PointsTo l 0 a n t2 → (ident t t2 = some true ∨ (t.isStr = true ∧ t2.isStr = true)) →
      d.setElemILoc m 0 inc l t.isVar pa = d.setElemI m inc w t.isVar pa) :
    d.setFromSelf cv m pa pa2 inc = d.setFromTuple cv m pa d m pa2 inc := by
  have hag := getElem_loc (S := S) (val := val) (m := m) pa2 (o := 0) h (by omega) (by simpa using e)
  simp only [List.drop_zero] at hag
  unfold setFromSelf setFromTuple
  cases hg : d.getElemLoc m 0 pa2 with
  | none => rw [hg] at hag; simp [show d.getElem m pa2 = none from hag]
  | some x =>
    cases x with
    | none => rw [hg] at hag; simp [show d.getElem m pa2 = some none from hag]
    | some l =>
      rw [hg] at hag
      obtain ⟨w, hw, hag⟩ := hag
      simp only [hag, Option.bind_eq_bind, Option.bind_some]
      cases ht2 : d.typeAt pa2 with
      | none => rfl
      | some t2 =>
        simp only [ht, hw, Option.bind_some]
        have key : (ident t t2 = some true ∨ (t.isStr = true ∧ t2.isStr = true)) →
            d.setElemLoc m pa l inc = d.setElem m pa w inc := by
          intro hi
          rcases getElem_points (S := S) (val := val) pa2 (o := 0) h (by omega) (by simpa using e) hg with ⟨v, rfl⟩ | ⟨a, n, t2', hs, hp⟩
          · cases hw; rfl
          · simp only [List.drop_zero] at hs
            have := (spot_in pa2 h hS e hs).2.2.2.1
            rw [ht2] at this; cases this
            cases l with
            | val v => cases hw; rfl
            | bytes b k => simp only [setElemLoc, setElem, ht]; exact hk _ _ _ _ _ (fun v => by simp) hw hag ht2 hs hp hi
            | ptr b => simp only [setElemLoc, setElem, ht]; exact hk _ _ _ _ _ (fun v => by simp) hw hag ht2 hs hp hi
        cases hid : ident t t2 with
        | none => rfl
        | some b =>
          cases b with
          | true => simpa using key (Or.inl hid)
          | false =>
            simp only [Option.bind_some, Bool.false_eq_true, if_false]
            split
            · rfl
            · split
              · rename_i hs
                simp only [Bool.and_eq_true] at hs
                exact key (Or.inr hs)
              · rfl

/-- Where an element is written if nothing has to be moved. -/
theorem target_spot (pa : List Nat) : ∀ {d t : Dti} {m : Bytes} {S : Nat} {val : Val} {q : Nat}, TyOk d → S ≤ m.length →
    Enc d (m.take S) val → d.typeAt pa = some t → t.isVar = true → d.Last m pa → d.Target m pa q →
    (∃ k, Spot d m pa q k t) ∨ q = S := by
  induction pa with
  | nil =>
    intro d t m S val q h hS e ht hv _ hq
    simp only [typeAt, Option.some.injEq] at ht
    subst ht
    have hl : (m.take S).length = S := by simp; omega
    have hz := enc_size h e
    rw [hl] at hz
    exact Or.inl ⟨S, hq, rfl, by
      have := getSize_at (m := m) (o := 0) (by rw [hz.1, hl]) (by rw [hl]; simp [rd])
      simpa [hl] using this⟩
  | cons i pa ih =>
    intro d t m S val q h hS e ht hv hla hq
    have hc := typeAt_cont ht
    obtain ⟨cs, off, vs, h1, r, hvs⟩ := crep_of_enc h hc hS e
    have hcnt := getCount_eq h hc r
    have hgs := getSize_eq h hc r
    obtain ⟨k, p, q1, q2, q3, hq⟩ := hq
    rw [hcnt] at q1; cases q1
    have hpi := posInfo_eq h hc r q2
    rw [hpi] at q3; cases q3
    have hty := typeAt_kid h hc r.countOk q2 ht
    have hok := posOf_ok h hc r.countOk q2
    have hpv : (posOf d cs.length i).ty.isVar = true := typeAt_var pa hok hty hv
    have hb := isVar_not_bit hok hpv
    rcases hq with ⟨rfl, g1, g2⟩ | ⟨a, c, g1, rfl, g3⟩
    · rw [hgs] at g2; cases g2; exact Or.inr rfl
    · obtain ⟨n, y, a1, a2, a3, a4, a5, a6, a7, a8⟩ := kid_of h hc r hvs q2 hb g1
      obtain ⟨l1, l2⟩ := hla _ _ a n S hcnt q2 hpi hpv g1 a1 hgs
      rcases ih hok a5 a6 hty hv l2 g3 with ⟨k, hk⟩ | rfl
      · exact Or.inl ⟨k, hc, _, _, a, c, hcnt, q2, hpi, hb, g1, rfl, hk⟩
      · exact Or.inr l1

/-- Where the characters of a STRING or BINARY lie that has a variable size. -/
theorem str_off {b : Bool} {h : Hdr} (hv : h.isVar = true) : offBitmap (.str b h) = vsz h.maxSize := by
  simp [offBitmap, offCountP, hasSizeP, hasCountP, isVarCount, w, hdr, hv]

/-- If nothing has to be moved the count of a string is not written into the characters to be
copied. -/
theorem target_clear {d t t2 : Dti} {m : Bytes} {S : Nat} {val : Val} {l : Loc} {pa pa2 : List Nat} {a n : Nat} (h : TyOk d)
    (hS : S ≤ m.length) (e : Enc d (m.take S) val) (ht : d.typeAt pa = some t) (hv : t.isVar = true) (hla : d.Last m pa)
    (hi : ident t t2 = some true ∨ (t.isStr = true ∧ t2.isStr = true))
    (hs : Spot d m pa2 a n t2) (hp : PointsTo l 0 a n t2) :
    ∀ q, d.Target m pa q → ∀ x k, l = .bytes x k → x + k ≤ q ∨ q + vsz t.hdr.maxSize ≤ x := by
  rintro q hq x k rfl
  obtain ⟨p1, p2, p3⟩ := hp
  have hts : t.isStr = true := by
    rcases hi with hi | hi
    · rw [(ident_head hi).2.2]; exact p3
    · exact hi.1
  obtain ⟨s1, s2, s3, s4, s5, y, s6⟩ := spot_in pa2 h hS e hs
  rcases target_spot pa h hS e ht hv hla hq with ⟨k', hk⟩ | rfl
  · obtain ⟨g1, g2, g3, g4, g5, z, g6⟩ := spot_in pa h hS e hk
    have hd1 : t.depth = 1 := by cases t <;> simp_all [isStr, depth]
    have hd2 : t2.depth = 1 := by cases t2 <;> simp_all [isStr, depth]
    have hcont : t.isCont = true := by cases t <;> simp_all [isStr, isCont]
    have hoff : t.offBitmap = vsz t.hdr.maxSize := by
      cases t <;> simp only [isStr, Bool.false_eq_true] at hts
      exact str_off hv
    obtain ⟨cs, o, vs, _, r, hvs⟩ := crep_of_enc g1 hcont (by simp; omega) g6
    have hfe := fixedEnd_le r
    have hbm := bitmap_le_fixedEnd g1 hcont r.countOk
    have same : pa = pa2 → x + k ≤ q ∨ q + vsz t.hdr.maxSize ≤ x := by
      rintro rfl
      obtain ⟨u1, u2, u3, u4, u5⟩ := spot_under (pb := []) pa h hS e hk (by simpa using hs)
      subst u4
      omega
    by_cases c1 : pa <+: pa2
    · obtain ⟨s, rfl⟩ := c1
      rw [Props.typeAt_append, ht, Option.bind_some] at s4
      have := typeAt_depth _ s4
      have : s = [] := List.length_eq_zero_iff.mp (by omega)
      subst this
      exact same (by simp)
    · by_cases c2 : pa2 <+: pa
      · obtain ⟨s, rfl⟩ := c2
        rw [Props.typeAt_append, s4, Option.bind_some] at ht
        have := typeAt_depth _ ht
        have : s = [] := List.length_eq_zero_iff.mp (by omega)
        subst this
        exact same (by simp)
      · rcases spot_apart pa2 h hS e hs hk c2 c1 with g | g <;> omega
  · omega

end Dti

namespace Props
open Dti

/-- C71. Copying within one tuple to an element of a fixed size does what copying from another copy
of the tuple does, wherever the source lies and whatever it holds: nothing is written before it is
read. -/
theorem C71_fixed (cv : Conv) {d t : Dti} {m : Bytes} {S : Nat} {pa : List Nat} (hu : Usable d) (hm : IsTuple d m S)
    (ht : d.typeAt pa = some t) (hv : t.isVar = false) (pa2 : List Nat) (inc : Nat) :
    d.setFromSelf cv m pa pa2 inc = d.setFromTuple cv m pa d m pa2 inc := by
  obtain ⟨hS, val, e⟩ := hm
  refine self_eq cv hu.ok hS e ht ?_
  intro l w a n t2 hp hw _ _ hs hpt hi
  have := setElemILoc_fixed (o := 0) (S := S) (inc := inc) (val := val) hp hw hv pa hu.ok (by omega) (by simpa using e) ht
    (by simpa using copy_clear hu.ok hS e ht hv hi hs hpt)
  rw [atOff_eq] at this
  rw [hv, this]
  simp only [List.drop_zero, List.take_zero, List.nil_append]
  exact Option.map_id'

/-- C71. Copying within one tuple to an element of variable size does what copying from another copy
of the tuple does if the element, and on the way to it every container in its container, is the
last one in memory (or NULL): then nothing is moved before the source is read. -/
theorem C71_last (cv : Conv) {d t : Dti} {m : Bytes} {S : Nat} {pa : List Nat} (hu : Usable d) (hm : IsTuple d m S)
    (ht : d.typeAt pa = some t) (hv : t.isVar = true) (hla : d.Last m pa) (pa2 : List Nat) (inc : Nat) :
    d.setFromSelf cv m pa pa2 inc = d.setFromTuple cv m pa d m pa2 inc := by
  obtain ⟨hS, val, e⟩ := hm
  refine self_eq cv hu.ok hS e ht ?_
  intro l w a n t2 hp hw _ _ hs hpt hi
  have := setElemILoc_var (o := 0) (S := S) (inc := inc) (val := val) hp hw hv pa hu.ok (by omega) (by simpa using e) ht
    (by simpa using hla) (by simpa using target_clear hu.ok hS e ht hv hla hi hs hpt)
  rw [atOff_eq] at this
  rw [hv, this]
  simp only [List.drop_zero, List.take_zero, List.nil_append]
  exact Option.map_id'

/-- C71. That is so in particular if the element of variable size is NULL. -/
theorem C71_null (cv : Conv) {d t : Dti} {m : Bytes} {S i : Nat} (hu : Usable d) (hm : IsTuple d m S)
    (ht : d.typeAt [i] = some t) (hv : t.isVar = true) (hn : d.getElem m [i] = some (some .null)) (pa2 : List Nat) (inc : Nat) :
    d.setFromSelf cv m [i] pa2 inc = d.setFromTuple cv m [i] d m pa2 inc := by
  refine C71_last cv hu hm ht hv ?_ pa2 inc
  intro k p a n s h1 h2 h3 h4 h5 h6 h7
  exfalso
  have hc := typeAt_cont ht
  obtain ⟨hS, val, e⟩ := hm
  obtain ⟨cs, off, vs, _, r, hvs⟩ := crep_of_enc hu.ok hc hS e
  have hcnt := getCount_eq hu.ok hc r
  rw [h1] at hcnt; cases hcnt
  have hpi := posInfo_eq hu.ok hc r h2
  rw [h3] at hpi; cases hpi
  have hok := posOf_ok hu.ok hc r.countOk h2
  have hb := isVar_not_bit hok h4
  simp only [Dti.getElem, getCont, hc, h1, Option.bind_eq_bind, Option.bind_some, ge_iff_le, Nat.not_le.mpr h2, if_false,
    Bool.not_true, Bool.false_eq_true, getContUnsafe, getAt, h3, h5, hb] at hn
  generalize posOf d cs.length i = p at h4 hok hn
  cases hp : p.ty with
  | prim k h => rw [hp] at hok h4; cases hok with | prim _ _ _ q => rw [show (prim k h).isVar = h.isVar from rfl, q] at h4; cases h4
  | str bin h =>
    rw [hp] at hn
    cases hg : getCount (.str bin h) (m.drop a) with
    | none => cases bin <;> simp [getDatum, hg] at hn
    | some n =>
      cases hl : load (m.drop a) (offBitmap (.str bin h)) n <;> cases bin <;> simp [getDatum, hg, hl] at hn
  | tup h fs => rw [hp] at hn; simp [getDatum] at hn
  | arr h c => rw [hp] at hn; simp [getDatum] at hn

/-- C71. In these cases an element of an identical type, if the copy succeeds, reads as the source did
before (compare C49). -/
theorem C71_reads (cv : Conv) {d t t2 : Dti} {m m' : Bytes} {S inc : Nat} {pa pa2 : List Nat} {dt : Datum}
    (ha : CopyArgs d m S pa d m S inc) (ht : d.typeAt pa = some t) (ht2 : d.typeAt pa2 = some t2)
    (hg : d.getElem m pa2 = some (some dt)) (hi : ident t t2 = some true) (hl : t.isVar = false ∨ d.Last m pa)
    (hs : d.setFromSelf cv m pa pa2 inc = some (m', true)) :
    Same (d.getElem m' pa) (d.getElem m pa2) ∧ (t.isCont = false → d.getElem m' pa = d.getElem m pa2) ∧
      ((∀ b h, t ≠ .str b h) → ∀ pb, Same (d.getElem m' (pa ++ pb)) (d.getElem m (pa2 ++ pb))) := by
  have : d.setFromSelf cv m pa pa2 inc = d.setFromTuple cv m pa d m pa2 inc := by
    cases hv : t.isVar with
    | false => exact C71_fixed cv ha.usable ha.tuple ht hv pa2 inc
    | true => exact C71_last cv ha.usable ha.tuple ht hv (by rcases hl with hl | hl; (rw [hv] at hl; cases hl); exact hl) pa2 inc
  rw [this] at hs
  exact (C49_identical cv ha ht ht2 hg hi).2.2 m' hs

/-- The type of the examples: strings, BINARYs of a fixed size, arrays of strings. -/
def aliasTy : Dti := .tup { count := 7, maxSize := 100 }
  [({}, .str false { varCount := true, maxSize := 50 }),
   ({}, .str false { varCount := true, maxSize := 50 }),
   ({}, .str true { nullable := true, count := 4 }),
   ({}, .str true { nullable := true, count := 4 }),
   ({}, .arr { varCount := true, maxSize := 60 } (.str false { varCount := true, maxSize := 50 })),
   ({}, .arr { varCount := true, maxSize := 60 } (.str false { varCount := true, maxSize := 50 })),
   ({}, .str false { varCount := true, maxSize := 50 })]

/-- The same, finalised. -/
def aliasFin : Dti := .tup { isFinal := true, isVar := true, count := 7, maxSize := 100, size := 15, bits := 2 }
  [({ off := 2 }, .str false { isFinal := true, isVar := true, varCount := true, maxSize := 50, size := 1 }),
   ({ off := 3 }, .str false { isFinal := true, isVar := true, varCount := true, maxSize := 50, size := 1 }),
   ({ off := 4 }, .str true { isFinal := true, nullable := true, count := 4, size := 4 }),
   ({ off := 8, vbit := 1 }, .str true { isFinal := true, nullable := true, count := 4, size := 4 }),
   ({ off := 12 }, .arr { isFinal := true, isVar := true, varCount := true, maxSize := 60, size := 2 }
      (.str false { isFinal := true, isVar := true, varCount := true, maxSize := 50, size := 1 })),
   ({ off := 13 }, .arr { isFinal := true, isVar := true, varCount := true, maxSize := 60, size := 2 }
      (.str false { isFinal := true, isVar := true, varCount := true, maxSize := 50, size := 1 })),
   ({ off := 14 }, .str false { isFinal := true, isVar := true, varCount := true, maxSize := 50, size := 1 })]

theorem aliasTy_raw : Raw aliasTy := by
  refine .tup _ _ rfl rfl ?_
  intro f t h
  simp at h
  rcases h with ⟨_, rfl⟩ | ⟨_, rfl⟩ | ⟨_, rfl⟩ | ⟨_, rfl⟩ <;> first | exact .str _ _ rfl | exact .arr _ _ rfl (.str _ _ rfl)

theorem aliasTy_finalize : finalize aliasTy = some aliasFin := rfl

theorem aliasFin_usable : Usable aliasFin := by
  refine ⟨aliasTy, ?_, aliasTy_finalize, ?_⟩
  · refine .tup _ _ rfl rfl ?_
    intro f t h
    simp at h
    rcases h with ⟨_, rfl⟩ | ⟨_, rfl⟩ | ⟨_, rfl⟩ | ⟨_, rfl⟩ <;> first | exact .str _ _ rfl | exact .arr _ _ rfl (.str _ _ rfl)
  · refine .tup _ _ ?_ (by decide) (by decide) (by decide)
    intro f t h
    simp at h
    rcases h with ⟨_, rfl⟩ | ⟨_, rfl⟩ | ⟨_, rfl⟩ | ⟨_, rfl⟩ | ⟨_, rfl⟩ | ⟨_, rfl⟩ | ⟨_, rfl⟩ <;>
      first | exact .str _ _ (by decide) (by decide) | exact .arr _ _ (.str _ _ (by decide) (by decide)) (by decide) (by decide)

/-- The calls that make the tuple of the examples. -/
def aliasCalls : List Call :=
  [.set [0] (.bytes [97, 98]) 30, .set [1] (.bytes [119, 120, 121, 122]) 30, .set [2] (.bytes [1, 2, 3, 4]) 30,
    .set [4] .empty 30, .expand [4] 0 1 30, .set [4, 0] (.bytes [65, 66]) 30,
    .set [5] .empty 30, .expand [5] 0 1 30, .set [5, 0] (.bytes [67, 68, 12, 9]) 30]

/-- The tuple of the examples. -/
def aliasMem : Bytes :=
  [37, 1, 15, 18, 1, 2, 3, 4, 0, 0, 0, 0, 23, 29, 0, 2, 97, 98, 4, 119, 120, 121, 122, 6, 1, 3, 2, 65, 66,
    8, 1, 3, 4, 67, 68, 12, 9] ++ List.replicate 63 0

theorem aliasMem_made : runAll ieee aliasFin (15 :: List.replicate 99 0) aliasCalls =
    some (aliasMem, [true, true, true, true, true, true, true, true, true]) := by decide +kernel

theorem alias_tuple {n S : Nat} {m : Bytes} {q : List Bool}
    (hr : runAll ieee aliasFin (15 :: List.replicate 99 0) (aliasCalls.take n) = some (m, q)) (hs : aliasFin.getSize m = some S) :
    IsTuple aliasFin m S := by
  have hm : ∀ c ∈ aliasCalls, c.Modest aliasFin := by
    intro c hc
    simp only [aliasCalls, List.mem_cons, List.not_mem_nil, or_false] at hc
    rcases hc with rfl | rfl | rfl | rfl | rfl | rfl | rfl | rfl | rfl <;> intro t ht <;> cases ht
    · exact .inr (.inr ⟨_, rfl, by decide⟩)
    · exact .inr (.inr ⟨_, rfl, by decide⟩)
    · exact .inr (.inr ⟨_, rfl, by decide⟩)
    · exact .inr (.inl rfl)
    · refine fun _ => ⟨by decide, fun c hc hb => ?_⟩
      cases hc; cases hb
    · exact .inr (.inr ⟨_, rfl, by decide⟩)
    · exact .inr (.inl rfl)
    · refine fun _ => ⟨by decide, fun c hc hb => ?_⟩
      cases hc; cases hb
    · exact .inr (.inr ⟨_, rfl, by decide⟩)
  obtain ⟨y, he⟩ := min_enc aliasFin_usable.ok rfl
  obtain ⟨m', qs, S', val', g1, _, _, g4, g5, _⟩ := C63_history ieee_ok aliasFin_usable (aliasCalls.take n)
    (m := 15 :: List.replicate 99 0) (S := 15) (val := y) (by decide) he (by decide)
    (C63_modest ieee aliasFin_usable _ (fun c hc => hm c (List.mem_of_mem_take hc)) y ⟨_, he⟩)
  rw [hr] at g1
  cases g1
  rw [hs] at g5
  cases g5
  exact g4

theorem aliasMem_tuple : IsTuple aliasFin aliasMem 37 := alias_tuple (n := 9) aliasMem_made (by decide +kernel)

/-- The tuple after the first two of the calls. -/
def aliasTwo : Bytes :=
  [23, 0, 15, 18, 0, 0, 0, 0, 0, 0, 0, 0, 0, 0, 0, 2, 97, 98, 4, 119, 120, 121, 122] ++ List.replicate 77 0

theorem aliasTwo_tuple : IsTuple aliasFin aliasTwo 23 :=
  alias_tuple (n := 2) (q := [true, true]) (by decide +kernel) (by decide +kernel)

/-- C71. Otherwise a copy within one tuple may be answered with 1 and be wrong: here one string is
copied over another of the same type, and the destination then holds neither its old nor the new
characters. -/
theorem C71_wrong : ∃ d m S pa pa2 inc x y m', Usable d ∧ IsTuple d m S ∧ min (S + inc) d.hdr.maxSize ≤ m.length ∧
    (∃ t, d.typeAt pa = some t ∧ d.typeAt pa2 = some t) ∧ d.getElem m pa2 = some (some (.bytes x)) ∧
    d.setFromSelf ieee m pa pa2 inc = some (m', true) ∧ d.getElem m' pa = some (some (.bytes y)) ∧ x ≠ y ∧
    d.getElem m pa ≠ some (some (.bytes y)) :=
  ⟨aliasFin, aliasMem, 37, [0], [1], 30, [119, 120, 121, 122], [122, 6, 1, 3], _, aliasFin_usable, aliasMem_tuple,
    by decide, ⟨_, rfl, rfl⟩, by decide +kernel,
    show aliasFin.setFromSelf ieee aliasMem [0] [1] 30 = some
      ([39, 1, 34, 15, 1, 2, 3, 4, 0, 0, 0, 0, 20, 26, 0, 4, 119, 120, 121, 122, 6, 1, 3, 2, 65, 66,
        8, 1, 3, 4, 67, 68, 12, 9] ++ [4, 122, 6, 1, 3] ++ List.replicate 61 0, true) by decide +kernel,
    by decide +kernel, by decide, by decide +kernel⟩

/-- C71. The same with elements of two arrays: the array around the destination is moved, too. -/
theorem C71_wrong_nested : ∃ d m S i j inc x y, Usable d ∧ IsTuple d m S ∧ min (S + inc) d.hdr.maxSize ≤ m.length ∧
    (∃ t, d.typeAt [i, 0] = some t ∧ d.typeAt [j, 0] = some t) ∧ d.getElem m [j, 0] = some (some (.bytes x)) ∧
    (d.setFromSelf ieee m [i, 0] [j, 0] inc).bind (fun r => (d.getElem r.1 [i, 0]).map (fun z => (r.2, z))) =
      some (true, some (.bytes y)) ∧ x ≠ y :=
  ⟨aliasFin, aliasMem, 37, 4, 5, 30, [67, 68, 12, 9], [3, 4, 65, 66], aliasFin_usable, aliasMem_tuple, by decide, ⟨_, rfl, rfl⟩,
    by decide +kernel, by decide +kernel, by decide⟩

/-- C71. The count of the destination may be written into the characters before they are copied: here
the destination ends up with its own new count, 4, among its characters. -/
theorem C71_count : ∃ d m S pa pa2 inc, Usable d ∧ IsTuple d m S ∧ min (S + inc) d.hdr.maxSize ≤ m.length ∧
    (∃ t, d.typeAt pa = some t ∧ d.typeAt pa2 = some t) ∧
    d.getElem m pa = some (some (.bytes [97, 98])) ∧ d.getElem m pa2 = some (some (.bytes [119, 120, 121, 122])) ∧
    (d.setFromSelf ieee m pa pa2 inc).bind (fun r => (d.getElem r.1 pa).map (fun z => (r.2, z))) =
      some (true, some (.bytes [122, 4, 97, 98])) :=
  ⟨aliasFin, aliasTwo, 23, [0], [1], 30, aliasFin_usable, aliasTwo_tuple, by decide, ⟨_, rfl, rfl⟩, by decide +kernel,
    by decide +kernel, by decide +kernel⟩

/-- C71. It may even leave something in memory that is no tuple: here one array of strings is copied
over another of the same type, the answer is 1, and reading the first string of the destination then
leaves the memory. -/
theorem C71_broken : ∃ d m S pa pa2 inc m', Usable d ∧ IsTuple d m S ∧ d.hdr.maxSize ≤ m.length ∧
    (∃ t, d.typeAt pa = some t ∧ d.typeAt pa2 = some t) ∧
    d.setFromSelf ieee m pa pa2 inc = some (m', true) ∧ (∃ pb, d.getElem m' (pa ++ pb) = none) ∧ ∀ S', ¬ IsTuple d m' S' := by
  have h : (aliasFin.setFromSelf ieee aliasMem [4] [5] 30).map Prod.snd = some true := by decide +kernel
  have hn : (aliasFin.setFromSelf ieee aliasMem [4] [5] 30).map (fun x => aliasFin.getElem x.1 [4, 0]) = some none := by
    decide +kernel
  cases hx : aliasFin.setFromSelf ieee aliasMem [4] [5] 30 with
  | none => rw [hx] at h; cases h
  | some x =>
    obtain ⟨m', q⟩ := x
    rw [hx] at h hn
    simp only [Option.map_some, Option.some.injEq] at h hn
    subst h
    refine ⟨aliasFin, aliasMem, 37, [4], [5], 30, m', aliasFin_usable, aliasMem_tuple, by decide, ⟨_, rfl, rfl⟩, hx,
      ⟨[0], hn⟩, ?_⟩
    rintro S' ⟨hS, v, e⟩
    have := getElem_ok [4, 0] aliasFin_usable.ok hS e
    unfold GetOk at this
    rw [hn] at this
    split at this <;> simp at this

/-- The BINARY of a fixed size, the array that is the last one in memory, the string that is NULL:
each is copied to within the tuple of the examples. -/
example : CopyArgs aliasFin aliasMem 37 [5] aliasFin aliasMem 37 30 ∧
    (∃ t, aliasFin.typeAt [3] = some t ∧ aliasFin.typeAt [2] = some t ∧ t.isVar = false ∧ ident t t = some true) ∧
    (aliasFin.setFromSelf ieee aliasMem [3] [2] 30).bind (fun x => (aliasFin.getElem x.1 [3]).map (fun a => (x.2, a))) =
      some (true, some (.bytes [1, 2, 3, 4])) ∧
    (∃ t, aliasFin.typeAt [5] = some t ∧ aliasFin.typeAt [4] = some t ∧ t.isVar = true ∧ ident t t = some true) ∧
    aliasFin.Last aliasMem [5] ∧
    (aliasFin.setFromSelf ieee aliasMem [5] [4] 30).bind (fun x => (aliasFin.getElem x.1 [5, 0]).map (fun a => (x.2, a))) =
      some (true, some (.bytes [65, 66])) ∧
    (∃ t, aliasFin.typeAt [6] = some t ∧ t.isVar = true) ∧ aliasFin.getElem aliasMem [6] = some (some .null) ∧
    (aliasFin.setFromSelf ieee aliasMem [6] [1] 30).bind (fun x => (aliasFin.getElem x.1 [6]).map (fun a => (x.2, a))) =
      some (true, some (.bytes [119, 120, 121, 122])) := by
  have hm : Made aliasFin := raw_finalize _ _ aliasTy_raw aliasTy_finalize
  refine ⟨⟨aliasFin_usable, hm, aliasMem_tuple, by decide, ?_, aliasFin_usable, hm, aliasMem_tuple⟩,
    ⟨_, rfl, rfl, rfl, by decide +kernel⟩, by decide +kernel, ⟨_, rfl, rfl, rfl, by decide +kernel⟩, ?_, by decide +kernel,
    ⟨_, rfl, rfl⟩, by decide +kernel, by decide +kernel⟩
  · intro t ht
    cases ht
    simp [ShortNames, cname, strn]
  · intro k p a n s h1 h2 h3 h4 h5 h6 h7
    refine ⟨?_, trivial⟩
    have e3 : aliasFin.posInfo aliasMem 5 = some ⟨13, 0, .arr { isFinal := true, isVar := true, varCount := true, maxSize := 60, size := 2 }
      (.str false { isFinal := true, isVar := true, varCount := true, maxSize := 50, size := 1 })⟩ := rfl
    rw [e3] at h3
    cases h3
    have e5 : aliasFin.ptrAt aliasMem ⟨13, 0, .arr { isFinal := true, isVar := true, varCount := true, maxSize := 60, size := 2 }
      (.str false { isFinal := true, isVar := true, varCount := true, maxSize := 50, size := 1 })⟩ = some (some 29) := by decide +kernel
    rw [e5] at h5
    cases h5
    have e6 : getSize (.arr { isFinal := true, isVar := true, varCount := true, maxSize := 60, size := 2 }
      (.str false { isFinal := true, isVar := true, varCount := true, maxSize := 50, size := 1 })) (aliasMem.drop 29) = some 8 := by
      decide +kernel
    have e7 : aliasFin.getSize aliasMem = some 37 := by decide +kernel
    rw [e6] at h6
    rw [e7] at h7
    cases h6
    cases h7
    rfl

end Props
end TS
