import Verif.PropsAlias
/-
Property C73: where the elements of a tuple are after one of them was changed.
-/
namespace TS
namespace Dti

/-- If everything along the position ends where the tuple ends, it is last in its container. -/
theorem last_of_ends (pa : List Nat) : ∀ {d : Dti} {m : Bytes} {S : Nat} {val : Val}, TyOk d → d.isCont = true ∨ pa = [] →
    S ≤ m.length → Enc d (m.take S) val →
    (∀ pb a n u, pb <+: pa → Spot d m pb a n u → a + n = S) → (∃ t, d.typeAt pa = some t) → d.Last m pa := by
  induction pa with
  | nil => intros; trivial
  | cons i pa ih =>
    intro d m S val h hc0 hS e hend ht k p a n s h1 h2 h3 h4 h5 h6 h7
    have hc : d.isCont = true := by rcases hc0 with hc | hc; exact hc; cases hc
    rw [size_eq h hS e] at h7
    cases h7
    obtain ⟨cs, o, vs, hv, r, hvs⟩ := crep_of_enc h hc hS e
    have hcnt := getCount_eq h hc r
    rw [h1] at hcnt; cases hcnt
    have hpi := posInfo_eq h hc r h2
    rw [h3] at hpi; cases hpi
    have hok := posOf_ok h hc r.countOk h2
    have hb := isVar_not_bit hok h4
    have hs : Spot d m [i] a n (posOf d cs.length i).ty :=
      ⟨hc, _, _, a, 0, h1, h2, h3, hb, h5, rfl, rfl, rfl, h6⟩
    have hae := hend [i] a n _ (by simp) hs
    refine ⟨hae, ?_⟩
    obtain ⟨n', y, a1, a2, a3, a4, a5, a6, _⟩ := kid_of h hc r hvs h2 hb h5
    rw [h6] at a1; cases a1
    have ht' : ∃ t, (posOf d cs.length i).ty.typeAt pa = some t := by
      obtain ⟨t, ht⟩ := ht
      simp only [typeAt, Option.bind_eq_bind] at ht
      obtain ⟨ct, ht1, ht2⟩ := Option.bind_eq_some_iff.mp ht
      exact ⟨t, by rw [tyAt_pos h r.countOk h2 ht1]; exact ht2⟩
    refine ih hok ?_ a5 a6 ?_ ht'
    · cases pa with
      | nil => exact Or.inr rfl
      | cons j pa =>
        obtain ⟨t, ht⟩ := ht'
        exact Or.inl (typeAt_cont (by simpa [typeAt] using ht))
    · intro pb b k u hp hs2
      have := hend (i :: pb) (a + b) k u (by simpa using hp) ⟨hc, _, _, a, b, h1, h2, h3, hb, h5, rfl, hs2⟩
      omega

/-- If the element is last already, nothing goes anywhere. -/
theorem goes_last (pa : List Nat) : ∀ {d t : Dti} {m : Bytes} {S : Nat} {val : Val} {x : Nat}, TyOk d → S ≤ m.length →
    Enc d (m.take S) val → d.typeAt pa = some t → t.isVar = true → d.Last m pa → x < S → d.goes m pa x = x := by
  induction pa with
  | nil => intros; rfl
  | cons i pa ih =>
    intro d t m S val x h hS e ht hv hla hx
    rw [goes, size_eq h hS e]
    cases hk : d.kid m i with
    | none => rfl
    | some z =>
      obtain ⟨a, n, u⟩ := z
      obtain ⟨k1, k2, k3, k4, k5, y, k6⟩ := kid_in h hS e hk
      obtain ⟨hc, k, p, o, b, h1, h2, h3, h4, h5, h6, rfl, rfl, h8⟩ := k5
      subst h6
      have htu := ht
      simp only [typeAt, Option.bind_eq_bind] at htu
      obtain ⟨ct, ht1, ht2⟩ := Option.bind_eq_some_iff.mp htu
      obtain ⟨cs, oo, vs, hval, r, hvs⟩ := crep_of_enc h hc hS e
      have hcnt := getCount_eq h hc r
      rw [h1] at hcnt; cases hcnt
      have hpi := posInfo_eq h hc r h2
      rw [h3] at hpi; cases hpi
      have hty := tyAt_pos h r.countOk h2 ht1
      have hvar : (posOf d cs.length i).ty.isVar = true := by rw [hty]; exact (typeAt_ok _ (hty ▸ k1) ht2).2 hv
      obtain ⟨g1, g2⟩ := hla _ _ a n S h1 h2 h3 hvar h5 h8 (size_eq h hS e)
      dsimp only
      by_cases hxo : x < a
      · rw [if_pos hxo]
      · rw [if_neg hxo, if_neg (by omega), ih k1 k4 k6 (by rw [hty]; exact ht2) hv g2 (by omega)]
        omega

/-- An element elsewhere goes as a whole. -/
theorem goes_rigid (pa : List Nat) : ∀ {pb : List Nat} {d u : Dti} {m : Bytes} {S : Nat} {val : Val} {a n x : Nat}, TyOk d →
    S ≤ m.length → Enc d (m.take S) val → Spot d m pb a n u → ¬ pa <+: pb → ¬ pb <+: pa → x < n →
    d.goes m pa (a + x) = d.goes m pa a + x := by
  induction pa with
  | nil => intros; rfl
  | cons i pa ih =>
    intro pb d u m S val a n x h hS e hs hp1 hp2 hx
    rw [goes, goes, size_eq h hS e]
    cases hk : d.kid m i with
    | none => rfl
    | some z =>
      obtain ⟨b, k, t⟩ := z
      obtain ⟨k1, k2, k3, k4, k5, y, k6⟩ := kid_in h hS e hk
      dsimp only
      cases pb with
      | nil => exact absurd List.nil_prefix hp2
      | cons j pb =>
        by_cases hji : j = i
        · subst hji
          obtain ⟨g1, g2, g3⟩ := spot_under [j] (pb := pb) h hS e k5 (by simpa using hs)
          have := ih (pb := pb) (x := x) k1 k4 k6 g3 (fun hh => hp1 (by simpa using hh)) (fun hh => hp2 (by simpa using hh)) hx
          rw [if_neg (by omega), if_neg (by omega), if_neg (by omega), if_neg (by omega),
            show a + x - b = a - b + x by omega, this]
          omega
        · have := spot_apart [i] h hS e k5 hs (by simp; exact fun hh => hji hh.symm) (by simp; exact fun hh => absurd hh hji)
          rcases this with g | g
          · rw [if_neg (by omega), if_pos (by omega), if_neg (by omega), if_pos (by omega)]; omega
          · rw [if_pos (by omega), if_pos (by omega)]

/-- Reading an element stored in bytes reads the datum that is there. -/
theorem spot_get (pa : List Nat) : ∀ {d u : Dti} {m : Bytes} {o a n : Nat}, Spot d (m.drop o) pa a n u →
    d.getElemLoc m o pa = u.getDatumLoc m (o + a) := by
  induction pa with
  | nil => rintro d u m o a n ⟨rfl, rfl, _⟩; rfl
  | cons i pa ih =>
    rintro d u m o a n ⟨hc, k, p, b, c, h1, h2, h3, h4, h5, rfl, h7⟩
    rw [List.drop_drop] at h7
    have := ih h7
    cases pa with
    | nil =>
      obtain ⟨rfl, rfl, _⟩ := h7
      simp [getElemLoc, getContLoc, hc, h1, Nat.not_le.mpr h2, h3, h4, h5]
    | cons j pa =>
      simp only [getElemLoc, hc, h1, Nat.not_le.mpr h2, h3, h5, Bool.not_true, Bool.false_eq_true, if_false, ge_iff_le,
        Option.bind_eq_bind, Option.bind_some]
      rw [this, Nat.add_assoc]

/-- The same datum elsewhere. -/
def _root_.TS.Loc.moved (f : Nat → Nat) : Loc → Loc
  | .val v => .val v
  | .bytes a k => .bytes (f a) k
  | .ptr a => .ptr (f a)

theorem getDatumLoc_moved {u : Dti} {m m' : Bytes} {a a' n : Nat} {y : Val} {l : Loc} {f : Nat → Nat} (h : TyOk u)
    (hn : a + n ≤ m.length) (hn' : a' + n ≤ m'.length) (e : Enc u ((m.drop a).take n) y) (he : rd m' a' n = rd m a n)
    (hf : ∀ x, x ≤ u.offBitmap → x < n → f (a + x) = a' + x) (hf0 : f a = a')
    (hg : u.getDatumLoc m a = some (some l)) (hl : ∀ v, l ≠ .val v) (hk : ∀ x, l ≠ .bytes x 0) : u.getDatumLoc m' a' = some (some (l.moved f)) := by
  cases u with
  | prim k hh =>
    exfalso
    simp only [getDatumLoc] at hg
    cases hx : getDatum (.prim k hh) (m.drop a) with
    | none => rw [hx] at hg; cases hg
    | some x =>
      rw [hx] at hg
      cases x with
      | none => cases hg
      | some v => cases hg; exact hl _ rfl
  | str bin hh =>
    have hS : n ≤ (m.drop a).length := by simp; omega
    have hS' : n ≤ (m'.drop a').length := by simp; omega
    obtain ⟨cs, off, vs, h1, r, hv⟩ := crep_of_enc h rfl hS e
    have r' : CRep (.str bin hh) (m'.drop a') n cs off := by
      refine CRep.of_take h rfl hS' ?_
      have : (m'.drop a').take n = (m.drop a).take n := he
      rw [this]; exact r.take h rfl
    have hcnt := getCount_eq h rfl r
    have hcnt' := getCount_eq h rfl r'
    have hfe1 := fixedEnd_le r
    have hfe' : fixedEnd (.str bin hh) cs.length = offBitmap (.str bin hh) + cs.length := by simp [fixedEnd]
    have hld : load m' (a' + offBitmap (.str bin hh)) cs.length = load m (a + offBitmap (.str bin hh)) cs.length := by
      unfold load
      rw [if_pos (by omega), if_pos (by omega)]
      congr 1
      have hl1 : (rd m a n).length = n := rd_length _ _ _ (by omega)
      have hl2 : (rd m' a' n).length = n := rd_length _ _ _ (by omega)
      rw [rd_rd (b := rd m' a' n) (by rw [hl2]) (by omega), rd_rd (b := rd m a n) (by rw [hl1]) (by omega), he]
    simp only [getDatumLoc, hcnt, Option.bind_eq_bind, Option.bind_some, Option.bind_eq_some_iff] at hg
    obtain ⟨b, hb, hg⟩ := hg
    cases hg
    simp only [getDatumLoc, hcnt', Option.bind_eq_bind, Option.bind_some, hld, hb, Loc.moved, Option.pure_def]
    have : f (a + offBitmap (.str bin hh)) = a' + offBitmap (.str bin hh) := by
      cases hz : cs.length with
      | zero =>
        exfalso
        have hb0 := load_len hb
        have := strn_le b
        refine hk (a + offBitmap (.str bin hh)) ?_
        congr 1
        split <;> omega
      | succ k => exact hf _ (Nat.le_refl _) (by omega)
    rw [this]
  | tup => cases hg; simp only [getDatumLoc, Loc.moved, hf0]
  | arr => cases hg; simp only [getDatumLoc, Loc.moved, hf0]

end Dti

namespace Props
open Dti

/-- A call was made that changes the element at `pa`, and left `m'`: the element was set, or elements
were inserted in it or removed from it; successfully or not. -/
inductive Changed (d : Dti) (m : Bytes) (S : Nat) (pa : List Nat) (m' : Bytes) : Prop
  /-- `set_element_in_tuple` -/
  | set (v : Datum) (inc : Nat) (q : Bool) (ha : SetArgs d m S pa v inc) (h : d.setElem m pa v inc = some (m', q))
  /-- `expand_element_count_for_element_in_tuple` -/
  | expand (t : Dti) (index slots inc : Nat) (q : Bool) (ha : GrowArgs d m S pa slots inc) (ht : d.typeAt pa = some t)
      (hv : t.isVarCount = true) (h : d.expandElem m pa index slots inc = some (m', q))
  /-- `discard_elements_from_element_in_tuple` -/
  | discard (t : Dti) (index slots : Nat) (q : Bool) (hu : Usable d) (hm : IsTuple d m S) (ht : d.typeAt pa = some t)
      (hv : t.isVarCount = true) (hb : ∀ c, t.cont = some c → c.isBit = true → c.eltBits ≤ 64)
      (h : d.discardElem m pa index slots = some (m', q))

theorem changed_keeps {d t : Dti} {m m' : Bytes} {S : Nat} {pa : List Nat} (h : Changed d m S pa m')
    (ht : d.typeAt pa = some t) :
    TyOk d ∧ IsTuple d m S ∧ ∃ S', IsTuple d m' S' ∧ m'.length = m.length ∧ (t.isVar = false → S' = S) ∧
      Keeps d m S m' S' t.isVar pa := by
  cases h with
  | set v inc q ha h =>
    have hd := ha.usable.ok
    obtain ⟨hS, val, he⟩ := ha.tuple
    obtain ⟨ht1, ht2⟩ := typeAt_ok pa hd ht
    obtain ⟨m1, q1, S', val', k1, k2, k3, k4, k5, k6, k7, k8, k9, k10, k11⟩ :=
      setElemI_at pa (inc := inc) (v := v) hd hS he ht ((ha.datum t ht).den ht1) (fun hh => ha.room (ht2 hh))
    simp only [setElem, ht, k1] at h
    cases h
    exact ⟨hd, ⟨hS, val, he⟩, S', ⟨by omega, val', k5⟩, k3, k9, k11⟩
  | expand t' index slots inc q ha ht' hvc h =>
    rw [ht] at ht'; cases ht'
    have hd := ha.usable.ok
    obtain ⟨hS, val, he⟩ := ha.tuple
    obtain ⟨ht1, ht2⟩ := typeAt_ok pa hd ht
    obtain ⟨htc, htv, c, hcd, hok, _⟩ := varCount_cont ht1 hvc
    have hcnt := elemCount_ok pa hd hS he ht htc
    obtain ⟨m1, q1, S', val', k1, k2, k3, k4, k5, k6, k7, k8, k9, k10⟩ :=
      expandElemI_at pa (index := index) (slots := slots) (inc := inc) hd hS he ht hvc hcd
        (fun vs hvs => ha.limit t _ ht hvc (by rw [hcnt, hvs]; rfl)) (ha.room (ht2 htv))
    simp only [expandElem, ht, hvc, Bool.not_true, Bool.false_eq_true, if_false, k1] at h
    cases h
    exact ⟨hd, ⟨hS, val, he⟩, S', ⟨by omega, val', k5⟩, k3, (by rw [htv]; intro hh; cases hh), htv ▸ k10⟩
  | discard t' index slots q hu hm ht' hvc hb h =>
    rw [ht] at ht'; cases ht'
    have hd := hu.ok
    obtain ⟨hS, val, he⟩ := hm
    obtain ⟨ht1, ht2⟩ := typeAt_ok pa hd ht
    obtain ⟨htc, htv, c, hcd, hok, _⟩ := varCount_cont ht1 hvc
    obtain ⟨m1, q1, S', val', k1, k2, k3, k4, k5, k6, k7, k8, k9, k10⟩ :=
      discardElemI_at pa (index := index) (slots := slots) hd hS he ht hvc hcd (hb c hcd)
    simp only [discardElem, ht, hvc, Bool.not_true, Bool.false_eq_true, if_false, k1] at h
    cases h
    exact ⟨hd, ⟨hS, val, he⟩, S', ⟨by omega, val', k5⟩, k3, (by rw [htv]; intro hh; cases hh), htv ▸ k10⟩

/-- C73. Setting an element of a fixed size moves nothing: every other element is where it was, and
those that do not contain it have the same bytes. -/
theorem C73_fixed {d t : Dti} {m m' : Bytes} {S : Nat} {pa : List Nat} (h : Changed d m S pa m')
    (ht : d.typeAt pa = some t) (hv : t.isVar = false) {pb : List Nat} {a n : Nat} {u : Dti} (hp : ¬ pa <+: pb)
    (hs : Spot d m pb a n u) : Spot d m' pb a n u ∧ (¬ pb <+: pa → rd m' a n = rd m a n) := by
  obtain ⟨hd, hm, S', hm', hl, hS', hk⟩ := changed_keeps h ht
  rw [hv] at hk
  have hSS := hS' hv
  by_cases hp2 : pb <+: pa
  · obtain ⟨n', k1, k2⟩ := hk.above pb a n u hp2 (fun hh => hp (by rw [hh]; exact List.prefix_refl _)) hs
    simp only [Bool.false_eq_true, if_false] at k1
    have : n' = n := by omega
    subst this
    exact ⟨k1, fun hh => absurd hp2 hh⟩
  · have := hk.other pb a n u hp hp2 hs
    simp only [Bool.false_eq_true, if_false] at this
    exact ⟨this.1, fun _ => this.2⟩

/-- C73. Changing an element of variable size moves the other elements exactly as `goes` says, with
their bytes; also if the call fails. -/
theorem C73_moves {d t : Dti} {m m' : Bytes} {S : Nat} {pa : List Nat} (h : Changed d m S pa m')
    (ht : d.typeAt pa = some t) (hv : t.isVar = true) {pb : List Nat} {a n : Nat} {u : Dti} (hp : ¬ pa <+: pb)
    (hp2 : ¬ pb <+: pa) (hs : Spot d m pb a n u) :
    Spot d m' pb (d.goes m pa a) n u ∧ rd m' (d.goes m pa a) n = rd m a n := by
  obtain ⟨hd, hm, S', hm', hl, hS', hk⟩ := changed_keeps h ht
  rw [hv] at hk
  simpa using hk.other pb a n u hp hp2 hs

/-- C73. So do the containers of the element; they grow and shrink with the tuple. -/
theorem C73_containers {d t : Dti} {m m' : Bytes} {S S' : Nat} {pa : List Nat} (h : Changed d m S pa m')
    (ht : d.typeAt pa = some t) (hv : t.isVar = true) (hS' : d.getSize m' = some S') {pb : List Nat} {a n : Nat} {u : Dti}
    (hp : pb <+: pa) (hp2 : pb ≠ pa) (hs : Spot d m pb a n u) :
    ∃ n', Spot d m' pb (d.goes m pa a) n' u ∧ n' + S = n + S' := by
  obtain ⟨hd, hm, S'', hm', hl, _, hk⟩ := changed_keeps h ht
  rw [hv] at hk
  rw [(hm'.size hd).1] at hS'
  cases hS'
  simpa using hk.above pb a n u hp hp2 hs

/-- C73. Afterwards the element and all containers on the way to it end where the tuple ends. -/
theorem C73_ends {d t : Dti} {m m' : Bytes} {S S' : Nat} {pa : List Nat} (h : Changed d m S pa m')
    (ht : d.typeAt pa = some t) (hv : t.isVar = true) (hS' : d.getSize m' = some S') {pb : List Nat} {a n : Nat} {u : Dti}
    (hp : pb <+: pa) (hs : Spot d m' pb a n u) : a + n = S' := by
  obtain ⟨hd, hm, S'', hm', hl, _, hk⟩ := changed_keeps h ht
  rw [hv] at hk
  rw [(hm'.size hd).1] at hS'
  cases hS'
  exact hk.ends rfl pb a n u hp hs

theorem changed_last {d t : Dti} {m m' : Bytes} {S : Nat} {pa : List Nat} (h : Changed d m S pa m')
    (ht : d.typeAt pa = some t) (hv : t.isVar = true) : d.Last m' pa := by
  obtain ⟨hd, hm, S', ⟨hm', val, e⟩, hl, _, hk⟩ := changed_keeps h ht
  rw [hv] at hk
  refine last_of_ends pa hd ?_ hm' e (hk.ends rfl) ⟨t, ht⟩
  cases pa with
  | nil => exact Or.inr rfl
  | cons i pa =>
    simp only [typeAt, Option.bind_eq_bind, Option.bind_eq_some_iff] at ht
    obtain ⟨u, h1, _⟩ := ht
    refine Or.inl ?_
    cases hc : d.isCont with
    | true => rfl
    | false => simp [tyAtNoData, hc] at h1

/-- C73. So changing the same element again moves nothing: every other element stays where it is, and
those that do not contain it keep their bytes. -/
theorem C73_again {d t : Dti} {m m1 m2 : Bytes} {S S1 : Nat} {pa : List Nat} (h : Changed d m S pa m1)
    (h2 : Changed d m1 S1 pa m2) (ht : d.typeAt pa = some t) {pb : List Nat} {a n : Nat} {u : Dti} (hp : ¬ pa <+: pb)
    (hs : Spot d m1 pb a n u) : ∃ n', Spot d m2 pb a n' u ∧ (¬ pb <+: pa → n' = n ∧ rd m2 a n = rd m1 a n) := by
  cases hv : t.isVar with
  | false =>
    obtain ⟨g1, g2⟩ := C73_fixed h2 ht hv hp hs
    exact ⟨n, g1, fun hh => ⟨rfl, g2 hh⟩⟩
  | true =>
    have hla := changed_last h ht hv
    obtain ⟨hd, hm, S', hm', hl, _, hk⟩ := changed_keeps h2 ht
    obtain ⟨hS, val, e⟩ := hm
    have hin := spot_in pb hd hS e hs
    have hgo := goes_last pa hd hS e ht hv hla (x := a) (by omega)
    by_cases hp2 : pb <+: pa
    · obtain ⟨n', k1, k2⟩ := C73_containers h2 ht hv (hm'.size hd).1 hp2
        (fun hh => hp (by rw [hh]; exact List.prefix_refl _)) hs
      rw [hgo] at k1
      exact ⟨n', k1, fun hh => absurd hp2 hh⟩
    · obtain ⟨k1, k2⟩ := C73_moves h2 ht hv hp hp2 hs
      rw [hgo] at k1 k2
      exact ⟨n, k1, fun _ => ⟨rfl, k2⟩⟩

/-- C73. And copying to it from anywhere in the same tuple does what copying from another copy of the
tuple does. -/
theorem C73_copy (cv : Conv) {d t : Dti} {m m' : Bytes} {S S' : Nat} {pa : List Nat} (h : Changed d m S pa m')
    (ht : d.typeAt pa = some t) (hu : Usable d) (hm : IsTuple d m' S') (pa2 : List Nat) (inc : Nat) :
    d.setFromSelf cv m' pa pa2 inc = d.setFromTuple cv m' pa d m' pa2 inc := by
  cases hv : t.isVar with
  | false => exact C71_fixed cv hu hm ht hv pa2 inc
  | true => exact C71_last cv hu hm ht hv (changed_last h ht hv) pa2 inc

/-- C73. What a pointer to the characters of another element, or to another tuple or array inside of
the tuple, has to become after the change of an element of variable size. -/
theorem C73_pointer {d t : Dti} {m m' : Bytes} {S : Nat} {pa : List Nat} (h : Changed d m S pa m')
    (ht : d.typeAt pa = some t) (hv : t.isVar = true) {pb : List Nat} {l : Loc} (hp : ¬ pa <+: pb) (hp2 : ¬ pb <+: pa)
    (hg : d.getElemLoc m 0 pb = some (some l)) (hl : ∀ v, l ≠ .val v) (hl0 : ∀ x, l ≠ .bytes x 0) :
    d.getElemLoc m' 0 pb = some (some (l.moved (d.goes m pa))) := by
  obtain ⟨hd, ⟨hS, val, e⟩, S', ⟨hS', val', e'⟩, hl1, _, hk⟩ := changed_keeps h ht
  rcases getElem_points pb (o := 0) (S := S) hd (by omega) (by simpa using e) hg with ⟨v, rfl⟩ | ⟨a, n, u, hs, hpt⟩
  · exact absurd rfl (hl v)
  · simp only [List.drop_zero] at hs
    obtain ⟨k1, k2⟩ := C73_moves h ht hv hp hp2 hs
    have i1 := spot_in pb hd hS e hs
    have i2 := spot_in pb hd hS' e' k1
    rw [spot_get pb (by simpa using hs), Nat.zero_add] at hg
    rw [spot_get pb (by simpa using k1), Nat.zero_add]
    obtain ⟨j1, j2, j3, j4, j5, y, j6⟩ := i1
    refine getDatumLoc_moved j1 (by omega) (by have := i2.2.1; omega) j6 k2 ?_ rfl hg hl hl0
    intro x _ hx
    exact goes_rigid pa hd hS e hs hp hp2 hx

/-- C73. After the change of an element of a fixed size such pointers stay good. -/
theorem C73_pointer_fixed {d t : Dti} {m m' : Bytes} {S : Nat} {pa : List Nat} (h : Changed d m S pa m')
    (ht : d.typeAt pa = some t) (hv : t.isVar = false) {pb : List Nat} {l : Loc} (hp : ¬ pa <+: pb) (hp2 : ¬ pb <+: pa)
    (hg : d.getElemLoc m 0 pb = some (some l)) (hl : ∀ v, l ≠ .val v) (hl0 : ∀ x, l ≠ .bytes x 0) :
    d.getElemLoc m' 0 pb = some (some l) := by
  obtain ⟨hd, ⟨hS, val, e⟩, S', ⟨hS', val', e'⟩, hl1, _, hk⟩ := changed_keeps h ht
  rcases getElem_points pb (o := 0) (S := S) hd (by omega) (by simpa using e) hg with ⟨v, rfl⟩ | ⟨a, n, u, hs, hpt⟩
  · exact absurd rfl (hl v)
  · simp only [List.drop_zero] at hs
    obtain ⟨k1, k2⟩ := C73_fixed h ht hv hp hs
    have i1 := spot_in pb hd hS e hs
    have i2 := spot_in pb hd hS' e' k1
    rw [spot_get pb (by simpa using hs), Nat.zero_add] at hg
    rw [spot_get pb (by simpa using k1), Nat.zero_add]
    obtain ⟨j1, j2, j3, j4, j5, y, j6⟩ := i1
    have := getDatumLoc_moved (f := id) j1 (by omega) (by have := i2.2.1; omega) j6 (k2 hp2) (fun _ _ _ => rfl) rfl hg hl hl0
    rw [this]
    cases l <;> rfl

/-- Setting the first string of the example to "abcdef", inserting two elements in the first array,
removing its element, and setting a BINARY of a fixed size. -/
theorem spotSet : ∃ m', Changed aliasFin aliasMem 37 [0] m' ∧
    aliasFin.setElem aliasMem [0] (.bytes [97, 98, 99, 100, 101, 102]) 30 = some (m', true) := by
  have h : (aliasFin.setElem aliasMem [0] (.bytes [97, 98, 99, 100, 101, 102]) 30).map Prod.snd = some true := by decide +kernel
  obtain ⟨⟨m', q⟩, h1, h2⟩ := Option.map_eq_some_iff.mp h
  cases h2
  refine ⟨m', .set _ _ true ⟨aliasFin_usable, aliasMem_tuple, ?_, by decide⟩ h1, h1⟩
  intro t ht
  cases ht
  exact .inr (.inr ⟨_, rfl, by decide⟩)

theorem spotExpand : ∃ m', Changed aliasFin aliasMem 37 [4] m' ∧
    aliasFin.expandElem aliasMem [4] 1 2 30 = some (m', true) := by
  have h : (aliasFin.expandElem aliasMem [4] 1 2 30).map Prod.snd = some true := by decide +kernel
  obtain ⟨⟨m', q⟩, h1, h2⟩ := Option.map_eq_some_iff.mp h
  cases h2
  refine ⟨m', .expand _ _ _ _ true ⟨aliasFin_usable, aliasMem_tuple, ?_, by decide⟩ rfl rfl h1, h1⟩
  intro t n ht _ hn
  cases ht
  have : aliasFin.elemCount aliasMem [4] = some 1 := by decide +kernel
  rw [this] at hn
  cases hn
  refine ⟨by decide, fun c hc hb => ?_⟩
  cases hc; cases hb

theorem spotDiscard : ∃ m', Changed aliasFin aliasMem 37 [4] m' ∧ aliasFin.discardElem aliasMem [4] 0 1 = some (m', true) := by
  have h : (aliasFin.discardElem aliasMem [4] 0 1).map Prod.snd = some true := by decide +kernel
  obtain ⟨⟨m', q⟩, h1, h2⟩ := Option.map_eq_some_iff.mp h
  cases h2
  refine ⟨m', .discard _ _ _ true aliasFin_usable aliasMem_tuple rfl rfl (fun c hc hb => ?_) h1, h1⟩
  cases hc; cases hb

theorem spotNested : ∃ m', Changed aliasFin aliasMem 37 [4, 0] m' ∧
    aliasFin.setElem aliasMem [4, 0] (.bytes [66]) 0 = some (m', true) := by
  have h : (aliasFin.setElem aliasMem [4, 0] (.bytes [66]) 0).map Prod.snd = some true := by decide +kernel
  obtain ⟨⟨m', q⟩, h1, h2⟩ := Option.map_eq_some_iff.mp h
  cases h2
  refine ⟨m', .set _ _ true ⟨aliasFin_usable, aliasMem_tuple, ?_, by decide⟩ h1, h1⟩
  intro t ht
  cases ht
  exact .inr (.inr ⟨_, rfl, by decide⟩)

theorem spotFixed : ∃ m', Changed aliasFin aliasMem 37 [2] m' ∧
    aliasFin.setElem aliasMem [2] (.bytes [9, 9, 9, 9]) 0 = some (m', true) := by
  have h : (aliasFin.setElem aliasMem [2] (.bytes [9, 9, 9, 9]) 0).map Prod.snd = some true := by decide +kernel
  obtain ⟨⟨m', q⟩, h1, h2⟩ := Option.map_eq_some_iff.mp h
  cases h2
  refine ⟨m', .set _ _ true ⟨aliasFin_usable, aliasMem_tuple, ?_, by decide⟩ h1, h1⟩
  intro t ht
  cases ht
  exact .inr (.inr ⟨_, rfl, by decide⟩)

/-- The hypotheses of the theorems in these cases: the second string is at 18, its characters at 19;
they go to 15 and 16 when the first is set. The string in the second array, at 32, goes to 29, and if
the first array is changed to 26. -/
example : Spot aliasFin aliasMem [1] 18 5 (.str false { isFinal := true, isVar := true, varCount := true, maxSize := 50, size := 1 }) ∧
    Spot aliasFin aliasMem [5, 0] 32 5 (.str false { isFinal := true, isVar := true, varCount := true, maxSize := 50, size := 1 }) ∧
    aliasFin.getElemLoc aliasMem 0 [1] = some (some (.bytes 19 4)) ∧
    aliasFin.getElemLoc aliasMem 0 [5, 0] = some (some (.bytes 33 4)) ∧
    aliasFin.getElemLoc aliasMem 0 [5] = some (some (.ptr 29)) ∧
    ([15, 18, 19, 23, 29, 33].map (aliasFin.goes aliasMem [0])) = [34, 15, 16, 20, 26, 30] ∧
    ([15, 18, 19, 23, 29, 33].map (aliasFin.goes aliasMem [4])) = [15, 18, 19, 31, 23, 27] ∧
    ([15, 18, 19, 23, 26, 29, 33].map (aliasFin.goes aliasMem [4, 0])) = [15, 18, 19, 31, 34, 23, 27] ∧
    ¬ [0] <+: [1] ∧ ¬ [1] <+: [0] ∧ ¬ [4, 0] <+: [5, 0] ∧ ¬ [5, 0] <+: [4, 0] := by
  have s1 : aliasFin.kid aliasMem 1 =
      some (18, 5, (.str false { isFinal := true, isVar := true, varCount := true, maxSize := 50, size := 1 })) := by rfl
  refine ⟨?_, ?_, rfl, rfl, rfl, by decide +kernel, by decide +kernel, by decide +kernel,
    by decide, by decide, by decide, by decide⟩
  · obtain ⟨_, _, _, _, h, _⟩ := kid_in aliasFin_usable.ok aliasMem_tuple.1 aliasMem_tuple.2.choose_spec s1
    exact h
  · have s5 : aliasFin.kid aliasMem 5 = some (29, 8, _) := rfl
    obtain ⟨k1, k2, k3, k4, ⟨h1, k, p, o, b, h2, h3, h4, h5, h6, h7, h8, h9, h10⟩, y, k6⟩ :=
      kid_in aliasFin_usable.ok aliasMem_tuple.1 aliasMem_tuple.2.choose_spec s5
    have s50 := kid_in k1 k4 k6 (i := 0) (a := 3) (n := 5) rfl
    refine ⟨h1, k, p, o, 3, h2, h3, h4, h5, h6, by omega, ?_⟩
    have : o = 29 := by omega
    subst this
    rw [← h9]
    exact s50.2.2.2.2.1

end Props
end TS
