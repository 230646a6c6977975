import Verif.PropsReset
/-
Property theorems C95: expanding and discarding elements of a container in a tuple take each other
back.
-/
namespace TS
namespace Val

theorem upd_snoc (v : Val) (pa : List Nat) (l : List Val) (i : Nat) (y : Val) (h : v.has pa) (hi : i < l.length) :
    (v.upd pa (.node l)).upd (pa ++ [i]) y = v.upd pa (.node (l.set i y)) := by
  induction pa generalizing v with
  | nil => simp [upd, List.getElem?_eq_getElem hi]
  | cons j pa ih =>
    cases v with
    | node vs =>
      simp only [has] at h
      cases hj : vs[j]? with
      | none => rw [hj] at h; exact absurd h id
      | some z =>
        rw [hj] at h
        have hlt := (List.getElem?_eq_some_iff.mp hj).1
        simp only [List.cons_append, upd, hj, List.getElem?_set, if_true, hlt, List.set_set]
        rw [ih z h]
    | _ => simp [has] at h

end Val

namespace Dti

/-- `slots` blank elements more take what the part of the container of fixed size grows by. -/
theorem ins_len {t c : Dti} {b b' : Bytes} {vs : List Val} {y0 : Val} {i s : Nat} (hc : t.isCont = true)
    (hcd : t.cont = some c) (hok : TyOk c) (hy : EVal c (blank c) y0) (hi : i ≤ vs.length) (e : Enc t b (.node vs))
    (e' : Enc t b' (.node (insertAt vs i s y0))) :
    b'.length + fixedEnd t vs.length = b.length + fixedEnd t (vs.length + s) := by
  obtain ⟨cs, o, vs1, h1, r, hv⟩ := enc_cont hc e
  cases h1
  obtain ⟨cs', o', vs2, h1, r', hv'⟩ := enc_cont hc e'
  cases h1
  have hl := hv.1
  have hl' := hv'.1
  rw [insertAt_length _ _ _ hi] at hl'
  have hb0 : (blank c).hlen = 0 := by
    unfold blank
    split
    · rfl
    · split <;> rfl
  have hheap : heap cs' = heap (insertAt cs i s (blank c)) := by
    refine heap_det (by rw [insertAt_length _ _ _ (by omega)]; omega) ?_
    intro j x x' hx hx'
    have el' := r'.elt j x' hx'
    have hjl := (List.getElem?_eq_some_iff.mp hx').1
    obtain ⟨w, hw⟩ : ∃ w, (insertAt vs i s y0)[j]? = some w :=
      ⟨_, List.getElem?_eq_getElem (by rw [hv'.1]; exact hjl)⟩
    have ev' := hv'.2 j x' w hx' hw
    cases hcv : c.isVar with
    | false =>
      rw [eltAt_hlen_fixed el' (by rw [cont_ty hcd]; exact hcv)]
      by_cases hin : i ≤ j ∧ j < i + s
      · obtain ⟨k, rfl⟩ := Nat.exists_eq_add_of_le hin.1
        rw [insertAt_new _ _ (by omega) (by omega)] at hx
        cases hx; exact hb0.symm
      · obtain ⟨j0, rfl⟩ : ∃ j0, j = insIdx i s j0 := by
          by_cases hj : j < i
          · exact ⟨j, by simp [insIdx, hj]⟩
          · exact ⟨j - s, by unfold insIdx; split <;> omega⟩
        rw [insertAt_old _ _ _ (by omega)] at hx
        rw [eltAt_hlen_fixed (r.elt j0 x hx) (by rw [cont_ty hcd]; exact hcv)]
    | true =>
      have s' := eltAt_hlen (by rw [cont_ty hcd]; exact hok) el' ev' (by rw [cont_ty hcd]; exact hcv)
      rw [cont_ty hcd] at s'
      by_cases hin : i ≤ j ∧ j < i + s
      · obtain ⟨k, rfl⟩ := Nat.exists_eq_add_of_le hin.1
        rw [insertAt_new _ _ (by omega) (by omega)] at hx
        rw [insertAt_new _ _ (by omega) (by omega)] at hw
        cases hx; cases hw
        have hbn : blank c = .null := by simp [blank, isNullable, hcv]
        rw [hbn] at hy ⊢
        exact Sz.unique hok s' (.inl ⟨hy, rfl⟩)
      · obtain ⟨j0, rfl⟩ : ∃ j0, j = insIdx i s j0 := by
          by_cases hj : j < i
          · exact ⟨j, by simp [insIdx, hj]⟩
          · exact ⟨j - s, by unfold insIdx; split <;> omega⟩
        rw [insertAt_old _ _ _ (by omega)] at hx
        rw [insertAt_old _ _ _ hi] at hw
        have ev := hv.2 j0 x w hx hw
        have s0 := eltAt_hlen (by rw [cont_ty hcd]; exact hok) (r.elt j0 x hx) ev (by rw [cont_ty hcd]; exact hcv)
        rw [cont_ty hcd] at s0
        exact Sz.unique hok s' s0
  rw [heap_insertAt hb0] at hheap
  have s1 := r.sum
  have s2 := r'.sum
  rw [← hl] at s1
  rw [← hl'] at s2
  omega

/-- What an element is blank with can be given as a datum. -/
theorem blank_datum {c : Dti} {y0 : Val} (hok : TyOk c) (hy : EVal c (blank c) y0) :
    ∃ v, EDen c v y0 ∧ Full c v ∧ Props.Accepts c v ∧ (v.isNull = true → c.isNullable = true) ∧
      (v.isNull = false → c.isVar = false) := by
  unfold blank at hy
  split at hy
  · rename_i hn
    have : y0 = .null := hy
    subst this
    exact ⟨.null, rfl, (by intro h b _ _ h; simp [Datum.asBytes] at h), .inl rfl, fun _ => hn, by simp [Datum.isNull]⟩
  · rename_i hn
    have hcv : c.isVar = false := by simp [isNullable] at hn; exact hn.1
    split at hy
    · rename_i hb
      have : y0 = .bits 0 := hy
      subst this
      refine ⟨.empty, ?_, ?_, .inr (.inl rfl), by simp [Datum.isNull], fun _ => hcv⟩
      · simp only [EDen, Datum.isNull, Bool.false_eq_true, if_false, hb, if_true]
        exact ⟨0, rfl, by simp⟩
      · intro h b e
        subst e
        simp [isBit] at hb
    · have he : Enc c (List.replicate c.hdr.size 0) y0 := hy
      have hl : (List.replicate c.hdr.size (0 : UInt8)).length ≤ (List.replicate c.hdr.size (0 : UInt8)).length := Nat.le_refl _
      have g := getElem_ok [] hok hl (by rw [List.take_length]; exact he)
      simp only [GetOk, Val.at'] at g
      rcases g with ⟨rfl, _⟩ | ⟨t, dt, g1, g2, g3⟩
      · exact absurd he enc_not_null
      · simp only [typeAt, Option.some.injEq] at g1
        subst g1
        have hw : WholeVal c y0 := by
          rintro h x rfl rfl k ch hk _
          refine ⟨hcv, ?_⟩
          obtain ⟨cs, o, vs, e1, r, hv⟩ := enc_cont rfl he
          obtain ⟨s1, s2⟩ := str_vals r hv
          rw [← e1] at s1
          have hx := chars_inj s1
          rw [hx] at hk
          have hm := List.mem_of_getElem? hk
          unfold rd at hm
          have := List.mem_of_mem_drop (List.mem_of_mem_take hm)
          exact (List.mem_replicate.mp this).2
        obtain ⟨w1, w2, w3⟩ := shows_eden hok g3 (.inr (.inr ⟨_, he⟩)) hw
        refine ⟨dt, w1, w2, w3, ?_, fun _ => hcv⟩
        intro hnl
        have := isNull_of w1 hnl
        subst this
        exact absurd he enc_not_null
where
  isNull_of {c : Dti} {dt : Datum} {y : Val} (h : EDen c dt y) (hn : dt.isNull = true) : y = .null := by
    simpa [EDen, hn] using h

end Dti

namespace Props
open Dti

/-- The type of an element of a container with a variable number of elements. -/
theorem typeAt_elt {d t c : Dti} {pa : List Nat} (hd : TyOk d) (ht : d.typeAt pa = some t) (hvc : t.isVarCount = true)
    (hcd : t.cont = some c) (i : Nat) : d.typeAt (pa ++ [i]) = some c := by
  obtain ⟨htc, -⟩ := varCount_cont (typeAt_ok pa hd ht).1 hvc
  have := tyAtNoData_pos (n := i + 1) (i := i) (typeAt_ok pa hd ht).1 htc (fun h => by rw [hvc] at h; cases h) (by omega)
  rw [cont_ty hcd] at this
  rw [typeAt_append, ht]
  simp [typeAt, this]

section
variable {d t c : Dti} {pa : List Nat} {val y0 : Val} (hu : Usable d) (ht : d.typeAt pa = some t) (hvc : t.isVarCount = true)
  (hcd : t.cont = some c) (hy : EVal c (blank c) y0) (hh : val.has pa)
include hu ht hvc hcd hy hh

/-- An element made blank: there is such a tuple, and it is not larger. -/
theorem blank_one {l : List Val} {b : Bytes} {i : Nat} (hi : i < l.length) (e : Enc d b (val.upd pa (.node l))) :
    ∃ b', Enc d b' (val.upd pa (.node (l.set i y0))) ∧ b'.length ≤ b.length := by
  have hd := hu.ok
  have hte := typeAt_elt hd ht hvc hcd i
  have hok := (typeAt_ok _ hd hte).1
  obtain ⟨v, v1, v2, v3, v4, v5⟩ := blank_datum hok hy
  have hS : b.length ≤ b.length := Nat.le_refl _
  have he : Enc d (b.take b.length) (val.upd pa (.node l)) := by rw [List.take_length]; exact e
  have ha : SetArgs d b b.length (pa ++ [i]) v 0 :=
    ⟨hu, ⟨hS, _, he⟩, fun u hu' => by rw [hte] at hu'; cases hu'; exact v3, fun _ => by omega⟩
  have hhas : (val.upd pa (.node l)).has (pa ++ [i]) :=
    (has_snoc _ pa i).mpr ⟨l, Val.at_upd_same val pa _ hh, hi⟩
  obtain ⟨m', q, S', val', k1, k2, k3, k4, k5, k6, k7, k8, k9⟩ := setElem_main hd hS he ha.datum ha.room
  have hq : q = true := (set_can ha he k1).mpr ⟨c, hte, hhas, fun hn => ⟨by simp, v4 hn⟩, fun hn hv => by
    rw [v5 hn] at hv; cases hv⟩
  obtain ⟨g1, t', y', g2, g3, g4⟩ := k9 hq
  rw [hte] at g2
  cases g2
  rw [eden_unique hok v2 g3 v1, Val.upd_snoc val pa l i y0 hh hi] at g4
  subst g4
  exact ⟨_, k5, by simp; omega⟩

/-- Some elements made blank. -/
theorem blank_all {B X : List Val} : ∀ {A : List Val} {b : Bytes}, Enc d b (val.upd pa (.node (A ++ X ++ B))) →
    ∃ b', Enc d b' (val.upd pa (.node (A ++ List.replicate X.length y0 ++ B))) ∧ b'.length ≤ b.length := by
  induction X with
  | nil => intro A b e; exact ⟨b, by simpa using e, Nat.le_refl _⟩
  | cons x X ih =>
    intro A b e
    obtain ⟨b1, e1, l1⟩ := ih (A := A ++ [x]) (b := b) (by simpa using e)
    obtain ⟨b2, e2, l2⟩ := blank_one hu ht hvc hcd hy hh (i := A.length) (by simp) e1
    refine ⟨b2, ?_, by omega⟩
    simpa [List.replicate_succ] using e2

end

/-- Sets elements `i`, `i + 1`, … of the container at `pa` to the given data, each time allowing the tuple to
grow to `S` bytes in all. -/
def refill (d : Dti) (S : Nat) (pa : List Nat) : Nat → List Datum → Bytes → Option (Bytes × Bool)
  | _, [], m => some (m, true)
  | i, v :: vs, m => do
    let s ← d.getSize m
    let (m, q) ← d.setElem m (pa ++ [i]) v (S - s)
    if q then refill d S pa (i + 1) vs m else pure (m, false)

theorem refill_ok {d t c : Dti} {pa : List Nat} {val y0 : Val} {b0 : Bytes} {B : List Val} (hu : Usable d)
    (ht : d.typeAt pa = some t) (hvc : t.isVarCount = true) (hcd : t.cont = some c) (hy : EVal c (blank c) y0) (hh : val.has pa) :
    ∀ {X : List Val} {dts : List Datum} {A : List Val} {m : Bytes} {s : Nat}, dts.length = X.length →
      (∀ (k : Nat) v y, dts[k]? = some v → X[k]? = some y → EDen c v y ∧ Full c v ∧ Accepts c v) →
      Enc d b0 (val.upd pa (.node (A ++ X ++ B))) → b0.length ≤ m.length → s ≤ b0.length →
      Enc d (m.take s) (val.upd pa (.node (A ++ List.replicate X.length y0 ++ B))) →
      ∃ m', refill d b0.length pa A.length dts m = some (m', true) ∧ m'.length = m.length ∧
        Enc d (m'.take b0.length) (val.upd pa (.node (A ++ X ++ B))) ∧ ∀ x, b0.length ≤ x → m'[x]? = m[x]? := by
  intro X
  have hd := hu.ok
  induction X with
  | nil =>
    intro dts A m s hl _ e0 hm hs e
    cases dts with
    | cons => simp at hl
    | nil =>
      refine ⟨m, rfl, rfl, ?_, fun _ _ => rfl⟩
      have := enc_len e0 hd e
      simp only [List.length_take] at this
      have : s = b0.length := by omega
      subst this
      simpa using e
  | cons x X ih =>
    intro dts A m s hl hden e0 hm hs e
    cases dts with
    | nil => simp at hl
    | cons v dts =>
      obtain ⟨v1, v2, v3⟩ := hden 0 v x rfl rfl
      have hte := typeAt_elt hd ht hvc hcd A.length
      obtain ⟨b1, e1, l1⟩ := blank_all hu ht hvc hcd hy hh (A := A ++ [x]) (X := X) (B := B) (b := b0) (by simpa using e0)
      have hsm : s ≤ m.length := by omega
      have hi : A.length < (A ++ List.replicate (x :: X).length y0 ++ B).length := by simp; omega
      have hhas : (val.upd pa (.node (A ++ List.replicate (x :: X).length y0 ++ B))).has (pa ++ [A.length]) :=
        (has_snoc _ pa _).mpr ⟨_, Val.at_upd_same val pa _ hh, hi⟩
      have hval : (val.upd pa (.node (A ++ List.replicate (x :: X).length y0 ++ B))).upd (pa ++ [A.length]) x =
          val.upd pa (.node (A ++ [x] ++ List.replicate X.length y0 ++ B)) := by
        rw [Val.upd_snoc val pa _ _ x hh hi]
        simp [List.replicate_succ]
      obtain ⟨a1, a2, a3⟩ := set_towards (m2 := b1) (S2 := b1.length) (inc := b0.length - s) hu hsm e hhas hte (Nat.le_refl _)
        (by rw [List.take_length, hval]; exact e1) v1 v2 v3 (fun _ => by omega)
      obtain ⟨m1, hm1⟩ := a2.mpr (fun _ _ => by omega)
      obtain ⟨c1, c2, -, c4, c5⟩ := a3 m1 hm1
      rw [hval] at c5
      obtain ⟨m2, d1, d2, d3, d4⟩ := ih (A := A ++ [x]) (m := m1) (s := b1.length) (dts := dts) (by simpa using hl)
        (fun k v y h1 h2 => hden (k + 1) v y h1 h2) (by simpa using e0) (by omega) l1 c5
      refine ⟨m2, ?_, by omega, by simpa using d3, fun z hz => by rw [d4 z hz, c4 z (by omega) (by omega)]⟩
      have hg := (IsTuple.size hd ⟨hsm, _, e⟩).1
      simp only [refill, hg, Option.bind_eq_bind, Option.bind_some, hm1, if_true]
      simpa using d1

/-- Elements in the place where an expansion put them can be discarded again. -/
theorem expand_back {d t c : Dti} {n : Bytes} {S' index slots : Nat} {pa : List Nat} {val y0 : Val} {vs : List Val} (hu : Usable d)
    (hS' : S' ≤ n.length) (ht : d.typeAt pa = some t) (hvc : t.isVarCount = true) (hcd : t.cont = some c)
    (hb : c.isBit = true → c.eltBits ≤ 64) (hhas : val.has pa) (hat : val.at' pa = some (.node vs)) (hidx : index ≤ vs.length)
    (hs : 1 ≤ slots) (e : Enc d (n.take S') (val.upd pa (.node (insertAt vs index slots y0)))) :
    ∃ m2 S2, d.discardElem n pa index slots = some (m2, true) ∧ m2.length = n.length ∧ S2 ≤ n.length ∧ Enc d (m2.take S2) val ∧
      ∀ x, S' ≤ x → m2[x]? = n[x]? := by
  have hd := hu.ok
  have hbits : ∀ t c, d.typeAt pa = some t → t.cont = some c → c.isBit = true → c.eltBits ≤ 64 := by
    intro t' c' h1 h2 h3
    rw [ht] at h1; cases h1
    rw [hcd] at h2; cases h2
    exact hb h3
  obtain ⟨m2, q, S2, val2, j1, j2, j3, j4, j5, j6, j7, j8, j9⟩ :=
    discardElem_main (index := index) (slots := slots) (pa := pa) hd hS' e hbits
  have hat' := Val.at_upd_same val pa (.node (insertAt vs index slots y0)) hhas
  have hlen := insertAt_length vs slots y0 hidx
  have hq : q = true := (discard_can hu hS' e j2).mpr ⟨t, _, ht, hvc, hat', by omega, by omega⟩
  subst hq
  obtain ⟨t2, c2, -, -, -, h1, ws, ws', h2, ⟨h3, h4, rfl⟩, rfl⟩ := j9 rfl
  rw [hat'] at h2
  cases h2
  have hrem : removeAt (insertAt vs index slots y0) index slots = vs := by
    apply List.ext_getElem?
    intro j
    rw [removeAt_get _ _ (by omega), insertAt_old _ _ _ hidx]
  rw [hrem, Val.upd_upd val pa _ _ hhas, Val.upd_at val pa _ hhas hat] at j5
  exact ⟨m2, S2, j1, j3, j4, j5, j7⟩

/-- C95. Elements that were added by an expansion can be discarded again; the tuple is as before. -/
theorem C95_expand_undo {d : Dti} {m m' : Bytes} {S index slots inc : Nat} {pa : List Nat} (ha : GrowArgs d m S pa slots inc)
    (hs : 1 ≤ slots) (hx : d.expandElem m pa index slots inc = some (m', true)) :
    ∃ S' m2, d.getSize m' = some S' ∧ d.discardElem m' pa index slots = some (m2, true) ∧ m2.length = m.length ∧ IsTuple d m2 S ∧
      ReadsLike d m2 m ∧ ∀ x, S ≤ x → S' ≤ x → m2[x]? = m[x]? := by
  have hd := ha.usable.ok
  obtain ⟨hS, val, he⟩ := ha.tuple
  obtain ⟨m1, q, S', val', k1, k2, k3, k4, k5, k6, k7, k8, k9⟩ := expandElem_main (index := index) ha he
  rw [hx] at k1
  cases k1
  obtain ⟨t, c, ht, hvc, hcd, hhas, vs, vs', hat, ⟨hidx, y0, hy0, rfl⟩, rfl⟩ := k9 rfl
  obtain ⟨htc, -⟩ := varCount_cont (typeAt_ok pa hd ht).1 hvc
  have hlim := ha.limit t vs.length ht hvc (by rw [elemCount_ok pa hd hS he ht htc, hat]; rfl)
  have hS' : S' ≤ m'.length := by rw [k3]; exact k4
  obtain ⟨m2, S2, j1, j3, j4, j5, j7⟩ := expand_back ha.usable hS' ht hvc hcd (fun h => (hlim.2 c hcd h).1) hhas hat hidx hs k5
  obtain ⟨e1, e2⟩ := alike_of hd (by rw [j3]; exact j4) hS j5 he
  subst e1
  exact ⟨S', m2, (IsTuple.size hd ⟨hS', _, k5⟩).1, j1, by rw [j3, k3], ⟨by rw [j3]; exact j4, _, j5⟩, e2,
    fun x h1 h2 => by rw [j7 x h2, k7 x h1 h2]⟩

/-- Discarded elements can be put back into any tuple that is as after the discard. -/
theorem discard_back {d t c : Dti} {m m' : Bytes} {S S' index slots : Nat} {pa : List Nat} {dts : List Datum} {val : Val}
    {vs : List Val} (hu : Usable d) (hS : S ≤ m.length) (he : Enc d (m.take S) val) (ht : d.typeAt pa = some t)
    (hvc : t.isVarCount = true) (hcd : t.cont = some c) (hb : c.isBit = true → c.eltBits ≤ 64) (hhas : val.has pa)
    (hat : val.at' pa = some (.node vs)) (hidx : index < vs.length) (hsl : index + slots ≤ vs.length) (hm' : S ≤ m'.length)
    (k6 : S' ≤ S) (k5 : Enc d (m'.take S') (val.upd pa (.node (removeAt vs index slots)))) (hl : dts.length = slots)
    (hr : ∀ (k : Nat) dt, dts[k]? = some dt → d.getElem m (pa ++ [index + k]) = some (some dt) ∧
      AllRead d m (pa ++ [index + k]) c dt) :
    ∃ m1 m2, d.expandElem m' pa index slots (S - S') = some (m1, true) ∧
      refill d S pa index dts m1 = some (m2, true) ∧ m2.length = m'.length ∧ Enc d (m2.take S) val ∧
      ∀ x, S ≤ x → m2[x]? = m'[x]? := by
  have hd := hu.ok
  have htk := (typeAt_ok pa hd ht).1
  obtain ⟨htc, htv, c', hcd', hok, -⟩ := varCount_cont htk hvc
  rw [hcd] at hcd'; cases hcd'
  obtain ⟨y0, hy0⟩ := blank_val hok
  have hS' : S' ≤ m'.length := by omega
  have hlS : (m.take S).length = S := by simp; omega
  have hlS' : (m'.take S').length = S' := by simp; omega
  -- the three parts
  have hsplit : vs = vs.take index ++ (vs.drop index).take slots ++ vs.drop (index + slots) := by
    rw [List.append_assoc, ← List.drop_drop, List.take_append_drop, List.take_append_drop]
  have hA : (vs.take index).length = index := by simp; omega
  have hX : ((vs.drop index).take slots).length = slots := by simp; omega
  generalize hAe : vs.take index = A at *
  generalize hXe : (vs.drop index).take slots = X at *
  generalize hBe : vs.drop (index + slots) = B at *
  have hrem : removeAt vs index slots = A ++ B := by simp [removeAt, hAe, hBe]
  rw [hrem] at k5
  have hval : val.upd pa (.node (A ++ X ++ B)) = val := by rw [← hsplit]; exact Val.upd_at val pa _ hhas hat
  have he0 : Enc d (m.take S) (val.upd pa (.node (A ++ X ++ B))) := by rw [hval]; exact he
  have hvl : vs.length = (A ++ B).length + slots := by rw [hsplit]; simp; omega
  have hins : insertAt (A ++ B) index slots y0 = A ++ List.replicate X.length y0 ++ B := by
    subst hA
    simp [insertAt, hX]
  obtain ⟨b1, e1, l1⟩ := blank_all hu ht hvc hcd hy0 hhas he0
  rw [hlS] at l1
  -- the expansion
  have hat1 := Val.at_upd_same val pa (.node (A ++ B)) hhas
  have hhas1 := Val.has_upd val pa (.node (A ++ B)) hhas
  obtain ⟨bt, et⟩ := enc_at pa hd he ht hat
  have hlim : GrowPre t (A ++ B).length slots := by
    obtain ⟨cs, o, ws, w1, r, hv⟩ := enc_cont htc et
    cases w1
    have hn : cs.length = (A ++ B).length + slots := by rw [← hvl, hv.1]
    have hsz := (enc_size htk et).2.2.1
    have hsum := r.sum
    rw [hn] at hsum
    refine ⟨by omega, fun c' h1 h2 => ?_⟩
    rw [hcd] at h1; cases h1
    refine ⟨hb h2, ?_⟩
    rw [← hn, ← r.cntV hvc]
    unfold Dti.word
    have := leDec_lt (rd bt t.offCountP t.w)
    exact Nat.lt_of_lt_of_le this (Nat.pow_le_pow_right (by omega) (by unfold rd; simp; omega))
  have hg : GrowArgs d m' S' pa slots (S - S') := by
    refine ⟨hu, ⟨hS', _, k5⟩, ?_, fun _ => by omega⟩
    intro t' n h1 h2 h3
    rw [ht] at h1; cases h1
    rw [elemCount_ok pa hd hS' k5 ht htc, hat1] at h3
    simp only [valCount, Option.some.injEq] at h3
    subst h3
    exact hlim
  have hgrow : ∀ {u : Dti} {p r : List Nat} {z : Val} {n : Nat}, pa = p ++ r → d.typeAt p = some u →
      (val.upd pa (.node (A ++ B))).at' p = some z → Sz u z n →
      ∃ n', n' + fixedEnd t (A ++ B).length = n + fixedEnd t ((A ++ B).length + slots) ∧ n' ≤ u.hdr.maxSize ∧
        (p = [] → n' = b1.length) := by
    intro u p r z n hp hu' hz hn
    have huk := (typeAt_ok p hd hu').1
    have huv := prefix_var hd ht htv ⟨r, hp.symm⟩ hu'
    have hhp : (val.upd pa (.node (A ++ B))).has (p ++ r) := hp ▸ hhas1
    obtain ⟨a1, a2⟩ := Val.at_upd_prefix (val.upd pa (.node (A ++ B))) p r (.node (insertAt (A ++ B) index slots y0)) hz hhp
    rw [← hp, Val.upd_upd val pa _ _ hhas, hins] at a1
    have hzr : z.at' r = some (.node (A ++ B)) := by rw [← at_append' _ p r hz, ← hp]; exact hat1
    have htr : u.typeAt r = some t := by rw [hp, typeAt_append, hu'] at ht; exact ht
    have node : ∀ {w : Val} {l : List Val}, w.at' r = some (.node l) → ∃ ws, w = .node ws := by
      intro w l hw
      cases w with
      | node ws => exact ⟨ws, rfl⟩
      | null => rw [at_null] at hw; cases hw
      | _ => cases r <;> simp [Val.at'] at hw
    obtain ⟨zs, rfl⟩ := node hzr
    obtain ⟨c1, f1⟩ := enc_at p hd k5 hu' hz
    have hzr2 := Val.at_upd_same (.node zs) r (.node (insertAt (A ++ B) index slots y0)) a2
    obtain ⟨zs2, hzs2⟩ := node hzr2
    rw [hins] at hzs2 hzr2
    rw [hzs2] at a1
    obtain ⟨c2, f2⟩ := enc_at p hd e1 hu' a1
    have hn1 : n = c1.length := Sz.unique huk hn (.inr ⟨c1, f1, rfl⟩)
    obtain ⟨g1, o1⟩ := enc_at r huk f1 htr hzr
    rw [hzs2] at hzr2
    obtain ⟨g2, o2⟩ := enc_at r huk f2 htr hzr2
    have hlen := ins_len htc hcd hok hy0 (i := index) (s := slots) (by simp; omega) o1 (by rw [hins]; exact o2)
    have hi2 := upd_len r (y := .node (A ++ B)) (y' := .node (A ++ List.replicate X.length y0 ++ B))
      (old := g1.length) (new := g2.length) huk f1 (by rw [hzs2]; exact f2) a2 htr hzr
      (fun _ => ⟨.inr ⟨_, o1, rfl⟩, .inr ⟨_, o2, rfl⟩⟩) (by rw [htv]; simp)
    refine ⟨c2.length, by omega, ((enc_size huk f2).2.2.2.2.1 huv).2, ?_⟩
    rintro rfl
    simp only [typeAt, Option.some.injEq] at hu'
    subst hu'
    simp only [Val.at', Option.some.injEq] at a1
    exact enc_len e1 hd (by rw [a1]; exact f2)
  obtain ⟨m1, q, S1, val1, j1, j2, j3, j4, j5, j6, j7, j8, j9⟩ := expandElem_main (index := index) hg k5
  have hmono : fixedEnd t (A ++ B).length ≤ fixedEnd t ((A ++ B).length + slots) := fixedEnd_mono hcd (by omega)
  have hq : q = true := by
    refine (expand_can hg k5 j2).mpr ⟨t, _, ht, hvc, hat1, by simp; omega, ?_, ?_⟩
    · obtain ⟨n', n1, n2, n3⟩ := hgrow (p := []) (r := pa) rfl rfl rfl (.inr ⟨_, k5, rfl⟩)
      have := n3 rfl
      rw [hlS'] at n1
      omega
    · intro p u z n hp hu' hz hn
      obtain ⟨r, hp⟩ := hp
      obtain ⟨n', n1, n2, -⟩ := hgrow hp.symm hu' hz hn
      omega
  subst hq
  obtain ⟨t', c', ht', -, hcd', -, ws, ws', h2, ⟨h3, y0', h4, rfl⟩, rfl⟩ := j9 rfl
  rw [ht] at ht'; cases ht'
  rw [hat1] at h2
  cases h2
  have hins' : insertAt (A ++ B) index slots y0' = A ++ List.replicate X.length y0' ++ B := by
    subst hA
    simp [insertAt, hX]
  rw [Val.upd_upd val pa _ _ hhas, hins'] at j5
  rw [hcd] at hcd'
  cases hcd'
  have hden : ∀ (k : Nat) v y, dts[k]? = some v → X[k]? = some y → EDen c v y ∧ Full c v ∧ Accepts c v := by
    intro k v y h1 h2
    obtain ⟨r1, r2⟩ := hr k v h1
    have hte := typeAt_elt hd ht hvc hcd (index + k)
    obtain ⟨y', y1, y2, y3⟩ := read_at hd hS he hte r1
    have hvk : vs[index + k]? = some y := by
      have hk := (List.getElem?_eq_some_iff.mp h2).1
      rw [hsplit, List.append_assoc, List.getElem?_append_right (by omega), List.getElem?_append_left (by omega), ← h2]
      congr 1; omega
    have hw := whole_val hd hS he hte y1 y2 r2
    rw [at_append' val pa _ hat] at y1
    simp only [Val.at', hvk, Option.some.injEq] at y1
    subst y1
    exact shows_eden hok y2 y3 hw
  obtain ⟨m2, n1, n2, n3, n4⟩ := refill_ok hu ht hvc hcd h4 hhas (m := m1) (s := S1) (dts := dts) (b0 := m.take S) (by omega) hden he0
    (by omega) (by omega) j5
  rw [hlS, hA] at n1
  rw [hlS] at n3 n4
  rw [hval] at n3
  exact ⟨m1, m2, j1, n1, by omega, n3, fun x hx => by rw [n4 x hx, j7 x (by omega) (by omega)]⟩

/-- C95. Elements that were discarded can be put back, in the memory the tuple was in: expanding the container at
the same place and setting the elements to what was read of them before succeeds, where each call is allowed to
grow the tuple up to its former size only, and the tuple is as before. -/
theorem C95_discard_undo {d t c : Dti} {m m' : Bytes} {S index slots : Nat} {pa : List Nat} {dts : List Datum} (hu : Usable d)
    (h : IsTuple d m S) (ht : d.typeAt pa = some t) (hcd : t.cont = some c) (hb : c.isBit = true → c.eltBits ≤ 64)
    (hx : d.discardElem m pa index slots = some (m', true)) (hl : dts.length = slots)
    (hr : ∀ (k : Nat) dt, dts[k]? = some dt → d.getElem m (pa ++ [index + k]) = some (some dt) ∧
      AllRead d m (pa ++ [index + k]) c dt) :
    ∃ S' m1 m2, d.getSize m' = some S' ∧ S' ≤ S ∧ d.expandElem m' pa index slots (S - S') = some (m1, true) ∧
      refill d S pa index dts m1 = some (m2, true) ∧ m2.length = m.length ∧ IsTuple d m2 S ∧ ReadsLike d m2 m ∧
      ∀ x, S ≤ x → m2[x]? = m[x]? := by
  have hd := hu.ok
  obtain ⟨hS, val, he⟩ := h
  have hbits : ∀ t c, d.typeAt pa = some t → t.cont = some c → c.isBit = true → c.eltBits ≤ 64 := by
    intro t' c' h1 h2 h3
    rw [ht] at h1; cases h1
    rw [hcd] at h2; cases h2
    exact hb h3
  obtain ⟨m0, q, S', val', k1, k2, k3, k4, k5, k6, k7, k8, k9⟩ :=
    discardElem_main (index := index) (slots := slots) (pa := pa) hd hS he hbits
  rw [hx] at k1
  cases k1
  obtain ⟨t', c', ht', hvc, hcd', hhas, vs, vs', hat, ⟨hidx, hsl, rfl⟩, rfl⟩ := k9 rfl
  rw [ht] at ht'; cases ht'
  rw [hcd] at hcd'; cases hcd'
  have hm' : S ≤ m'.length := by omega
  obtain ⟨m1, m2, j1, n1, n2, n3, n4⟩ := discard_back hu hS he ht hvc hcd hb hhas hat hidx hsl hm' k6 k5 hl hr
  have hm2 : S ≤ m2.length := by omega
  obtain ⟨-, f2⟩ := alike_of hd hm2 hS n3 he
  exact ⟨S', m1, m2, (IsTuple.size hd ⟨by omega, _, k5⟩).1, k6, j1, n1, by omega, ⟨hm2, _, n3⟩, f2,
    fun x hx => by rw [n4 x hx, k7 x hx]⟩

/-- The hypotheses of C95 are met: to an array of a 5 and a NULL three elements are added and discarded again. -/
example : GrowArgs exFinal exMemArr 18 [3] 3 20 ∧
    ((exFinal.expandElem exMemArr [3] 1 3 20).bind fun r => (exFinal.discardElem r.1 [3] 1 3).map fun q =>
      (r.2, q.2, exFinal.getSize r.1, exFinal.getSize q.1, exFinal.elemCount q.1 [3])) =
        some (true, true, some 24, some 18, some 2) :=
  ⟨exMemArr_grow, by decide +kernel⟩

/-- The two elements of that array are discarded and put back. -/
example : IsTuple exFinal exMemArr 18 ∧ (∃ t c, exFinal.typeAt [3] = some t ∧ t.cont = some c ∧ c.isBit = false ∧
      ∀ (k : Nat) dt, [Datum.uint 5, Datum.null][k]? = some dt → exFinal.getElem exMemArr ([3] ++ [0 + k]) = some (some dt) ∧
        AllRead exFinal exMemArr ([3] ++ [0 + k]) c dt) ∧
    ((exFinal.discardElem exMemArr [3] 0 2).bind fun r => (exFinal.expandElem r.1 [3] 0 2 5).bind fun q =>
      (refill exFinal 18 [3] 0 [.uint 5, .null] q.1).map fun z => (r.2, q.2, z.2, exFinal.getSize r.1, decide (z.1 = exMemArr))) =
        some (true, true, true, some 13, true) := by
  refine ⟨exMemArr_tuple, ⟨_, _, rfl, rfl, rfl, ?_⟩, by decide +kernel⟩
  intro k dt hk
  refine ⟨?_, fun h b e => by cases e⟩
  match k, hk with
  | 0, hk => cases hk; decide +kernel
  | 1, hk => cases hk; decide +kernel

end Props
end TS
