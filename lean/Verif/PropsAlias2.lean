import Verif.PropsAlias
import Verif.AliasFront
/-
Property C71 continued: sources in front of what has to be moved.
-/
namespace TS
namespace Props
open Dti

/-- C71. Copying within one tuple to an element of variable size does what copying from another copy
of the tuple does if everything of variable size on the way to the destination (the destination
included) is either the last one of its container in memory, and so need not be moved, or starts
behind the source. -/
theorem C71_front (cv : Conv) {d t t2 : Dti} {m : Bytes} {S a2 n2 : Nat} {pa pa2 : List Nat} (hu : Usable d) (hd : Made d)
    (hm : IsTuple d m S) (ht : d.typeAt pa = some t) (hv : t.isVar = true) (hs2 : Spot d m pa2 a2 n2 t2)
    (hfr : ∀ q i a n u b k c, q ++ [i] <+: pa → Spot d m (q ++ [i]) a n u → u.isVar = true → Spot d m q b k c →
      a + n = b + k ∨ a2 + n2 ≤ a) (inc : Nat) :
    d.setFromSelf cv m pa pa2 inc = d.setFromTuple cv m pa d m pa2 inc := by
  by_cases hla : d.Last m pa
  · exact C71_last cv hu hm ht hv hla pa2 inc
  · obtain ⟨a, hmv⟩ := moves_of_not_last pa hla
    obtain ⟨hS, val, e⟩ := hm
    obtain ⟨q, i, n, u, b, k, c, h1, h2, h3, h4, h5⟩ := moves_spot pa hu.ok hS e hmv
    have hle : a2 + n2 ≤ a := (hfr q i a n u b k c h1 h2 h3 h4).resolve_left h5
    obtain ⟨s1, s2, s3, s4, s5, y, s6⟩ := spot_in pa2 hu.ok hS e hs2
    refine self_eq cv hu.ok hS e ht ?_
    intro l w a' n' t2' hp hw _ ht2 hs hpt hi
    rw [s4] at ht2; cases ht2
    obtain ⟨-, -, -, -, k5, -⟩ := spot_in pa2 hu.ok hS e hs
    obtain ⟨-, -, e3⟩ := spot_under (pb := []) pa2 hu.ok hS e hs2 (by simpa using hs)
    have hae : a' = a2 := by
      obtain ⟨e4, -, -⟩ := e3
      obtain ⟨e5, -, e6⟩ := spot_under (pb := []) pa2 hu.ok hS e hs (by simpa using hs2)
      obtain ⟨e7, -, -⟩ := e6
      omega
    subst hae
    rw [s5] at k5; cases k5
    have hnl : ((m.drop a').take n2).length = n2 := by rw [List.length_take, List.length_drop]; omega
    have hlow : LowAt t l w m (a' + n2) ∧ l.from a' := by
      cases l with
      | val v => exact absurd rfl (hp v)
      | bytes x j =>
        obtain ⟨p1, p2, -⟩ := hpt
        have hb : x + j ≤ m.length := by omega
        simp only [Loc.den, load_eq hb, Option.bind_eq_bind, Option.bind_some, Option.pure_def, Option.some.injEq] at hw
        subst hw
        exact ⟨⟨by omega, by omega, rfl⟩, by show a' ≤ x; omega⟩
      | ptr x =>
        obtain ⟨p1, p2, -⟩ := hpt
        have hid : ident t t2 = some true := by
          rcases hi with hi | ⟨_, hi⟩
          · exact hi
          · rw [p2] at hi; cases hi
        have hsame := ident_same (hd.sub pa ht) (hd.sub pa2 s4) hid
        simp only [Loc.den, Option.some.injEq] at hw
        subst hw
        have hx : x = a' := by omega
        subst hx
        refine ⟨⟨by omega, n2, ?_, by omega, by rw [List.length_drop]; omega, rfl⟩, Nat.le_refl x⟩
        have hz := (enc_size s1 s6).1
        rw [hnl] at hz
        rw [SameTy.getSize (show SameTy false t t2 from hsame)]
        exact hz
    have := setElemILoc_front (o := 0) (S := S) (inc := inc) (val := val) (a := a) hv hlow.1 hlow.2 pa hu.ok (by omega) (by simpa using e) ht
      (by simpa using hmv) (by omega) (Or.inr ⟨pa2, a', n2, t2, by simpa using hs2, by omega, by omega⟩)
    rw [atOff_eq] at this
    rw [hv, this]
    simp only [List.drop_zero, List.take_zero, List.nil_append]
    exact Option.map_id'

/-- C71. Copying within one tuple does what copying from another copy of the tuple does if there is
nothing to be read behind a pointer: if the source is neither a STRING nor a BINARY nor a container,
or is NULL, or cannot be read. -/
theorem C71_value (cv : Conv) {d t : Dti} {m : Bytes} {S : Nat} {pa pa2 : List Nat} (hu : Usable d) (hm : IsTuple d m S)
    (ht : d.typeAt pa = some t)
    (hv : (∃ t2, d.typeAt pa2 = some t2 ∧ t2.isStr = false ∧ t2.isCont = false) ∨ d.getElem m pa2 = some (some .null) ∨
      d.getElem m pa2 = some none) (inc : Nat) :
    d.setFromSelf cv m pa pa2 inc = d.setFromTuple cv m pa d m pa2 inc := by
  obtain ⟨hS, val, e⟩ := hm
  refine self_eq cv hu.ok hS e ht ?_
  intro l w a n t2 hp hw hg ht2 hs hpt hi
  exfalso
  rcases hv with ⟨t2', g1, g2, g3⟩ | g | g
  · rw [g1] at ht2; cases ht2
    cases l with
    | val v => exact absurd rfl (hp v)
    | bytes x k => have := hpt.2.2; rw [g2] at this; cases this
    | ptr x => have := hpt.2.2; rw [g3] at this; cases this
  · rw [g] at hg; cases hg
    cases l with
    | val v => exact absurd rfl (hp v)
    | bytes x k => simp only [Loc.den, Option.bind_eq_bind, Option.bind_eq_some_iff] at hw; obtain ⟨_, _, hw⟩ := hw; cases hw
    | ptr x => cases hw
  · rw [g] at hg; cases hg

/-- C71. So what is found at the destination afterwards is what was at the source before, as in
`C71_reads`. -/
theorem C71_front_reads (cv : Conv) {d t t2 : Dti} {m m' : Bytes} {S inc a2 n2 : Nat} {pa pa2 : List Nat} {dt : Datum}
    (ha : CopyArgs d m S pa d m S inc) (ht : d.typeAt pa = some t) (hv : t.isVar = true) (hs2 : Spot d m pa2 a2 n2 t2)
    (hg : d.getElem m pa2 = some (some dt)) (hi : ident t t2 = some true)
    (hfr : ∀ q i a n u b k c, q ++ [i] <+: pa → Spot d m (q ++ [i]) a n u → u.isVar = true → Spot d m q b k c →
      a + n = b + k ∨ a2 + n2 ≤ a)
    (hs : d.setFromSelf cv m pa pa2 inc = some (m', true)) :
    Same (d.getElem m' pa) (d.getElem m pa2) ∧ (t.isCont = false → d.getElem m' pa = d.getElem m pa2) ∧
      ((∀ b h, t ≠ .str b h) → ∀ pb, Same (d.getElem m' (pa ++ pb)) (d.getElem m (pa2 ++ pb))) := by
  rw [C71_front cv ha.usable ha.made ha.tuple ht hv hs2 hfr inc] at hs
  obtain ⟨hS, val, e⟩ := ha.tuple
  exact (C49_identical cv ha ht (spot_in pa2 ha.usable.ok hS e hs2).2.2.2.1 hg hi).2.2 m' hs

/-- The hypotheses of `C71_value` are met by copying the NULL at `[6]` of the tuple of the examples over the
first string; the answer is 1 and the string is NULL afterwards. -/
example : Usable aliasFin ∧ IsTuple aliasFin aliasMem 37 ∧ (∃ t, aliasFin.typeAt [0] = some t) ∧
    aliasFin.getElem aliasMem [6] = some (some .null) ∧
    (aliasFin.setFromSelf ieee aliasMem [0] [6] 30).bind (fun x => (aliasFin.getElem x.1 [0]).map (fun a => (x.2, a))) =
      some (true, some .null) :=
  ⟨aliasFin_usable, aliasMem_tuple, ⟨_, rfl⟩, by decide +kernel, by decide +kernel⟩

/-- The hypotheses of `C71_front` are met by copying the first string of the tuple of the examples over
the second one, which is not the last one in memory; the answer is 1, and the second string has been
replaced by the first. -/
example : Usable aliasFin ∧ Made aliasFin ∧ IsTuple aliasFin aliasMem 37 ∧ ¬ aliasFin.Last aliasMem [1] ∧
    (∃ t, aliasFin.typeAt [1] = some t ∧ t.isVar = true ∧ Spot aliasFin aliasMem [0] 15 3 t) ∧
    (∀ q i a n u b k c, q ++ [i] <+: [1] → Spot aliasFin aliasMem (q ++ [i]) a n u → u.isVar = true →
      Spot aliasFin aliasMem q b k c → a + n = b + k ∨ 15 + 3 ≤ a) ∧
    (aliasFin.setFromSelf ieee aliasMem [1] [0] 30).bind (fun x => (aliasFin.getElem x.1 [1]).map (fun a => (x.2, a))) =
      some (true, some (.bytes [97, 98])) := by
  refine ⟨aliasFin_usable, raw_finalize _ _ aliasTy_raw aliasTy_finalize, aliasMem_tuple, ?_, ⟨_, rfl, rfl, ?_⟩, ?_, by decide +kernel⟩
  · intro h
    exact absurd (h 7 (posOf aliasFin 7 1) 18 5 37 rfl (by decide) rfl rfl (by decide +kernel) (by decide +kernel)
      (by decide +kernel)).1 (by decide)
  · exact ⟨rfl, 7, _, 15, 0, rfl, by decide, rfl, rfl, by decide +kernel, rfl, rfl, rfl, by decide +kernel⟩
  · intro q i a n u b k c h hs _ _
    have hl := h.length_le
    rw [List.length_append, List.length_singleton, List.length_singleton] at hl
    have hq : q = [] := List.eq_nil_of_length_eq_zero (by omega)
    subst hq
    have hi : i = 1 := by simpa using h
    subst hi
    obtain ⟨-, k, p, o, b', h1, h2, h3, h4, h5, h6, h7, -⟩ := hs
    have h3' : aliasFin.posInfo aliasMem 1 = some (posOf aliasFin 7 1) := rfl
    rw [h3'] at h3; cases h3
    have h5' : aliasFin.ptrAt aliasMem (posOf aliasFin 7 1) = some (some 18) := by decide +kernel
    rw [h5'] at h5; cases h5
    omega

/-- C71. Not even copying an element onto itself is harmless: if it is not the last one in memory it
is moved away first, and what is then copied is what has come to lie in its old place. -/
theorem C71_onto_itself : ∃ d m S pa x y, Usable d ∧ IsTuple d m S ∧ d.hdr.maxSize ≤ m.length ∧
    d.getElem m pa = some (some (.bytes x)) ∧
    (d.setFromSelf ieee m pa pa 0).bind (fun r => (d.getElem r.1 pa).map (fun z => (r.2, z))) =
      some (true, some (.bytes y)) ∧ x ≠ y :=
  ⟨aliasFin, aliasTwo, 23, [0], [97, 98], [119, 120], aliasFin_usable, aliasTwo_tuple, by decide, by decide +kernel,
    by decide +kernel, by decide⟩

end Props
end TS
