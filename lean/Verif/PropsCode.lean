import Verif.PropsIdent
import Verif.PropsUntrusted
/-
C80: the bytes `serialize_type_info` writes determine the type.
-/
namespace TS
namespace Dti

mutual
/-- Two types that are the same but for the names of fields, and have the same names too. -/
theorem norm_with_names : ∀ d e, norm false d = norm false e → Props.names d = Props.names e → norm true d = norm true e
  | .prim _ _, e, h, _ => by cases e <;> first | exact h | simp [norm] at h
  | .str _ _, e, h, _ => by cases e <;> first | exact h | simp [norm] at h
  | .tup _ fs, e, h, hn => by
    cases e with
    | tup g gs =>
      simp only [norm, Dti.tup.injEq] at h ⊢
      simp only [Props.names, List.cons.injEq] at hn
      exact ⟨h.1, normAll_with_names fs gs h.2 hn.2⟩
    | _ => simp [norm] at h
  | .arr _ c, e, h, hn => by
    cases e with
    | arr g c2 =>
      simp only [norm, Dti.arr.injEq] at h ⊢
      simp only [Props.names, List.cons.injEq] at hn
      exact ⟨h.1, norm_with_names c c2 h.2 hn.2⟩
    | _ => simp [norm] at h
theorem normAll_with_names : ∀ fs gs, normAll false fs = normAll false gs → Props.namesAll fs = Props.namesAll gs → normAll true fs = normAll true gs
  | [], gs, h, _ => by cases gs <;> simp_all [normAll]
  | (f, t) :: r, gs, h, hn => by
    cases gs with
    | nil => simp [normAll] at h
    | cons p s =>
      obtain ⟨g, u⟩ := p
      simp only [normAll, List.cons.injEq, Prod.mk.injEq] at h ⊢
      simp only [Props.namesAll, List.cons.injEq] at hn
      have hlen := names_len t u h.1.2
      have hn2 := List.append_inj hn.2 hlen
      refine ⟨⟨?_, norm_with_names t u h.1.2 hn2.1⟩, normAll_with_names r s h.2 hn2.2⟩
      have := h.1.1
      simp only [nFld, Fld.mk.injEq] at this ⊢
      exact ⟨by simp [hn.1], this.2⟩
theorem names_len : ∀ d e, norm false d = norm false e → (Props.names d).length = (Props.names e).length
  | .prim _ _, e, h => by cases e <;> first | rfl | simp [norm] at h
  | .str _ _, e, h => by cases e <;> first | rfl | simp [norm] at h
  | .tup _ fs, e, h => by
    cases e with
    | tup g gs =>
      simp only [norm, Dti.tup.injEq] at h
      simp only [Props.names, List.length_cons, namesAll_len fs gs h.2]
    | _ => simp [norm] at h
  | .arr _ c, e, h => by
    cases e with
    | arr g c2 =>
      simp only [norm, Dti.arr.injEq] at h
      simp only [Props.names, List.length_cons, names_len c c2 h.2]
    | _ => simp [norm] at h
theorem namesAll_len : ∀ fs gs, normAll false fs = normAll false gs → (Props.namesAll fs).length = (Props.namesAll gs).length
  | [], gs, h => by cases gs <;> simp_all [normAll]
  | (f, t) :: r, gs, h => by
    cases gs with
    | nil => simp [normAll] at h
    | cons p s =>
      obtain ⟨g, u⟩ := p
      simp only [normAll, List.cons.injEq, Prod.mk.injEq] at h
      simp only [Props.namesAll, List.length_cons, List.length_append, names_len t u h.1.2, namesAll_len r s h.2]
end

/-- Where the bytes begin alike, the types are the same. -/
theorem norm_of_ser {d e : Dti} {x y : Bytes} (hd : Made d) (he : Made e) (ud : U32 d) (ue : U32 e)
    (h : ser d ++ x = ser e ++ y) (hl : (ser d ++ x).length < 4294967296) : norm true d = norm true e := by
  have l1 : (ser d).length ≤ (ser d ++ x).length := by simp
  have l2 : (ser e).length ≤ (ser e ++ y).length := by simp
  obtain ⟨a, h1, a', h2, h3⟩ := deserF_ser hd ud ((ser d ++ x).length + 1) x (by omega) hl
  obtain ⟨b, k1, b', k2, k3⟩ := deserF_ser he ue ((ser e ++ y).length + 1) y (by omega) (by rw [← h]; exact hl)
  rw [h, k1] at h1
  cases h1
  rw [k2] at h2
  cases h2
  exact h3.symm.trans k3

/-- The sizes, if they are declared. -/
theorem heads {h g : Hdr} (hn : nHdr h = nHdr g) : cname h.name = cname g.name ∧ h.isVar = g.isVar ∧ h.size = g.size ∧
    (h.isVar = false → h.nullable = g.nullable) ∧ (h.isVar = true → h.maxSize = g.maxSize) := by
  simp only [nHdr, Hdr.mk.injEq, true_and, and_true] at hn
  obtain ⟨_, h1, h2, h3, h4, h5⟩ := hn
  rw [← h3] at h2 h5
  refine ⟨h1, h3, h4, fun hv => ?_, fun hv => ?_⟩
  · simpa [hv] using h2
  · simpa [hv] using h5

theorem nHdr_of {a b : Hdr} {c c' k k' : Nat} {v v' : Bool}
    (h : ({ nHdr a with count := c, bits := k, varCount := v } : Hdr) = { nHdr b with count := c', bits := k', varCount := v' }) :
    nHdr a = nHdr b ∧ c = c' ∧ v = v' := by
  simp only [nHdr, Hdr.mk.injEq] at h ⊢
  obtain ⟨h1, h2, h3, h4, h5, h6, h7, h8, h9, h10⟩ := h
  exact ⟨⟨h1, h2, h3, h4, h5, h6, h7, trivial, trivial, trivial⟩, h9, h8⟩

/-- Finalised types with the same normal form were declared alike. -/
theorem same_of_norm : ∀ {d e d' e' : Dti}, Decl d → Decl e → finalize d = some d' → finalize e = some e' →
    norm false d' = norm false e' → SameDecl true d e := by
  intro d
  induction d using Dti.ind with
  | hp k h =>
    intro e d' e' hd he hf hg hi
    have := decl_prim hd hf
    subst this
    cases e with
    | prim k2 h2 =>
      have := decl_prim he hg
      subst this
      simp only [norm, Dti.prim.injEq] at hi
      obtain ⟨q0, _, q1, q2, _⟩ := heads hi.2
      exact ⟨hi.1, q0, q2 rfl, q1⟩
    | str b2 h2 => have := (finStr_eq (decl_str he hg)).1; subst this; simp [norm] at hi
    | tup h2 gs => obtain ⟨_, _, j, _⟩ := decl_tup he hg; have := finTup_eq j; subst this; simp [norm] at hi
    | arr h2 c2 => obtain ⟨_, _, j, _⟩ := decl_arr he hg; have := (finArr_iff.mp j).2.2; subst this; simp [norm] at hi
  | hs b h =>
    intro e d' e' hd he hf hg hi
    have := (finStr_eq (decl_str hd hf)).1
    subst this
    cases e with
    | prim k2 h2 => have := decl_prim he hg; subst this; simp [norm] at hi
    | str b2 h2 =>
      have := (finStr_eq (decl_str he hg)).1
      subst this
      simp only [norm, Dti.str.injEq] at hi
      have hh := nHdr_of (k := 0) (k' := 0) (v := h.varCount) (v' := h2.varCount)
        (c := if h.varCount then 0 else h.count) (c' := if h2.varCount then 0 else h2.count) hi.2
      obtain ⟨q0, q1, q2, q3, q4⟩ := heads hh.1
      have hc := hh.2.1
      dsimp only at q0 q1 q2 q3 q4 hc
      simp only [SameDecl, Bool.true_and]
      refine ⟨hi.1, q0, q1, fun hv => ?_, ?_⟩
      · rw [← q1, hv] at hc
        simpa using hc
      · cases hv : h.varCount with
        | true => rw [if_pos rfl]; exact q4 hv
        | false => rw [if_neg (by decide)]; exact q3 hv
    | tup h2 gs => obtain ⟨_, _, j, _⟩ := decl_tup he hg; have := finTup_eq j; subst this; simp [norm] at hi
    | arr h2 c2 => obtain ⟨_, _, j, _⟩ := decl_arr he hg; have := (finArr_iff.mp j).2.2; subst this; simp [norm] at hi
  | ht h fs ih =>
    intro e d' e' hd he hf hg hi
    obtain ⟨fs', k1, k2, _, k4, k5⟩ := decl_tup hd hf
    have := finTup_eq k2
    subst this
    cases e with
    | prim k2 h2 => have := decl_prim he hg; subst this; simp [norm] at hi
    | str b2 h2 => have := (finStr_eq (decl_str he hg)).1; subst this; simp [norm] at hi
    | tup h2 gs =>
      obtain ⟨gs', j1, j2, _, j4, j5⟩ := decl_tup he hg
      have := finTup_eq j2
      subst this
      simp only [norm, Dti.tup.injEq] at hi
      obtain ⟨hi, q7⟩ := hi
      have hh := nHdr_of (c := h.count) (c' := h2.count) (v := false) (v' := false) hi
      obtain ⟨q0, q1, q2, q3, q4⟩ := heads hh.1
      have hc := hh.2.1
      dsimp only at q0 q1 q2 q3 q4 hc
      have q8 : fs'.map (fun p => norm false p.2) = gs'.map (fun p => norm false p.2) := by
        have := congrArg (List.map Prod.snd) q7
        rw [normAll_eq, normAll_eq, List.map_map, List.map_map] at this
        have e1 : ∀ l : List (Fld × Dti), l.map (Prod.snd ∘ fun p => (nFld false p.2 p.1, norm false p.2)) = (l.map Prod.snd).map (norm false) := by
          intro l; rw [List.map_map]; rfl
        rw [e1, e1, snd_of_names (tupOffs_names h fs'), snd_of_names (tupOffs_names h2 gs')] at this
        simpa [List.map_map, Function.comp_def] using this
      clear q7
      simp only [SameDecl, Bool.true_and]
      rw [decl_any k5 k1] at q3 q4
      refine ⟨q0, ?_, ?_⟩
      · have hl : fs.length = gs.length := by omega
        clear k2 j2 k4 j4 q1 q2 q3 q4 hh hc hd he hf hg hi
        induction fs generalizing gs fs' gs' with
        | nil =>
          cases gs with
          | nil => trivial
          | cons => cases hl
        | cons x r ihr =>
          cases gs with
          | nil => cases hl
          | cons y s =>
            obtain ⟨f, t⟩ := x
            obtain ⟨g, u⟩ := y
            simp only [finalizeAll, Option.bind_eq_bind, Option.bind_eq_some_iff, Option.pure_def] at k1 j1
            obtain ⟨t', a1, r', a2, a3⟩ := k1
            obtain ⟨u', b1, s', b2, b3⟩ := j1
            cases a3; cases b3
            simp only [List.map_cons, List.cons.injEq] at q8
            exact ⟨ih f t (by simp) (k5 f t (by simp)) (j5 g u (by simp)) a1 b1 q8.1,
              ihr (fun f t hm => ih f t (by simp [hm])) r' a2 (fun f t hm => k5 f t (by simp [hm])) s s' b2
                (fun f t hm => j5 f t (by simp [hm])) q8.2 (by simpa using hl)⟩
      · cases hv : VariesAny fs with
        | true => rw [if_pos rfl]; exact q4 hv
        | false => rw [if_neg (by decide)]; exact q3 hv
    | arr h2 c2 => obtain ⟨_, _, j, _⟩ := decl_arr he hg; have := (finArr_iff.mp j).2.2; subst this; simp [norm] at hi
  | ha h c ih =>
    intro e d' e' hd he hf hg hi
    obtain ⟨c', k1, k2, k3⟩ := decl_arr hd hf
    have := (finArr_iff.mp k2).2.2
    subst this
    cases e with
    | prim k2 h2 => have := decl_prim he hg; subst this; simp [norm] at hi
    | str b2 h2 => have := (finStr_eq (decl_str he hg)).1; subst this; simp [norm] at hi
    | tup h2 gs => obtain ⟨_, _, j, _⟩ := decl_tup he hg; have := finTup_eq j; subst this; simp [norm] at hi
    | arr h2 c2 =>
      obtain ⟨c2', j1, j2, j3⟩ := decl_arr he hg
      have := (finArr_iff.mp j2).2.2
      subst this
      simp only [norm, Dti.arr.injEq] at hi
      obtain ⟨hi, q8⟩ := hi
      have hh := nHdr_of (v := h.varCount) (v' := h2.varCount) (c := if (h.varCount || c'.isVar) && h.varCount then 0 else h.count)
        (c' := if (h2.varCount || c2'.isVar) && h2.varCount then 0 else h2.count) hi
      obtain ⟨q0, q1, q2, q3, q4⟩ := heads hh.1
      have hc := hh.2.1
      have hv' := hh.2.2
      dsimp only at q0 q1 q2 q3 q4 hc hv'
      rw [decl_isVar k3 k1] at q3 q4
      simp only [SameDecl, Bool.true_and]
      refine ⟨q0, hv', fun hv => ?_, ih k3 j3 k1 j1 q8, ?_⟩
      · rw [← hv', hv] at hc
        simpa using hc
      · cases hv : h.varCount || Varies c with
        | true => rw [if_pos rfl]; exact q4 hv
        | false => rw [if_neg (by decide)]; exact q3 hv

theorem serName_pos (n : Bytes) : 1 ≤ (serName n).length := by
  unfold serName
  simp
  omega

theorem ser_pos (d : Dti) : 1 ≤ (ser d).length := by
  cases d with
  | prim k h => have := serName_pos h.name; simp [ser]; omega
  | str b h => have := serName_pos h.name; simp [ser]; omega
  | tup h fs => have := serName_pos h.name; simp [ser]; omega
  | arr h c => have := serName_pos h.name; simp [ser]; omega

end Dti

namespace Props
open Dti

/-- **C80.** No serialised type is the beginning of another: where the bytes of two finalised types begin something alike, they are the
same bytes, and what follows is the same too. -/
theorem C80_prefix {d e d' e' : Dti} {x y : Bytes} (hd : Raw d) (he : Raw e) (fd : finalize d = some d') (fe : finalize e = some e')
    (ud : U32 d') (ue : U32 e') (h : ser d' ++ x = ser e' ++ y) (hl : (ser d' ++ x).length < 4294967296) : ser d' = ser e' ∧ x = y := by
  have hn := norm_of_ser (raw_finalize _ _ hd fd) (raw_finalize _ _ he fe) ud ue h hl
  have hs : ser d' = ser e' := by rw [← ser_norm d', ← ser_norm e', hn]
  rw [hs] at h
  exact ⟨hs, List.append_cancel_left h⟩

/-- **C80, the bytes determine the type.** Two finalised types are written as the same bytes exactly if they were declared alike, the
names of types and fields included, whatever else was in the memory of the declarations. -/
theorem C80_declared {d e d' e' : Dti} (hd : Decl d) (he : Decl e) (fd : finalize d = some d') (fe : finalize e = some e')
    (ud : U32 d') (ue : U32 e') (hl : (ser d').length < 4294967296) :
    ser d' = ser e' ↔ SameDecl true d e ∧ names d' = names e' := by
  have md := raw_finalize _ _ hd.raw fd
  have me := raw_finalize _ _ he.raw fe
  constructor
  · intro h
    have hn := norm_of_ser (x := []) (y := []) md me ud ue (by simpa using h) (by simpa using hl)
    exact ⟨same_of_norm hd he fd fe (norm_drop_names _ _ hn), by rw [← names_norm d', ← names_norm e', hn]⟩
  · rintro ⟨h1, h2⟩
    rw [← ser_norm d', ← ser_norm e', norm_with_names _ _ (norm_of_same hd he h1 fd fe) h2]

/-- **C80, and `are_identical_type_info` agrees.** As long as no name takes all of its 64 bytes, two finalised types are written as the same
bytes exactly if `are_identical_type_info` returns 1 and the names of the fields are the same. -/
theorem C80_identical {d e d' e' : Dti} (hd : Raw d) (he : Raw e) (fd : finalize d = some d') (fe : finalize e = some e')
    (ud : U32 d') (ue : U32 e') (hl : (ser d').length < 4294967296) (hs : ShortNames d') :
    ser d' = ser e' ↔ ident d' e' = some true ∧ names d' = names e' := by
  have md := raw_finalize _ _ hd fd
  have me := raw_finalize _ _ he fe
  constructor
  · intro h
    have hn := norm_of_ser (x := []) (y := []) md me ud ue (by simpa using h) (by simpa using hl)
    exact ⟨ident_of_norm _ _ (norm_drop_names _ _ hn) hs, by rw [← names_norm d', ← names_norm e', hn]⟩
  · rintro ⟨h1, h2⟩
    rw [← ser_norm d', ← ser_norm e', norm_with_names _ _ (ident_same md me h1) h2]

/-- **C80, sequences.** Types written one after another can be told apart: equal bytes come from equally long sequences of types that are
pairwise written as the same bytes. -/
theorem C80_sequence : ∀ (ds es : List (Dti × Dti)), (∀ p, p ∈ ds ∨ p ∈ es → Raw p.1 ∧ finalize p.1 = some p.2 ∧ U32 p.2) →
    (ds.map (fun p => ser p.2)).flatten.length < 4294967296 → (ds.map (fun p => ser p.2)).flatten = (es.map (fun p => ser p.2)).flatten →
    ds.map (fun p => ser p.2) = es.map (fun p => ser p.2)
  | [], [], _, _, _ => rfl
  | [], (e, e') :: es, h, _, he => by
    exfalso
    have h0 := congrArg List.length he
    have := ser_pos e'
    simp only [List.map_cons, List.flatten_cons, List.length_append, List.map_nil, List.flatten_nil, List.length_nil] at h0
    omega
  | (d, d') :: ds, [], h, _, he => by
    exfalso
    have h0 := congrArg List.length he
    have := ser_pos d'
    simp only [List.map_cons, List.flatten_cons, List.length_append, List.map_nil, List.flatten_nil, List.length_nil] at h0
    omega
  | (d, d') :: ds, (e, e') :: es, h, hl, he => by
    simp only [List.map_cons, List.flatten_cons] at he hl ⊢
    obtain ⟨a1, a2, a3⟩ := h (d, d') (by simp)
    obtain ⟨b1, b2, b3⟩ := h (e, e') (by simp)
    obtain ⟨h1, h2⟩ := C80_prefix a1 b1 a2 b2 a3 b3 he hl
    rw [h1, C80_sequence ds es (fun p hp => h p (by rcases hp with hp | hp <;> simp [hp])) (by rw [List.length_append] at hl; omega) h2]

/-- Two types that differ in the names of fields only: identical, but written differently. -/
example : ∃ d e, Raw exNamed ∧ finalize exNamed = some d ∧ finalize exRenamed = some e ∧ U32 d ∧ U32 e ∧ ShortNames d ∧
    ident d e = some true ∧ names d ≠ names e ∧ ser d ≠ ser e ∧ (ser d).length = 31 := by
  refine ⟨_, _, exNamed_raw, rfl, rfl, ?_, ?_, ?_, by decide +kernel, by decide +kernel, by decide +kernel, by decide +kernel⟩
  · simp [U32, U32.U32All]
  · simp [U32, U32.U32All]
  · simp [ShortNames, ShortNamesAll, cname, strn]

/-- A string with a name that takes all of its 64 bytes, and whatever in the member that only strings of variable size have. -/
def exLongName (n : Nat) : Dti := .str false { count := 5, name := List.replicate 64 97, maxSize := n }

example (n k : Nat) (hn : n < 4294967296) (hk : k < 4294967296) : ∃ d e, finalize (exLongName n) = some d ∧ finalize (exLongName k) = some e ∧ ser d = ser e ∧ ident d e = none := by
  refine ⟨_, _, rfl, rfl, (C80_declared (d := exLongName n) (e := exLongName k) (.str _ _ rfl) (.str _ _ rfl) rfl rfl ?_ ?_ ?_).mpr ?_, ?_⟩
  · simpa [U32, exLongName] using hn
  · simpa [U32, exLongName] using hk
  · have h1 : ∀ m : Hdr, (serName m.name).length ≤ 64 := fun m => by unfold serName; simp; omega
    simp only [ser, List.length_append]
    have h2 := h1 { name := List.replicate 64 97 }
    have h3 : ∀ h : Hdr, h.isVar = false → (serStr false h).length = 5 := fun h hv => by simp [serStr, hv]
    rw [h3 _ rfl]
    dsimp only at h2 ⊢
    omega
  · simp [SameDecl, exLongName, names]
  · rfl

/-- No type is written as the first bytes of another. -/
example (d d' : Dti) (x : Bytes) (hd : Raw d) (fd : finalize d = some d') (ud : U32 d') (h : ser exFinal ++ x = ser d') (hl : (ser d').length < 4294967296) : x = [] :=
  (C80_prefix exType_raw hd exType_finalize fd (by simp [exFinal, U32, U32.U32All]) ud (y := []) (by simpa using h) (by rw [h]; exact hl)).2

end Props
end TS
