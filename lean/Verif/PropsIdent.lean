import Verif.PropsSer
import Verif.PropsFin
import Verif.Defaults
/-
Property C65: what `are_identical_type_info` compares, and what it misses in types that are not
finalised.
-/
namespace TS
namespace Dti

/-- A declared type: nothing in it is finalised but primitive types (which may be shared), and tuples have
as many fields as they say. The members that finalisation writes are arbitrary. -/
inductive Decl : Dti → Prop
  | prim (k) (h : Hdr) : (h.isFinal = true → ∃ g, finPrim k g = some (.prim k h)) → Decl (.prim k h)
  | str (b) (h : Hdr) : h.isFinal = false → Decl (.str b h)
  | tup (h : Hdr) (fs : List (Fld × Dti)) : h.isFinal = false → fs.length = h.count →
      (∀ f t, (f, t) ∈ fs → Decl t) → Decl (.tup h fs)
  | arr (h : Hdr) (c) : h.isFinal = false → Decl c → Decl (.arr h c)

mutual
/-- Two declared types say the same, names of fields aside: kinds, names of types, sizes, element counts and fields; what is not
variable sized is declared nullable in both or in none. With `fin`, what is variable sized has the same maximum size, without
`fin` that counts for nothing, but the (then meaningless) nullability counts. -/
def SameDecl (fin : Bool) : Dti → Dti → Prop
  | .prim k h, .prim k' h' => k = k' ∧ cname h.name = cname h'.name ∧ h.nullable = h'.nullable ∧ h.size = h'.size
  | .str b h, .str b' h' => b = b' ∧ cname h.name = cname h'.name ∧ h.varCount = h'.varCount ∧
      (h.varCount = false → h.count = h'.count) ∧
      if fin && h.varCount then h.maxSize = h'.maxSize else h.nullable = h'.nullable
  | .tup h fs, .tup h' gs => cname h.name = cname h'.name ∧ SameDecls fin fs gs ∧
      if fin && VariesAny fs then h.maxSize = h'.maxSize else h.nullable = h'.nullable
  | .arr h c, .arr h' c' => cname h.name = cname h'.name ∧ h.varCount = h'.varCount ∧
      (h.varCount = false → h.count = h'.count) ∧ SameDecl fin c c' ∧
      if fin && (h.varCount || Varies c) then h.maxSize = h'.maxSize else h.nullable = h'.nullable
  | _, _ => False
def SameDecls (fin : Bool) : List (Fld × Dti) → List (Fld × Dti) → Prop
  | [], [] => True
  | (_, t) :: r, (_, u) :: s => SameDecl fin t u ∧ SameDecls fin r s
  | _, _ => False
end

/-! ### are_identical_type_info, constructor by constructor -/

/-- What is compared of two headers. -/
def HeadOk (h1 h2 : Hdr) : Prop :=
  cname h1.name = cname h2.name ∧ (cname h1.name).length < 64 ∧ h1.isVar = h2.isVar ∧
  (h1.isVar = false → h1.nullable = h2.nullable ∧ h1.size = h2.size) ∧ (h1.isVar = true → h1.maxSize = h2.maxSize)

theorem sameName_true {a b : Bytes} : sameName a b = some true ↔ cname a = cname b ∧ (cname a).length < 64 := by
  unfold sameName
  split
  · simp [*]
  · split
    · simp_all
    · simp_all

theorem ident_prim_iff (k k' : PKind) (h1 h2 : Hdr) : ident (.prim k h1) (.prim k' h2) = some true ↔ k = k' ∧ HeadOk h1 h2 := by
  unfold ident HeadOk
  cases hs : sameName h1.name h2.name with
  | none =>
    have := mt sameName_true.mpr (by rw [hs]; nofun)
    by_cases hk : k = k' <;> simp [hk]
    intro a b; exact absurd ⟨a, b⟩ this
  | some x =>
    cases x with
    | false =>
      have := mt sameName_true.mpr (by rw [hs]; nofun)
      by_cases hk : k = k' <;> simp [hk]
      intro a b; exact absurd ⟨a, b⟩ this
    | true =>
      obtain ⟨a, b⟩ := sameName_true.mp hs
      by_cases hk : k = k'
      · by_cases hv : h1.isVar = h2.isVar
        · cases h : h1.isVar <;> simp_all
        · simp [hk, hv]
      · simp [hk]

theorem ident_str_iff (k k' : Bool) (h1 h2 : Hdr) : ident (.str k h1) (.str k' h2) = some true ↔ k = k' ∧ HeadOk h1 h2 := by
  unfold ident HeadOk
  cases hs : sameName h1.name h2.name with
  | none =>
    have := mt sameName_true.mpr (by rw [hs]; nofun)
    by_cases hk : k = k' <;> simp [hk]
    intro a b; exact absurd ⟨a, b⟩ this
  | some x =>
    cases x with
    | false =>
      have := mt sameName_true.mpr (by rw [hs]; nofun)
      by_cases hk : k = k' <;> simp [hk]
      intro a b; exact absurd ⟨a, b⟩ this
    | true =>
      obtain ⟨a, b⟩ := sameName_true.mp hs
      by_cases hk : k = k'
      · by_cases hv : h1.isVar = h2.isVar
        · cases h : h1.isVar <;> simp_all
        · simp [hk, hv]
      · simp [hk]

theorem ident_tup_iff (h1 h2 : Hdr) (fs gs : List (Fld × Dti)) : ident (.tup h1 fs) (.tup h2 gs) = some true ↔
    HeadOk h1 h2 ∧ h1.count = h2.count ∧ identAll fs gs = some true := by
  unfold ident HeadOk
  cases hs : sameName h1.name h2.name with
  | none =>
    have := mt sameName_true.mpr (by rw [hs]; nofun)
    simp
    intro a b; exact absurd ⟨a, b⟩ this
  | some x =>
    cases x with
    | false =>
      have := mt sameName_true.mpr (by rw [hs]; nofun)
      simp
      intro a b; exact absurd ⟨a, b⟩ this
    | true =>
      obtain ⟨a, b⟩ := sameName_true.mp hs
      by_cases hv : h1.isVar = h2.isVar
      · cases h : h2.isVar
        · by_cases hn : h1.nullable = h2.nullable <;> by_cases hz : h1.size = h2.size <;> by_cases hc : h1.count = h2.count <;>
            simp_all
        · by_cases hm : h1.maxSize = h2.maxSize <;> by_cases hc : h1.count = h2.count <;> simp_all
      · simp [hv]

theorem ident_arr_iff (h1 h2 : Hdr) (c c' : Dti) : ident (.arr h1 c) (.arr h2 c') = some true ↔
    HeadOk h1 h2 ∧ h1.varCount = h2.varCount ∧ (h1.varCount = false → h1.count = h2.count) ∧ ident c c' = some true := by
  conv => lhs; unfold ident
  unfold HeadOk
  generalize ident c c' = x
  cases hs : sameName h1.name h2.name with
  | none =>
    have := mt sameName_true.mpr (by rw [hs]; nofun)
    simp
    intro a b; exact absurd ⟨a, b⟩ this
  | some b =>
    cases b with
    | false =>
      have := mt sameName_true.mpr (by rw [hs]; nofun)
      simp
      intro a b; exact absurd ⟨a, b⟩ this
    | true =>
      obtain ⟨a, b⟩ := sameName_true.mp hs
      simp only [Option.bind_eq_bind, Option.bind_some, Bool.not_true, Bool.false_eq_true, if_false, Option.pure_def]
      grind

theorem identAll_cons (f g : Fld) (t u : Dti) (r s : List (Fld × Dti)) :
    identAll ((f, t) :: r) ((g, u) :: s) = some true ↔ ident t u = some true ∧ identAll r s = some true := by
  simp only [identAll, Option.bind_eq_bind]
  cases h : ident t u with
  | none => simp
  | some b => cases b <;> simp

/-! ### after finalisation -/

theorem decl_isVar : ∀ {d d' : Dti}, Decl d → finalize d = some d' → d'.isVar = Varies d := by
  intro d
  induction d using Dti.ind with
  | hp k h =>
    intro d' hd hf
    cases hd with
    | prim _ _ hp =>
      simp only [finalize] at hf
      split at hf
      · rename_i hh
        cases hf
        obtain ⟨g, hg⟩ := hp hh
        rw [(finPrim_eq hg).1]; rfl
      · rw [(finPrim_eq hf).1]; rfl
  | hs b h =>
    intro d' hd hf
    cases hd with
    | str _ _ hp =>
      simp only [finalize, hp] at hf
      rw [(finStr_eq hf).1]; rfl
  | ht h fs ih =>
    intro d' hd hf
    cases hd with
    | tup _ _ h1 h2 h3 =>
      simp only [finalize, h1] at hf
      simp only [Bool.false_eq_true, if_false] at hf
      split at hf
      · cases hf
      · simp only [Option.bind_eq_bind, Option.bind_eq_some_iff] at hf
        obtain ⟨gs, g1, g2⟩ := hf
        rw [finTup_eq g2]
        show gs.any _ = VariesAny fs
        clear h1 h2 g2 d'
        induction fs generalizing gs with
        | nil => simp [finalizeAll] at g1; subst g1; rfl
        | cons x fs ihf =>
          obtain ⟨f, t⟩ := x
          simp only [finalizeAll, Option.bind_eq_bind, Option.bind_eq_some_iff, Option.pure_def] at g1
          obtain ⟨t', k1, r, k2, k3⟩ := g1
          cases k3
          simp only [List.any_cons, VariesAny]
          rw [ih f t (by simp) (h3 f t (by simp)) k1,
            ihf (fun f' t' hm => ih f' t' (by simp [hm])) (fun f' t' hm => h3 f' t' (by simp [hm])) r k2]
  | ha h c ih =>
    intro d' hd hf
    cases hd with
    | arr _ _ h1 h2 =>
      simp only [finalize, h1] at hf
      simp only [Bool.false_eq_true, if_false, Option.bind_eq_bind, Option.bind_eq_some_iff] at hf
      obtain ⟨c', g1, g2⟩ := hf
      rw [(finArr_iff.mp g2).2.2]
      show (h.varCount || c'.isVar) = (h.varCount || Varies c)
      rw [ih h2 g1]

theorem decl_prim {k : PKind} {h : Hdr} {d' : Dti} (hd : Decl (.prim k h)) (hf : finalize (.prim k h) = some d') :
    d' = .prim k { h with isVar := false, isFinal := true } := by
  cases hd with
  | prim _ _ hp =>
    simp only [finalize] at hf
    split at hf
    · rename_i hh
      cases hf
      obtain ⟨g, hg⟩ := hp hh
      have := (finPrim_eq hg).1
      simp only [Dti.prim.injEq, true_and] at this
      rw [this]
    · exact (finPrim_eq hf).1

theorem decl_str {b : Bool} {h : Hdr} {d' : Dti} (hd : Decl (.str b h)) (hf : finalize (.str b h) = some d') : finStr b h = some d' := by
  cases hd with
  | str _ _ hp => simpa [finalize, hp] using hf

theorem decl_tup {h : Hdr} {fs : List (Fld × Dti)} {d' : Dti} (hd : Decl (.tup h fs)) (hf : finalize (.tup h fs) = some d') :
    ∃ gs, finalizeAll fs = some gs ∧ finTup h gs = some d' ∧ h.count ≠ 0 ∧ fs.length = h.count ∧ ∀ f t, (f, t) ∈ fs → Decl t := by
  cases hd with
  | tup _ _ h1 h2 h3 =>
    simp only [finalize, h1, Bool.false_eq_true, if_false] at hf
    split at hf
    · cases hf
    · rename_i h0
      simp only [Option.bind_eq_bind, Option.bind_eq_some_iff] at hf
      obtain ⟨gs, g1, g2⟩ := hf
      exact ⟨gs, g1, g2, h0, h2, h3⟩

theorem decl_arr {h : Hdr} {c d' : Dti} (hd : Decl (.arr h c)) (hf : finalize (.arr h c) = some d') :
    ∃ c', finalize c = some c' ∧ finArr h c' = some d' ∧ Decl c := by
  cases hd with
  | arr _ _ h1 h2 =>
    simp only [finalize, h1, Bool.false_eq_true, if_false, Option.bind_eq_bind, Option.bind_eq_some_iff] at hf
    obtain ⟨c', g1, g2⟩ := hf
    exact ⟨c', g1, g2, h2⟩

theorem sameDecls_length {b : Bool} : ∀ {fs gs : List (Fld × Dti)}, SameDecls b fs gs → fs.length = gs.length
  | [], [], _ => rfl
  | (_, _) :: r, (_, _) :: s, h => by
    simp only [SameDecls] at h
    simp [sameDecls_length h.2]
  | [], _ :: _, h => by simp [SameDecls] at h
  | _ :: _, [], h => by simp [SameDecls] at h

theorem decl_any {fs gs : List (Fld × Dti)} (hd : ∀ f t, (f, t) ∈ fs → Decl t) (hf : finalizeAll fs = some gs) :
    gs.any (fun p => p.2.isVar) = VariesAny fs := by
  induction fs generalizing gs with
  | nil => simp [finalizeAll] at hf; subst hf; rfl
  | cons x fs ihf =>
    obtain ⟨f, t⟩ := x
    simp only [finalizeAll, Option.bind_eq_bind, Option.bind_eq_some_iff, Option.pure_def] at hf
    obtain ⟨t', k1, r, k2, k3⟩ := hf
    cases k3
    simp only [List.any_cons, VariesAny]
    rw [decl_isVar (hd f t (by simp)) k1, ihf (fun f' t' hm => hd f' t' (by simp [hm])) k2]

/-- Types that are declared alike are finalised alike. -/
theorem norm_of_same : ∀ {d e d' e' : Dti}, Decl d → Decl e → SameDecl true d e → finalize d = some d' → finalize e = some e' →
    norm false d' = norm false e' := by
  intro d
  induction d using Dti.ind with
  | hp k h =>
    intro e d' e' hd he hs hf hg
    cases e with
    | prim k2 h2 =>
      simp only [SameDecl] at hs
      obtain ⟨rfl, s1, s2, s3⟩ := hs
      rw [decl_prim hd hf, decl_prim he hg]
      simp [norm, nHdr, s1, s2, s3]
    | _ => simp [SameDecl] at hs
  | hs b h =>
    intro e d' e' hd he hs hf hg
    cases e with
    | str b2 h2 =>
      simp only [SameDecl, Bool.true_and] at hs
      obtain ⟨rfl, s1, s2, s3, s4⟩ := hs
      rw [(finStr_eq (decl_str hd hf)).1, (finStr_eq (decl_str he hg)).1]
      cases hv : h2.varCount with
      | true => rw [s2, hv, if_pos rfl] at s4; simp [norm, nHdr, s1, s2, hv, s4]
      | false => rw [s2, hv] at s3 s4; simp at s4; simp [norm, nHdr, s1, s2, hv, s4, s3 rfl]
    | _ => simp [SameDecl] at hs
  | ht h fs ih =>
    intro e d' e' hd he hs hf hg
    cases e with
    | tup h2 gs =>
      simp only [SameDecl, Bool.true_and] at hs
      obtain ⟨s1, s2, s3⟩ := hs
      obtain ⟨fs', k1, k2, _, k4, k5⟩ := decl_tup hd hf
      obtain ⟨gs', j1, j2, _, j4, j5⟩ := decl_tup he hg
      have ha : All2 (Alike false) fs' gs' := by
        clear k2 j2 k4 j4 s3 hd he hf hg
        induction fs generalizing gs fs' gs' with
        | nil =>
          cases gs with
          | nil => simp [finalizeAll] at k1 j1; subst k1; subst j1; exact .nil
          | cons => simp [SameDecls] at s2
        | cons x r ihr =>
          cases gs with
          | nil => obtain ⟨f, t⟩ := x; simp [SameDecls] at s2
          | cons y s =>
            obtain ⟨f, t⟩ := x
            obtain ⟨g, u⟩ := y
            simp only [SameDecls] at s2
            simp only [finalizeAll, Option.bind_eq_bind, Option.bind_eq_some_iff, Option.pure_def] at k1 j1
            obtain ⟨t', a1, r', a2, a3⟩ := k1
            obtain ⟨u', b1, s', b2, b3⟩ := j1
            cases a3; cases b3
            exact .cons ⟨by simp, ih f t (by simp) (k5 f t (by simp)) (j5 g u (by simp)) s2.1 a1 b1⟩
              (ihr (fun f t hm => ih f t (by simp [hm])) s s2.2 r' a2 (fun f t hm => k5 f t (by simp [hm])) s' b2
                (fun f t hm => j5 f t (by simp [hm])))
      obtain ⟨d2, q1, q2⟩ := finTup_alike (h2 := h2) ha s1 (by rw [← k4, ← j4]; exact sameDecls_length s2)
        (fun hv => by rw [decl_any k5 k1] at hv; rwa [hv, if_neg (by decide)] at s3)
        (fun hv => by rw [decl_any k5 k1] at hv; rwa [hv, if_pos rfl] at s3) k2
      rw [j2] at q1
      cases q1
      exact q2.symm
    | _ => simp [SameDecl] at hs
  | ha h c ih =>
    intro e d' e' hd he hs hf hg
    cases e with
    | arr h2 c2 =>
      simp only [SameDecl, Bool.true_and] at hs
      obtain ⟨s1, s2, s3, s4, s5⟩ := hs
      obtain ⟨c', k1, k2, k3⟩ := decl_arr hd hf
      obtain ⟨c2', j1, j2, j3⟩ := decl_arr he hg
      obtain ⟨d2, q1, q2⟩ := finArr_alike (h2 := h2) (ih k3 j3 s4 k1 j1) s1 s2 s3
        (fun hv => by rw [decl_isVar k3 k1] at hv; rwa [hv, if_neg (by decide)] at s5)
        (fun hv => by rw [decl_isVar k3 k1] at hv; rwa [hv, if_pos rfl] at s5) k2
      rw [j2] at q1
      cases q1
      exact q2.symm
    | _ => simp [SameDecl] at hs

/-- Identical finalised types were declared alike. -/
theorem same_of_ident : ∀ {d e d' e' : Dti}, Decl d → Decl e → finalize d = some d' → finalize e = some e' →
    ident d' e' = some true → SameDecl true d e := by
  intro d
  induction d using Dti.ind with
  | hp k h =>
    intro e d' e' hd he hf hg hi
    have := decl_prim hd hf
    subst this
    cases e with
    | prim k2 h2 =>
      have := decl_prim he hg
      subst this
      obtain ⟨q1, q2⟩ := (ident_prim_iff _ _ _ _).mp hi
      exact ⟨q1, q2.1, (q2.2.2.2.1 rfl).1, (q2.2.2.2.1 rfl).2⟩
    | str b2 h2 => have := (finStr_eq (decl_str he hg)).1; subst this; simp [ident] at hi
    | tup h2 gs => obtain ⟨_, _, j, _⟩ := decl_tup he hg; have := finTup_eq j; subst this; simp [ident] at hi
    | arr h2 c2 => obtain ⟨_, _, j, _⟩ := decl_arr he hg; have := (finArr_iff.mp j).2.2; subst this; simp [ident] at hi
  | hs b h =>
    intro e d' e' hd he hf hg hi
    have := (finStr_eq (decl_str hd hf)).1
    subst this
    cases e with
    | prim k2 h2 => have := decl_prim he hg; subst this; simp [ident] at hi
    | str b2 h2 =>
      have := (finStr_eq (decl_str he hg)).1
      subst this
      obtain ⟨q1, q2, _, q3, q4, q5⟩ := (ident_str_iff _ _ _ _).mp hi
      dsimp only at q2 q3 q4 q5
      simp only [SameDecl, Bool.true_and]
      refine ⟨q1, q2, q3, fun hv => ?_, ?_⟩
      · have := (q4 hv).2
        rw [← q3, hv] at this
        simpa using this
      · cases hv : h.varCount with
        | true => rw [if_pos rfl]; exact q5 hv
        | false => rw [if_neg (by decide)]; exact (q4 hv).1
    | tup h2 gs => obtain ⟨_, _, j, _⟩ := decl_tup he hg; have := finTup_eq j; subst this; simp [ident] at hi
    | arr h2 c2 => obtain ⟨_, _, j, _⟩ := decl_arr he hg; have := (finArr_iff.mp j).2.2; subst this; simp [ident] at hi
  | ht h fs ih =>
    intro e d' e' hd he hf hg hi
    obtain ⟨fs', k1, k2, _, k4, k5⟩ := decl_tup hd hf
    have := finTup_eq k2
    subst this
    cases e with
    | prim k2 h2 => have := decl_prim he hg; subst this; simp [ident] at hi
    | str b2 h2 => have := (finStr_eq (decl_str he hg)).1; subst this; simp [ident] at hi
    | tup h2 gs =>
      obtain ⟨gs', j1, j2, _, j4, j5⟩ := decl_tup he hg
      have := finTup_eq j2
      subst this
      obtain ⟨⟨q2, q2', q3, q4, q5⟩, q6, q7⟩ := (ident_tup_iff _ _ _ _).mp hi
      clear q2'
      dsimp only at q2 q3 q4 q5 q6
      simp only [SameDecl, Bool.true_and]
      rw [identAll_snd (snd_of_names (tupOffs_names h fs')) (snd_of_names (tupOffs_names h2 gs'))] at q7
      rw [decl_any k5 k1] at q4 q5
      refine ⟨q2, ?_, ?_⟩
      · have hl : fs.length = gs.length := by omega
        clear k2 j2 k4 j4 q3 q4 q5 q6 hd he hf hg hi
        induction fs generalizing gs fs' gs' with
        | nil =>
          cases gs with
          | nil => trivial
          | cons => cases hl
        | cons x r ihr =>
          cases gs with
          | nil => cases hl
          | cons y s =>
            obtain ⟨f, t⟩ := x
            obtain ⟨g, u⟩ := y
            simp only [finalizeAll, Option.bind_eq_bind, Option.bind_eq_some_iff, Option.pure_def] at k1 j1
            obtain ⟨t', a1, r', a2, a3⟩ := k1
            obtain ⟨u', b1, s', b2, b3⟩ := j1
            cases a3; cases b3
            rw [identAll_cons] at q7
            exact ⟨ih f t (by simp) (k5 f t (by simp)) (j5 g u (by simp)) a1 b1 q7.1,
              ihr (fun f t hm => ih f t (by simp [hm])) r' a2 (fun f t hm => k5 f t (by simp [hm])) s s' b2
                (fun f t hm => j5 f t (by simp [hm])) q7.2 (by simpa using hl)⟩
      · cases hv : VariesAny fs with
        | true => rw [if_pos rfl]; exact q5 hv
        | false => rw [if_neg (by decide)]; exact (q4 hv).1
    | arr h2 c2 => obtain ⟨_, _, j, _⟩ := decl_arr he hg; have := (finArr_iff.mp j).2.2; subst this; simp [ident] at hi
  | ha h c ih =>
    intro e d' e' hd he hf hg hi
    obtain ⟨c', k1, k2, k3⟩ := decl_arr hd hf
    have := (finArr_iff.mp k2).2.2
    subst this
    cases e with
    | prim k2 h2 => have := decl_prim he hg; subst this; simp [ident] at hi
    | str b2 h2 => have := (finStr_eq (decl_str he hg)).1; subst this; simp [ident] at hi
    | tup h2 gs => obtain ⟨_, _, j, _⟩ := decl_tup he hg; have := finTup_eq j; subst this; simp [ident] at hi
    | arr h2 c2 =>
      obtain ⟨c2', j1, j2, j3⟩ := decl_arr he hg
      have := (finArr_iff.mp j2).2.2
      subst this
      obtain ⟨⟨q2, _, q3, q4, q5⟩, q6, q7, q8⟩ := (ident_arr_iff _ _ _ _).mp hi
      dsimp only at q2 q3 q4 q5 q6 q7
      rw [decl_isVar k3 k1] at q4 q5
      simp only [SameDecl, Bool.true_and]
      refine ⟨q2, q6, q7, ih k3 j3 k1 j1 q8, ?_⟩
      cases hv : h.varCount || Varies c with
      | true => rw [if_pos rfl]; exact q5 hv
      | false => rw [if_neg (by decide)]; exact (q4 hv).1

theorem Decl.raw {d : Dti} (h : Decl d) : Raw d := by
  induction h with
  | prim k h hp =>
    cases hh : h.isFinal with
    | true => obtain ⟨g, hg⟩ := hp hh; exact .made (.prim hg)
    | false => exact .prim k h hh
  | str b h h1 => exact .str b h h1
  | tup h fs h1 h2 _ ih => exact .tup h fs h1 h2 ih
  | arr h c h1 _ ih => exact .arr h c h1 ih

theorem finalize_short : ∀ {d d' : Dti}, Decl d → finalize d = some d' → (ShortNames d' ↔ ShortNames d) := by
  intro d
  induction d using Dti.ind with
  | hp k h => intro d' hd hf; rw [decl_prim hd hf]; rfl
  | hs b h => intro d' hd hf; rw [(finStr_eq (decl_str hd hf)).1]; rfl
  | ht h fs ih =>
    intro d' hd hf
    obtain ⟨fs', k1, k2, _, k4, k5⟩ := decl_tup hd hf
    rw [finTup_eq k2]
    simp only [ShortNames, shortNamesAll_iff]
    have hl := snd_of_names (tupOffs_names h fs')
    have hm : ∀ t', (∃ f, (f, t') ∈ (tupOffs h fs').1) ↔ ∃ f, (f, t') ∈ fs' := by
      intro t'
      have : t' ∈ (tupOffs h fs').1.map Prod.snd ↔ t' ∈ fs'.map Prod.snd := by rw [hl]
      simpa using this
    obtain ⟨m0, m1⟩ := finalizeAll_mem k1
    clear m0
    have m2 : ∀ f t, (f, t) ∈ fs → ∃ t', (f, t') ∈ fs' ∧ finalize t = some t' := by
      clear k2 k4 hl hm m1 hd hf ih k5
      induction fs generalizing fs' with
      | nil => intro f t h; cases h
      | cons x r ihr =>
        obtain ⟨g, u⟩ := x
        simp only [finalizeAll, Option.bind_eq_bind, Option.bind_eq_some_iff, Option.pure_def] at k1
        obtain ⟨t', a1, r', a2, a3⟩ := k1
        cases a3
        intro f t hm
        rcases List.mem_cons.mp hm with hm | hm
        · cases hm; exact ⟨t', by simp, a1⟩
        · obtain ⟨t2, b1, b2⟩ := ihr r' a2 f t hm
          exact ⟨t2, by simp [b1], b2⟩
    constructor
    · rintro ⟨g1, g2⟩
      refine ⟨g1, fun f t hft => ?_⟩
      obtain ⟨t', b1, b2⟩ := m2 f t hft
      obtain ⟨f', b3⟩ := (hm t').mpr ⟨f, b1⟩
      exact (ih f t hft (k5 f t hft) b2).mp (g2 f' t' b3)
    · rintro ⟨g1, g2⟩
      refine ⟨g1, fun f t' hft => ?_⟩
      obtain ⟨f', b1⟩ := (hm t').mp ⟨f, hft⟩
      obtain ⟨t, b2, b3⟩ := m1 f' t' b1
      exact (ih f' t b2 (k5 f' t b2) b3).mpr (g2 f' t b2)
  | ha h c ih =>
    intro d' hd hf
    obtain ⟨c', k1, k2, k3⟩ := decl_arr hd hf
    rw [(finArr_iff.mp k2).2.2]
    simp only [ShortNames, ih k3 k1]

theorem Decl.built {d : Dti} (h : Decl d) : Built d := by
  induction h with
  | prim k h hp =>
    cases hh : h.isFinal with
    | true =>
      obtain ⟨g, hg⟩ := hp hh
      refine .again (.prim k { g with isFinal := false } rfl) ?_
      rw [← hg]
      simp [finalize, finPrim]
    | false => exact .prim k h hh
  | str b h h1 => exact .str b h h1
  | tup h fs h1 h2 _ ih => exact .tup h fs h1 h2 ih
  | arr h c h1 _ ih => exact .arr h c h1 ih

/-! ### before finalisation -/

/-- A type built with the macros of data_type_info_defaults.h only: primitive types (finalised or not), strings, binaries, arrays,
and tuples in memory that was set to 0 before. -/
inductive ByMacro : Dti → Prop
  | prim (k) (h : Hdr) : h.isVar = false → (h.isFinal = true → ∃ g, finPrim k g = some (.prim k h)) → ByMacro (.prim k h)
  | fixedStr (b name n nullable) : ByMacro (fixedStr b name n nullable)
  | varStr (b name max) : ByMacro (varStr b name max)
  | fixedArr (name n max nullable) {c} : ByMacro c → ByMacro (fixedArr name n max nullable c)
  | varArr (name max) {c} : ByMacro c → ByMacro (varArr name max c)
  | tup (name nullable max) (fs : List (Fld × Dti)) : (∀ f t, (f, t) ∈ fs → ByMacro t) →
      ByMacro (.tup (initTup {} name nullable max fs.length) fs)

theorem ByMacro.decl {d : Dti} (h : ByMacro d) : Decl d := by
  induction h with
  | prim k h _ hp => exact .prim k h hp
  | fixedStr => exact .str _ _ rfl
  | varStr => exact .str _ _ rfl
  | fixedArr _ _ _ _ _ ih => exact .arr _ _ rfl ih
  | varArr _ _ _ ih => exact .arr _ _ rfl ih
  | tup _ _ _ fs _ ih => exact .tup _ _ rfl rfl ih

theorem ByMacro.isVar {d : Dti} (h : ByMacro d) : d.hdr.isVar = false := by
  cases h <;> first | assumption | rfl

theorem byMacro_str {b : Bool} {h : Hdr} (hd : ByMacro (.str b h)) :
    h.isVar = false ∧ (h.varCount = true → h.size = 0 ∧ h.nullable = false) ∧ (h.varCount = false → h.size = h.count) := by
  generalize he : Dti.str b h = e at hd
  cases hd with
  | fixedStr => cases he; exact ⟨rfl, nofun, fun _ => rfl⟩
  | varStr => cases he; exact ⟨rfl, fun _ => ⟨rfl, rfl⟩, nofun⟩
  | _ => cases he

theorem byMacro_tup {h : Hdr} {fs : List (Fld × Dti)} (hd : ByMacro (.tup h fs)) :
    h.isVar = false ∧ h.size = 0 ∧ h.count = fs.length ∧ ∀ f t, (f, t) ∈ fs → ByMacro t := by
  generalize he : Dti.tup h fs = e at hd
  cases hd with
  | tup => cases he; exact ⟨rfl, rfl, rfl, by assumption⟩
  | _ => cases he

theorem byMacro_arr {h : Hdr} {c : Dti} (hd : ByMacro (.arr h c)) : h.isVar = false ∧ h.size = 0 ∧ ByMacro c := by
  generalize he : Dti.arr h c = e at hd
  cases hd with
  | fixedArr => cases he; exact ⟨rfl, rfl, by assumption⟩
  | varArr => cases he; exact ⟨rfl, rfl, by assumption⟩
  | _ => cases he

theorem headOk_plain {h1 h2 : Hdr} (e1 : h1.isVar = false) (e2 : h2.isVar = false) :
    HeadOk h1 h2 ↔ cname h1.name = cname h2.name ∧ (cname h1.name).length < 64 ∧ h1.nullable = h2.nullable ∧ h1.size = h2.size := by
  simp [HeadOk, e1, e2]

theorem ident_before : ∀ {d e d' e' : Dti}, ByMacro d → ByMacro e → finalize d = some d' → finalize e = some e' →
    (ident d e = some true ↔ SameDecl false d e ∧ ShortNames d) := by
  intro d
  induction d using Dti.ind with
  | hp k h =>
    intro e d' e' hd he hf hg
    cases e with
    | prim k2 h2 =>
      rw [ident_prim_iff, headOk_plain (h1 := h) (h2 := h2) hd.isVar he.isVar]
      simp only [SameDecl, ShortNames]
      constructor
      · rintro ⟨a, b, c, d, e⟩; exact ⟨⟨a, b, d, e⟩, c⟩
      · rintro ⟨⟨a, b, d, e⟩, c⟩; exact ⟨a, b, c, d, e⟩
    | _ => simp [SameDecl, ident]
  | hs b h =>
    intro e d' e' hd he hf hg
    cases e with
    | str b2 h2 =>
      rw [ident_str_iff, headOk_plain (h1 := h) (h2 := h2) hd.isVar he.isVar]
      simp only [SameDecl, ShortNames, Bool.false_and, Bool.false_eq_true, if_false]
      obtain ⟨_, a1, a2⟩ := byMacro_str hd
      obtain ⟨_, b1, b2⟩ := byMacro_str he
      have c1 := (finStr_eq (decl_str hd.decl hf)).2.1
      have c2 := (finStr_eq (decl_str he.decl hg)).2.1
      cases hv : h.varCount <;> cases hw : h2.varCount
      · simp only [a2 hv, b2 hw]
        constructor
        · rintro ⟨a, b, c, d, e⟩; exact ⟨⟨a, b, trivial, fun _ => e, d⟩, c⟩
        · rintro ⟨⟨a, b, _, e, d⟩, c⟩; exact ⟨a, b, c, d, e trivial⟩
      · simp [a2 hv, b1 hw, c1 hv]
      · have := c2 hw
        simp only [a1 hv, b2 hw]
        constructor
        · rintro ⟨a, b, c, d, e⟩; exact absurd e.symm this
        · rintro ⟨⟨_, _, q, _⟩, _⟩; cases q
      · simp only [a1 hv, b1 hw]
        constructor
        · rintro ⟨a, b, c, d, e⟩; exact ⟨⟨a, b, trivial, nofun, d⟩, c⟩
        · rintro ⟨⟨a, b, _, e, d⟩, c⟩; exact ⟨a, b, c, d, trivial⟩
    | _ => simp [SameDecl, ident]
  | ht h fs ih =>
    intro e d' e' hd he hf hg
    cases e with
    | tup h2 gs =>
      rw [ident_tup_iff, headOk_plain (h1 := h) (h2 := h2) hd.isVar he.isVar]
      obtain ⟨_, a1, a2, a3⟩ := byMacro_tup hd
      obtain ⟨_, b1, b2, b3⟩ := byMacro_tup he
      obtain ⟨fs', k1, -⟩ := decl_tup hd.decl hf
      obtain ⟨gs', j1, -⟩ := decl_tup he.decl hg
      have key : (fs.length = gs.length ∧ identAll fs gs = some true) ↔ SameDecls false fs gs ∧ ShortNamesAll fs := by
        clear hd he hf hg a1 a2 b1 b2
        induction fs generalizing gs fs' gs' with
        | nil =>
          cases gs with
          | nil => simp [SameDecls, ShortNamesAll, identAll]
          | cons => simp [SameDecls]
        | cons x r ihr =>
          cases gs with
          | nil => obtain ⟨f, t⟩ := x; simp [SameDecls]
          | cons y s =>
            obtain ⟨f, t⟩ := x
            obtain ⟨g, u⟩ := y
            simp only [finalizeAll, Option.bind_eq_bind, Option.bind_eq_some_iff, Option.pure_def] at k1 j1
            obtain ⟨t', k1, r', k2, -⟩ := k1
            obtain ⟨u', j1, s', j2, -⟩ := j1
            have := ih f t (by simp) (a3 f t (by simp)) (b3 g u (by simp)) k1 j1
            have h2 := ihr (fun f t hm => ih f t (by simp [hm])) s (fun f t hm => a3 f t (by simp [hm]))
              (fun f t hm => b3 f t (by simp [hm])) r' k2 s' j2
            simp only [SameDecls, ShortNamesAll, identAll_cons, this, List.length_cons, Nat.add_right_cancel_iff]
            constructor
            · rintro ⟨p, q, r⟩; have := h2.mp ⟨p, r⟩; exact ⟨⟨q.1, this.1⟩, q.2, this.2⟩
            · rintro ⟨⟨p, q⟩, r, s⟩; have := h2.mpr ⟨q, s⟩; exact ⟨this.1, ⟨p, r⟩, this.2⟩
      simp only [SameDecl, ShortNames, Bool.false_and, Bool.false_eq_true, if_false, a1, a2, b1, b2]
      rw [key]
      constructor
      · rintro ⟨⟨a, b, c, _⟩, d, e⟩; exact ⟨⟨a, d, c⟩, b, e⟩
      · rintro ⟨⟨a, d, c⟩, b, e⟩; exact ⟨⟨a, b, c, trivial⟩, d, e⟩
    | _ => simp [SameDecl, ident]
  | ha h c ih =>
    intro e d' e' hd he hf hg
    cases e with
    | arr h2 c2 =>
      rw [ident_arr_iff, headOk_plain (h1 := h) (h2 := h2) hd.isVar he.isVar]
      obtain ⟨_, a1, a2⟩ := byMacro_arr hd
      obtain ⟨_, b1, b2⟩ := byMacro_arr he
      obtain ⟨_, k1, _⟩ := decl_arr hd.decl hf
      obtain ⟨_, j1, _⟩ := decl_arr he.decl hg
      simp only [SameDecl, ShortNames, Bool.false_and, Bool.false_eq_true, if_false, a1, b1, ih a2 b2 k1 j1]
      constructor
      · rintro ⟨⟨a, b, c, _⟩, d, e, f, g⟩; exact ⟨⟨a, d, e, f, c⟩, b, g⟩
      · rintro ⟨⟨a, d, e, f, c⟩, b, g⟩; exact ⟨⟨a, b, c, trivial⟩, d, e, f, g⟩
    | _ => simp [SameDecl, ident]

/-- If nothing varies, the two notions of sameness agree. -/
theorem sameDecl_fixed (b : Bool) : ∀ {d e : Dti}, Varies d = false → (SameDecl true d e ↔ SameDecl b d e) := by
  intro d
  induction d using Dti.ind with
  | hp k h => intro e hv; cases e <;> simp [SameDecl]
  | hs k h =>
    intro e hv
    simp only [Varies] at hv
    cases e <;> simp [SameDecl, hv]
  | ht h fs ih =>
    intro e hv
    simp only [Varies] at hv
    cases e with
    | tup h2 gs =>
      have : SameDecls true fs gs ↔ SameDecls b fs gs := by
        induction fs generalizing gs with
        | nil => cases gs <;> simp [SameDecls]
        | cons x r ihr =>
          obtain ⟨f, t⟩ := x
          simp only [VariesAny, Bool.or_eq_false_iff] at hv
          cases gs with
          | nil => simp [SameDecls]
          | cons y s =>
            obtain ⟨g, u⟩ := y
            simp only [SameDecls, ih f t (by simp) hv.1, ihr (fun f t hm => ih f t (by simp [hm])) hv.2 s]
      simp [SameDecl, hv, this]
    | _ => simp [SameDecl]
  | ha h c ih =>
    intro e hv
    simp only [Varies, Bool.or_eq_false_iff] at hv
    cases e with
    | arr h2 c2 => simp [SameDecl, hv, ih hv.2]
    | _ => simp [SameDecl]

end Dti

namespace Props
open Dti

/-- C65. Of two finalised types `are_identical_type_info` returns 1 exactly if they were declared alike, whatever else was in the
memory of the declarations, and no name fills all of its 64 bytes. -/
theorem C65_after {d e d' e' : Dti} (hd : Decl d) (he : Decl e) (hf : finalize d = some d') (hg : finalize e = some e') :
    ident d' e' = some true ↔ SameDecl true d e ∧ ShortNames d := by
  constructor
  · intro h
    refine ⟨same_of_ident hd he hf hg h, (finalize_short hd hf).mp ?_⟩
    exact ident_short (raw_finalize _ _ hd.raw hf) (raw_finalize _ _ he.raw hg) h
  · rintro ⟨h1, h2⟩
    exact ident_of_norm _ _ (norm_of_same hd he h1 hf hg) ((finalize_short hd hf).mpr h2)

/-- C65. Of two types built with the macros that are not finalised yet, it returns 1 exactly if they are declared alike up to the
maximum sizes, and the nullability that finalisation would make meaningless. -/
theorem C65_before {d e d' e' : Dti} (hd : ByMacro d) (he : ByMacro e) (hf : finalize d = some d') (hg : finalize e = some e') :
    ident d e = some true ↔ SameDecl false d e ∧ ShortNames d :=
  ident_before hd he hf hg

/-- C65. So the answers before and after finalisation agree if nothing varies in size, -/
theorem C65_fixed {d e d' e' : Dti} (hd : ByMacro d) (he : ByMacro e) (hf : finalize d = some d') (hg : finalize e = some e')
    (hv : Varies d = false) : ident d e = some true ↔ ident d' e' = some true := by
  rw [C65_before hd he hf hg, C65_after hd.decl he.decl hf hg, sameDecl_fixed false hv]

/-- C65. but two variable length strings of different maximum size are identical before and different after, -/
theorem C65_max_size_ignored (b : Bool) (name : Bytes) (m n : Nat) (hm : m ≠ 0) (hn : n ≠ 0) (hmn : m ≠ n)
    (hs : (cname name).length < 64) :
    ident (varStr b name m) (varStr b name n) = some true ∧
    ∃ d e, finalize (varStr b name m) = some d ∧ finalize (varStr b name n) = some e ∧ ident d e = some false := by
  have fin : ∀ k, k ≠ 0 → ∃ d, finalize (varStr b name k) = some d := by
    intro k hk
    have := (C62_macros b false name 0 k (.str true {})).2.2.2.2.2.1.mpr hk
    refine (C62_finalize_iff (.str _ _ rfl) ?_).mpr this
    have := vsz_le k
    simp [Fits32, Least]
    omega
  obtain ⟨d, h1⟩ := fin m hm
  obtain ⟨e, h2⟩ := fin n hn
  refine ⟨(C65_before (.varStr ..) (.varStr ..) h1 h2).mpr ⟨⟨rfl, rfl, rfl, nofun, rfl⟩, hs⟩, d, e, h1, h2, ?_⟩
  have e1 := (finStr_eq (decl_str (b := b) (Decl.str _ _ rfl) h1)).1
  have e2 := (finStr_eq (decl_str (b := b) (Decl.str _ _ rfl) h2)).1
  rw [e1, e2]
  have hs' : sameName name name = some true := Dti.sameName_true.mpr ⟨rfl, hs⟩
  simp [ident, hs', hmn]

/-- The type is primitive, or a string or binary of fixed length. -/
def Plain : Dti → Prop
  | .prim .. => True
  | .str _ h => h.varCount = false
  | _ => False

/-- C65. and a type is never identical to its own finalised self, primitive types and fixed length strings and binaries aside. -/
theorem C65_mixed {d d' : Dti} (hd : ByMacro d) (hf : finalize d = some d') (h32 : Fits32 d) :
    ident d d' = some true ↔ Plain d ∧ ShortNames d := by
  have hpos : d.isBit = false → 1 ≤ d'.hdr.size := by
    intro hb
    rw [(C62_computed hd.decl.built h32 hf).2.1]
    exact least_pos hd.decl.built ((C62_finalize_iff hd.decl.built h32).mp ⟨d', hf⟩) hb
  cases d with
  | prim k h =>
    have := hd.isVar
    rw [decl_prim hd.decl hf, ident_prim_iff, headOk_plain (h1 := h) this rfl]
    simp [Plain, ShortNames]
  | str b h =>
    obtain ⟨a1, a2, a3⟩ := byMacro_str hd
    rw [(finStr_eq (decl_str hd.decl hf)).1, ident_str_iff]
    cases hv : h.varCount with
    | true => simp [Plain, hv, HeadOk, a1]
    | false => simp [Plain, hv, HeadOk, a1, a3 hv, ShortNames]
  | tup h fs =>
    obtain ⟨a1, a2, _⟩ := byMacro_tup hd
    obtain ⟨gs, _, k, _⟩ := decl_tup hd.decl hf
    have hp := hpos rfl
    rw [finTup_eq k] at hp ⊢
    simp only [Plain, false_and, iff_false, ident_tup_iff, HeadOk, a1, a2]
    rintro ⟨⟨_, _, _, h3, _⟩, _⟩
    have := (h3 trivial).2
    simp only [hdr] at hp
    omega
  | arr h c =>
    obtain ⟨a1, a2, _⟩ := byMacro_arr hd
    obtain ⟨gs, _, k, _⟩ := decl_arr hd.decl hf
    have hp := hpos rfl
    rw [(finArr_iff.mp k).2.2] at hp ⊢
    simp only [Plain, false_and, iff_false, ident_arr_iff, HeadOk, a1, a2]
    rintro ⟨⟨_, _, _, h3, _⟩, _⟩
    have := (h3 trivial).2
    simp only [hdr] at hp
    omega

/-- A tuple with a nullable bit field, a variable length string and an array of fixed length strings. -/
def exDecl (name : Bytes) (m : Nat) : Dti :=
  .tup (initTup {} name true 900 3)
    [({ name := [97] }, defPrim .bitField true 3), ({ name := [98] }, varStr true [120] m),
     ({ name := [99] }, fixedArr [121] 4 0 true (fixedStr false [122] 5 true))]

theorem exDecl_macro (name : Bytes) (m : Nat) : ByMacro (exDecl name m) := by
  refine .tup name true 900 [({ name := [97] }, defPrim .bitField true 3), ({ name := [98] }, varStr true [120] m),
    ({ name := [99] }, fixedArr [121] 4 0 true (fixedStr false [122] 5 true))] ?_
  intro f t h
  simp only [List.mem_cons, Prod.mk.injEq, List.not_mem_nil, or_false] at h
  rcases h with ⟨_, rfl⟩ | ⟨_, rfl⟩ | ⟨_, rfl⟩
  · exact .prim _ _ rfl nofun
  · exact .varStr _ _ _
  · exact .fixedArr _ _ _ _ (.fixedStr _ _ _ _)

/-- The hypotheses hold, both answers of every comparison occur, and the answers differ in the way the theorems say. -/
example : ∃ d e f, finalize (exDecl [120] 200) = some d ∧ finalize (exDecl [120] 300) = some e ∧
    finalize (exDecl [121] 200) = some f ∧ ident d d = some true ∧ ident d e = some false ∧ ident d f = some false ∧
    ident (exDecl [120] 200) (exDecl [120] 300) = some true ∧ ident (exDecl [120] 200) (exDecl [121] 200) = some false ∧
    ident (exDecl [120] 200) d = some false ∧ Varies (exDecl [120] 200) = true := by
  refine ⟨_, _, _, rfl, rfl, rfl, ?_⟩
  decide +kernel

example : Fits32 (exDecl [120] 200) ∧ Varies (fixedArr [121] 4 0 true (fixedStr false [122] 5 true)) = false ∧
    ByMacro (fixedArr [121] 4 0 true (fixedStr false [122] 5 true)) ∧
    finalize (fixedArr [121] 4 0 true (fixedStr false [122] 5 true)) ≠ none := by
  have h4 : vsz 900 = 2 := by decide
  have h5 : vsz 200 = 1 := by decide
  refine ⟨?_, by decide, .fixedArr _ _ _ _ (.fixedStr _ _ _ _), by decide⟩
  simp [Fits32, Fits32All, exDecl, initTup, defPrim, varStr, fixedArr, fixedStr, Least, LeastAll, BitsAll, BitsOf, Varies,
    VariesAny, isBit, hdr, bitmapBytes, h4, h5]

end Props
end TS
