import Verif.TypeDeser
import Verif.TypeSame
/-
`are_identical_type_info` decides equality of normal forms.
-/
namespace TS

theorem sameName_symm (a b : Bytes) : sameName a b = sameName b a := by
  unfold sameName
  by_cases h : cname a = cname b
  · simp [h]
  · simp [h, Ne.symm h]

theorem sameName_true {a b : Bytes} (h : sameName a b = some true) : cname a = cname b ∧ (cname a).length < 64 := by
  unfold sameName at h
  repeat' split at h
  · cases h
  · rename_i h1 h2; exact ⟨by simpa using h1, h2⟩
  · cases h

theorem sameName_of {a b : Bytes} (h : cname a = cname b) (hl : (cname a).length < 64) : sameName a b = some true := by
  unfold sameName
  rw [if_neg (by simp [h]), if_pos hl]

namespace Dti

mutual
/-- No type name in the type takes up all 64 bytes of its array. -/
def ShortNames : Dti → Prop
  | .prim _ h => (cname h.name).length < 64
  | .str _ h => (cname h.name).length < 64
  | .tup h fs => (cname h.name).length < 64 ∧ ShortNamesAll fs
  | .arr h c => (cname h.name).length < 64 ∧ ShortNames c
def ShortNamesAll : List (Fld × Dti) → Prop
  | [] => True
  | (_, t) :: r => ShortNames t ∧ ShortNamesAll r
end

mutual
theorem ident_symm : ∀ d e, ident d e = ident e d
  | .prim k1 h1, e => by
    cases e with
    | prim k2 h2 =>
      simp only [ident, sameName_symm h1.name h2.name, ne_eq, eq_comm (a := k1), eq_comm (a := h1.isVar),
        eq_comm (a := h1.nullable), eq_comm (a := h1.size), eq_comm (a := h1.maxSize)]
      split
      · rfl
      · refine obind _ (fun n => ?_)
        split
        · rfl
        · split
          · rfl
          · rename_i h; simp only [Classical.not_not] at h; rw [h]
    | _ => rfl
  | .str b1 h1, e => by
    cases e with
    | str b2 h2 =>
      simp only [ident, sameName_symm h1.name h2.name, ne_eq, eq_comm (a := b1), eq_comm (a := h1.isVar),
        eq_comm (a := h1.nullable), eq_comm (a := h1.size), eq_comm (a := h1.maxSize)]
      split
      · rfl
      · refine obind _ (fun n => ?_)
        split
        · rfl
        · split
          · rfl
          · rename_i h; simp only [Classical.not_not] at h; rw [h]
    | _ => rfl
  | .tup h1 fs, e => by
    cases e with
    | tup h2 gs =>
      simp only [ident, sameName_symm h1.name h2.name, ne_eq, eq_comm (a := h1.isVar), identAll_symm fs gs,
        eq_comm (a := h1.nullable), eq_comm (a := h1.size), eq_comm (a := h1.maxSize), eq_comm (a := h1.count)]
      refine obind _ (fun n => ?_)
      split
      · rfl
      · split
        · rfl
        · rename_i h; simp only [Classical.not_not] at h; rw [h]
    | _ => rfl
  | .arr h1 c, e => by
    cases e with
    | arr h2 c2 =>
      simp only [ident, sameName_symm h1.name h2.name, ne_eq, eq_comm (a := h1.isVar), ident_symm c c2,
        eq_comm (a := h1.nullable), eq_comm (a := h1.size), eq_comm (a := h1.maxSize), eq_comm (a := h1.count),
        eq_comm (a := h1.varCount)]
      refine obind _ (fun n => ?_)
      split
      · rfl
      · split
        · rfl
        · rename_i h; simp only [Classical.not_not] at h; rw [h]
          split
          · rfl
          · split
            · rfl
            · split
              · rfl
              · rename_i h; simp only [Classical.not_not] at h; rw [h]
    | _ => rfl
theorem identAll_symm : ∀ fs gs, identAll fs gs = identAll gs fs
  | [], gs => by cases gs <;> simp [identAll]
  | (f, t) :: r, gs => by
    cases gs with
    | nil => simp [identAll]
    | cons p s => obtain ⟨g, u⟩ := p; simp only [identAll, ident_symm t u, identAll_symm r s]
end

theorem nHdr_inj {h1 h2 : Hdr} {v1 v2 : Bool} {c1 c2 b1 b2 : Nat}
    (h : ({ nHdr h1 with varCount := v1, count := c1, bits := b1 } : Hdr) = { nHdr h2 with varCount := v2, count := c2, bits := b2 }) :
    cname h1.name = cname h2.name ∧ h1.isVar = h2.isVar ∧ h1.size = h2.size ∧ v1 = v2 ∧ c1 = c2 ∧
    (h1.isVar = true → h1.maxSize = h2.maxSize) ∧ (h1.isVar = false → h1.nullable = h2.nullable) := by
  simp only [nHdr, Hdr.mk.injEq] at h
  obtain ⟨_, hn, hnl, hv, hs, hm, hc, hvc, _⟩ := h
  grind

mutual
theorem ident_of_norm : ∀ d e, norm false d = norm false e → ShortNames d → ident d e = some true
  | .prim k1 h1, e, h, hs => by
    cases e with
    | prim k2 h2 =>
      simp only [norm, Dti.prim.injEq] at h
      obtain ⟨rfl, h⟩ := h
      obtain ⟨i1, i2, i3, _, _, i6, i7⟩ := nHdr_inj (v1 := false) (v2 := false) (c1 := 0) (c2 := 0) (b1 := 0) (b2 := 0) h
      simp only [ident, sameName_of i1 hs]
      cases hv : h1.isVar with
      | true => simp [← i2, hv, i6 hv]
      | false => simp [← i2, hv, i7 hv, i3]
    | _ => simp [norm] at h
  | .str b1 h1, e, h, hs => by
    cases e with
    | str b2 h2 =>
      simp only [norm, Dti.str.injEq] at h
      obtain ⟨rfl, h⟩ := h
      obtain ⟨i1, i2, i3, i4, i5, i6, i7⟩ := nHdr_inj (b1 := 0) (b2 := 0) h
      simp only [ident, sameName_of i1 hs]
      cases hv : h1.isVar with
      | true => simp [← i2, hv, i6 hv]
      | false => simp [← i2, hv, i7 hv, i3]
    | _ => simp [norm] at h
  | .tup h1 fs, e, h, hs => by
    cases e with
    | tup h2 gs =>
      simp only [norm, Dti.tup.injEq] at h
      obtain ⟨h, ha⟩ := h
      obtain ⟨i1, i2, i3, i4, i5, i6, i7⟩ := nHdr_inj (v1 := false) (v2 := false) h
      simp only [ident, sameName_of i1 hs.1, identAll_of_norm fs gs ha hs.2]
      cases hv : h1.isVar with
      | true => simp [← i2, hv, i6 hv, i5]
      | false => simp [← i2, hv, i7 hv, i3, i5]
    | _ => simp [norm] at h
  | .arr h1 c, e, h, hs => by
    cases e with
    | arr h2 c2 =>
      simp only [norm, Dti.arr.injEq] at h
      obtain ⟨h, ha⟩ := h
      obtain ⟨i1, i2, i3, i4, i5, i6, i7⟩ := nHdr_inj h
      simp only [ident, sameName_of i1 hs.1, ident_of_norm c c2 ha hs.2]
      cases hv : h1.isVar with
      | true => 
        cases hvc : h1.varCount with
        | true => simp [← i2, hv, i6 hv, ← i4, hvc]
        | false => simp [← i2, hv, ← i4, hvc] at i5; simp [← i2, hv, i6 hv, ← i4, hvc, i5]
      | false => simp [← i2, hv] at i5; simp [← i2, hv, i7 hv, i3, i5, ← i4]
    | _ => simp [norm] at h
theorem identAll_of_norm : ∀ fs gs, normAll false fs = normAll false gs → ShortNamesAll fs → identAll fs gs = some true
  | [], gs, _, _ => by cases gs <;> simp [identAll]
  | (f, t) :: r, gs, h, hs => by
    cases gs with
    | nil => simp [identAll]
    | cons p s =>
      obtain ⟨g, u⟩ := p
      simp only [normAll, List.cons.injEq, Prod.mk.injEq] at h
      simp only [identAll, ident_of_norm t u h.1.2 hs.1, identAll_of_norm r s h.2 hs.2]
      rfl
end

theorem identAll_snd : ∀ {fs gs fs' gs' : List (Fld × Dti)}, fs.map Prod.snd = fs'.map Prod.snd →
    gs.map Prod.snd = gs'.map Prod.snd → identAll fs gs = identAll fs' gs'
  | [], gs, fs', gs', h1, h2 => by
    cases fs' with
    | nil => simp [identAll]
    | cons => cases h1
  | (f, t) :: r, gs, fs', gs', h1, h2 => by
    cases fs' with
    | nil => cases h1
    | cons p s =>
      obtain ⟨f', t'⟩ := p
      simp only [List.map_cons, List.cons.injEq] at h1
      obtain ⟨rfl, h1⟩ := h1
      cases gs with
      | nil => cases gs' with
        | nil => rfl
        | cons => cases h2
      | cons q l => cases gs' with
        | nil => cases h2
        | cons q' l' =>
          obtain ⟨g, u⟩ := q
          obtain ⟨g', u'⟩ := q'
          simp only [List.map_cons, List.cons.injEq] at h2
          obtain ⟨rfl, h2⟩ := h2
          simp only [identAll, identAll_snd h1 h2]

theorem snd_of_names {fs gs : List (Fld × Dti)} (h : fs.map (fun p => (p.1.name, p.2)) = gs.map (fun p => (p.1.name, p.2))) :
    fs.map Prod.snd = gs.map Prod.snd := by
  have := congrArg (List.map Prod.snd) h
  simpa [List.map_map, Function.comp_def] using this

theorem identAll_true : ∀ {fs gs : List (Fld × Dti)}, fs.length = gs.length → identAll fs gs = some true →
    All2 (fun p q => ident p.2 q.2 = some true) fs gs
  | [], [], _, _ => .nil
  | [], _ :: _, h, _ => by cases h
  | _ :: _, [], h, _ => by cases h
  | (f, t) :: r, (g, u) :: s, h, h2 => by
    simp only [identAll, Option.bind_eq_bind, Option.bind_eq_some_iff] at h2
    obtain ⟨b, hb, h2⟩ := h2
    cases b with
    | false => simp at h2
    | true => exact .cons hb (identAll_true (by simpa using h) h2)

/-- What equal headers have in common. -/
structure HeadEq (h1 h2 : Hdr) : Prop where
  nm : cname h1.name = cname h2.name
  isVar : h1.isVar = h2.isVar
  nl : h1.isVar = false → h1.nullable = h2.nullable
  size : h1.isVar = false → h1.size = h2.size
  maxSize : h1.isVar = true → h1.maxSize = h2.maxSize

theorem ident_prim {k : PKind} {h1 : Hdr} {e : Dti} (h : ident (.prim k h1) e = some true) :
    ∃ h2, e = .prim k h2 ∧ HeadEq h1 h2 := by
  cases e with
  | prim k2 h2 =>
    simp only [ident] at h
    split at h
    · cases h
    rename_i hk
    simp only [ne_eq, Classical.not_not] at hk
    subst hk
    simp only [Option.bind_eq_bind, Option.bind_eq_some_iff] at h
    obtain ⟨b, hb, h⟩ := h
    cases b with
    | false => simp at h
    | true =>
      obtain ⟨hb, _⟩ := sameName_true hb
      simp only [Bool.not_true, Bool.false_eq_true, if_false] at h
      split at h
      · simp at h
      rename_i hv
      simp only [ne_eq, Classical.not_not] at hv
      refine ⟨h2, rfl, hb, hv, ?_, ?_, ?_⟩ <;> intro hvv <;> simp [hvv] at h <;> simp [h]
  | _ => simp [ident] at h

theorem ident_str {k : Bool} {h1 : Hdr} {e : Dti} (h : ident (.str k h1) e = some true) :
    ∃ h2, e = .str k h2 ∧ HeadEq h1 h2 := by
  cases e with
  | str k2 h2 =>
    simp only [ident] at h
    split at h
    · cases h
    rename_i hk
    simp only [ne_eq, Classical.not_not] at hk
    subst hk
    simp only [Option.bind_eq_bind, Option.bind_eq_some_iff] at h
    obtain ⟨b, hb, h⟩ := h
    cases b with
    | false => simp at h
    | true =>
      obtain ⟨hb, _⟩ := sameName_true hb
      simp only [Bool.not_true, Bool.false_eq_true, if_false] at h
      split at h
      · simp at h
      rename_i hv
      simp only [ne_eq, Classical.not_not] at hv
      refine ⟨h2, rfl, hb, hv, ?_, ?_, ?_⟩ <;> intro hvv <;> simp [hvv] at h <;> simp [h]
  | _ => simp [ident] at h

theorem ident_tup {h1 : Hdr} {fs : List (Fld × Dti)} {e : Dti} (h : ident (.tup h1 fs) e = some true) :
    ∃ h2 gs, e = .tup h2 gs ∧ HeadEq h1 h2 ∧ h1.count = h2.count ∧ identAll fs gs = some true := by
  cases e with
  | tup h2 gs =>
    simp only [ident] at h
    simp only [Option.bind_eq_bind, Option.bind_eq_some_iff] at h
    obtain ⟨b, hb, h⟩ := h
    cases b with
    | false => simp at h
    | true =>
      obtain ⟨hb, _⟩ := sameName_true hb
      simp only [Bool.not_true, Bool.false_eq_true, if_false] at h
      split at h
      · simp at h
      rename_i hv
      simp only [ne_eq, Classical.not_not] at hv
      split at h
      · simp at h
      rename_i hn
      split at h
      · simp at h
      rename_i hm
      split at h
      · simp at h
      rename_i hc
      simp only [ne_eq, Classical.not_not] at hc
      refine ⟨h2, gs, rfl, ⟨hb, hv, ?_, ?_, ?_⟩, hc, h⟩ <;> intro hvv <;> simp [hvv] at hn hm <;> simp [hn, hm]
  | _ => simp [ident] at h

theorem ident_arr {h1 : Hdr} {c : Dti} {e : Dti} (h : ident (.arr h1 c) e = some true) :
    ∃ h2 c2, e = .arr h2 c2 ∧ HeadEq h1 h2 ∧ h1.varCount = h2.varCount ∧
      (h1.varCount = false → h1.count = h2.count) ∧ ident c c2 = some true := by
  cases e with
  | arr h2 c2 =>
    simp only [ident] at h
    simp only [Option.bind_eq_bind, Option.bind_eq_some_iff] at h
    obtain ⟨b, hb, h⟩ := h
    cases b with
    | false => simp at h
    | true =>
      obtain ⟨hb, _⟩ := sameName_true hb
      simp only [Bool.not_true, Bool.false_eq_true, if_false] at h
      split at h
      · simp at h
      rename_i hv
      simp only [ne_eq, Classical.not_not] at hv
      split at h
      · simp at h
      rename_i hn
      split at h
      · simp at h
      rename_i hm
      split at h
      · simp at h
      rename_i hvc
      simp only [ne_eq, Classical.not_not] at hvc
      split at h
      · simp at h
      rename_i hc
      refine ⟨h2, c2, rfl, ⟨hb, hv, ?_, ?_, ?_⟩, hvc, ?_, h⟩
      · intro hvv; simp [hvv] at hn; simp [hn]
      · intro hvv; simp [hvv] at hn; simp [hn]
      · intro hvv; simp [hvv] at hm; simp [hm]
      · intro hvv; simpa [hvv] using hc
  | _ => simp [ident] at h

theorem All2.imp_mem {α : Type} {R S : α → α → Prop} {l r : List α} (h : All2 R l r)
    (hi : ∀ a b, a ∈ l → b ∈ r → R a b → S a b) : All2 S l r := by
  induction h with
  | nil => exact .nil
  | cons h1 _ ih =>
    exact .cons (hi _ _ (.head _) (.head _) h1) (ih (fun a b ha hb => hi a b (.tail _ ha) (.tail _ hb)))

theorem ident_same {d : Dti} (hd : Made d) : ∀ {e : Dti}, Made e → ident d e = some true → norm false d = norm false e := by
  induction hd with
  | @prim k h d' hf =>
    intro e he hi
    obtain ⟨rfl, _⟩ := finPrim_eq hf
    obtain ⟨h2, rfl, hq⟩ := ident_prim hi
    cases he with
    | @prim k' h' _ hf' =>
      have := (finPrim_eq hf').1
      simp only [Dti.prim.injEq] at this
      obtain ⟨rfl, rfl⟩ := this
      have q2 := hq.nl rfl
      have q3 := hq.size rfl
      have q5 := hq.nm
      dsimp only at q2 q3 q5
      simp [norm, nHdr, q5, q2, q3]
    | @str b h' _ hf' => have := (finStr_eq hf').1; cases this
    | @tup h' gs' _ _ _ _ hf' => have := finTup_eq hf'; cases this
    | @arr h' c' _ _ hf' => have := (finArr_iff.mp hf').2.2; cases this
  | @str b h d' hf =>
    intro e he hi
    have hd := (finStr_eq hf).1
    subst hd
    obtain ⟨h2, rfl, hq⟩ := ident_str hi
    cases he with
    | @prim k' h' _ hf' => have := (finPrim_eq hf').1; cases this
    | @str b' h' _ hf' =>
      have := (finStr_eq hf').1
      simp only [Dti.str.injEq] at this
      obtain ⟨rfl, rfl⟩ := this
      have q1 := hq.isVar
      have q2 := hq.nl
      have q3 := hq.size
      have q4 := hq.maxSize
      have q5 := hq.nm
      dsimp only at q1 q2 q3 q4 q5
      simp only [norm, nHdr, q5, q1]
      cases hv : h'.varCount with
      | true => simp [q4 (q1.trans hv)]
      | false =>
        have h3 := q3 (q1.trans hv)
        rw [q1, hv] at h3
        simp only [Bool.false_eq_true, if_false] at h3
        simp [q2 (q1.trans hv), h3]
    | @tup h' gs' _ _ _ _ hf' => have := finTup_eq hf'; cases this
    | @arr h' c' _ _ hf' => have := (finArr_iff.mp hf').2.2; cases this
  | @tup h gs d' hgs hl h0 hf ih =>
    intro e he hi
    have hd := finTup_eq hf
    rw [hd] at hi
    obtain ⟨h2, gs2, rfl, hq, hc, ha⟩ := ident_tup hi
    dsimp only at hc
    cases he with
    | @prim k' h' _ hf' => have := (finPrim_eq hf').1; cases this
    | @str b' h' _ hf' => have := (finStr_eq hf').1; cases this
    | @tup h' gs' _ hgs' hl' _ hf' =>
      have he := finTup_eq hf'
      simp only [Dti.tup.injEq] at he
      obtain ⟨rfl, rfl⟩ := he
      dsimp only at hc
      rw [identAll_snd (snd_of_names (tupOffs_names h gs)) (snd_of_names (tupOffs_names h' gs'))] at ha
      have ha := identAll_true (by omega) ha
      have ha : All2 (Alike false) gs gs' := ha.imp_mem (fun a b ma mb hab =>
        ⟨by simp, ih a.1 a.2 ma (hgs' b.1 b.2 mb) hab⟩)
      obtain ⟨d2, hd2, hn⟩ := finTup_alike (h2 := h') ha hq.nm hc hq.nl hq.maxSize hf
      rw [hf'] at hd2
      cases hd2
      exact hn.symm
    | @arr h' c' _ _ hf' => have := (finArr_iff.mp hf').2.2; cases this
  | @arr h c d' hc hf ih =>
    intro e he hi
    have hd := (finArr_iff.mp hf).2.2
    rw [hd] at hi
    obtain ⟨h2, c2, rfl, hq, hvc, hcn, ha⟩ := ident_arr hi
    cases he with
    | @prim k' h' _ hf' => have := (finPrim_eq hf').1; cases this
    | @str b' h' _ hf' => have := (finStr_eq hf').1; cases this
    | @tup h' gs' _ _ _ _ hf' => have := finTup_eq hf'; cases this
    | @arr h' c' _ hc' hf' =>
      have he := (finArr_iff.mp hf').2.2
      simp only [Dti.arr.injEq] at he
      obtain ⟨rfl, rfl⟩ := he
      obtain ⟨d2, hd2, hn⟩ := finArr_alike (h1 := h) (h2 := h') (ih hc' ha) hq.nm hvc hcn hq.nl hq.maxSize hf
      rw [hf'] at hd2
      cases hd2
      exact hn.symm

theorem Made.varUp {d : Dti} (h : Made d) : VarUp d := by
  induction h with
  | prim hf => rw [(finPrim_eq hf).1]; trivial
  | str hf => rw [(finStr_eq hf).1]; trivial
  | @tup h gs d' _ _ _ hf ih =>
    rw [finTup_eq hf]
    show VarUpAll _ _
    rw [varUpAll_iff]
    intro f t hm
    obtain ⟨g, hg⟩ := mem_names (tupOffs_names h gs) hm
    refine ⟨fun hv => ?_, ih g t hg⟩
    exact List.any_eq_true.mpr ⟨_, hg, hv⟩
  | @arr h c d' _ hf ih =>
    rw [(finArr_iff.mp hf).2.2]
    refine ⟨fun hv => ?_, ih⟩
    simp [hv]

theorem shortNamesAll_iff (fs : List (Fld × Dti)) : ShortNamesAll fs ↔ ∀ f t, (f, t) ∈ fs → ShortNames t := by
  induction fs with
  | nil => simp [ShortNamesAll]
  | cons p r ih =>
    obtain ⟨f, t⟩ := p
    simp only [ShortNamesAll, ih, List.mem_cons]
    constructor
    · intro h f' t' hm
      rcases hm with hm | hm
      · cases hm; exact h.1
      · exact h.2 _ _ hm
    · intro h
      exact ⟨h f t (.inl rfl), fun f' t' hm => h f' t' (.inr hm)⟩

theorem ident_name {d e : Dti} (h : ident d e = some true) : (cname d.hdr.name).length < 64 := by
  have key : ∀ {a b : Bytes} {g : Option Bool}, (sameName a b >>= fun r => if (!r) = true then pure false else g) = some true →
      (cname a).length < 64 := by
    intro a b g h
    cases hs : sameName a b with
    | none => rw [hs] at h; cases h
    | some r =>
      cases r with
      | false => rw [hs] at h; cases h
      | true => exact (sameName_true hs).2
  cases d <;> cases e <;> simp only [ident] at h <;> first
    | cases h; done
    | exact key h
    | (split at h
       · cases h
       · exact key h)

theorem All2.mem_left {α : Type} {R : α → α → Prop} {l r : List α} (h : All2 R l r) {a : α} (ha : a ∈ l) :
    ∃ b ∈ r, R a b := by
  induction h with
  | nil => cases ha
  | cons h1 _ ih =>
    rcases List.mem_cons.mp ha with rfl | ha
    · exact ⟨_, .head _, h1⟩
    · obtain ⟨b, hb, h⟩ := ih ha; exact ⟨b, .tail _ hb, h⟩

theorem ident_short {d : Dti} (hd : Made d) : ∀ {e : Dti}, Made e → ident d e = some true → ShortNames d := by
  induction hd with
  | @prim k h d' hf =>
    intro e he hi
    have hn := ident_name hi
    rw [(finPrim_eq hf).1] at hn ⊢
    exact hn
  | @str b h d' hf =>
    intro e he hi
    have hn := ident_name hi
    rw [(finStr_eq hf).1] at hn ⊢
    exact hn
  | @tup h gs d' hgs hl h0 hf ih =>
    intro e he hi
    have hn := ident_name hi
    have hd := finTup_eq hf
    rw [hd] at hi hn ⊢
    refine ⟨hn, ?_⟩
    obtain ⟨h2, gs2, rfl, hq, hc, ha⟩ := ident_tup hi
    dsimp only at hc
    cases he with
    | @prim k' h' _ hf' => have := (finPrim_eq hf').1; cases this
    | @str b' h' _ hf' => have := (finStr_eq hf').1; cases this
    | @tup h' gs' _ hgs' hl' _ hf' =>
      have he := finTup_eq hf'
      simp only [Dti.tup.injEq] at he
      obtain ⟨rfl, rfl⟩ := he
      dsimp only at hc
      rw [identAll_snd (snd_of_names (tupOffs_names h gs)) (snd_of_names (tupOffs_names h' gs'))] at ha
      have ha := identAll_true (by omega) ha
      rw [shortNamesAll_iff]
      intro f t hm
      obtain ⟨g, hg⟩ := mem_names (tupOffs_names h gs) hm
      obtain ⟨b, hb, hab⟩ := ha.mem_left hg
      exact ih g t hg (hgs' b.1 b.2 hb) hab
    | @arr h' c' _ _ hf' => have := (finArr_iff.mp hf').2.2; cases this
  | @arr h c d' hc hf ih =>
    intro e he hi
    have hn := ident_name hi
    have hd := (finArr_iff.mp hf).2.2
    rw [hd] at hi hn ⊢
    obtain ⟨h2, c2, rfl, hq, hvc, hcn, ha⟩ := ident_arr hi
    cases he with
    | @prim k' h' _ hf' => have := (finPrim_eq hf').1; cases this
    | @str b' h' _ hf' => have := (finStr_eq hf').1; cases this
    | @tup h' gs' _ _ _ _ hf' => have := finTup_eq hf'; cases this
    | @arr h' c' _ hc' hf' =>
      have he := (finArr_iff.mp hf').2.2
      simp only [Dti.arr.injEq] at he
      obtain ⟨rfl, rfl⟩ := he
      exact ⟨hn, ih hc' ha⟩

end Dti
end TS
