import Verif.PrintProof
import Verif.PropsSer
/-
What `print_type_info` prints tells types apart.
-/
namespace TS
namespace Dti

theorem toNat_inj {a b : Bool} (h : a.toNat = b.toNat) : a = b := by cases a <;> cases b <;> first | rfl | cases h

theorem kindText_inj {a b : Kind} (h : kindText a = kindText b) : a = b := by
  cases a <;> cases b <;> first | rfl | (simp [kindText] at h)

theorem head_inj {d e : Dti} {tabs : Nat} {r r' : List Tok} (h : printHead d tabs ++ r = printHead e tabs ++ r') :
    d.kind = e.kind ∧ cname d.hdr.name = cname e.hdr.name ∧ d.isNullable = e.isNullable ∧ d.isVar = e.isVar ∧
      d.hdr.size = e.hdr.size ∧ (d.isVar = true → d.isBit = false → d.hdr.maxSize = e.hdr.maxSize) ∧ r = r' := by
  unfold printHead line at h
  simp only [List.append_assoc, List.append_cancel_left_eq, List.cons_append, List.nil_append, List.cons.injEq, Tok.txt.injEq,
    Tok.str.injEq, Tok.num.injEq, true_and] at h
  obtain ⟨h1, h2, h3, h4, h5, h6, h7⟩ := h
  have hk := kindText_inj h3
  have hv := toNat_inj h5
  have hb : d.isBit = e.isBit := by
    have : ∀ d : Dti, d.isBit = decide (d.kind = .bitField) := by
      intro d
      cases d with
      | prim k h => cases k <;> rfl
      | str b h => cases b <;> rfl
      | _ => rfl
    rw [this, this, hk]
  refine ⟨hk, h1, toNat_inj h4, hv, ?_⟩
  rw [hb, hv] at h7
  cases hx : e.isBit with
  | true =>
    simp only [hx, if_true, List.append_assoc, List.append_cancel_left_eq, List.cons_append, List.nil_append, List.cons.injEq,
      Tok.num.injEq, true_and] at h7
    exact ⟨h7.1, fun _ h => by (rw [hb, hx] at h; cases h), h7.2.2⟩
  | false =>
    cases hy : e.isVar with
    | false =>
      simp only [hx, hy, Bool.not_false, Bool.false_eq_true, if_true, if_false, List.append_assoc, List.append_cancel_left_eq, List.cons_append,
        List.nil_append, List.cons.injEq, Tok.num.injEq, true_and] at h7
      exact ⟨h7.1, fun h => by (rw [hv, hy] at h; cases h), h7.2.2⟩
    | true =>
      simp only [hx, hy, Bool.not_true, Bool.false_eq_true, if_false, List.append_assoc, List.append_cancel_left_eq, List.cons_append,
        List.nil_append, List.cons.injEq, Tok.num.injEq, true_and] at h7
      exact ⟨h7.1, fun _ _ => h7.2.1, h7.2.2.2⟩

theorem contHead_inj {d e : Dti} {tabs : Nat} {r r' : List Tok} (h : printContHead d tabs ++ r = printContHead e tabs ++ r') :
    d.hdr.varCount = e.hdr.varCount ∧ (d.hdr.varCount = false → d.hdr.count = e.hdr.count ∧ d.hdr.bits = e.hdr.bits) ∧ r = r' := by
  unfold printContHead line line0 at h
  simp only [List.append_assoc, List.append_cancel_left_eq, List.cons_append, List.nil_append, List.cons.injEq,
    Tok.num.injEq, true_and] at h
  obtain ⟨h1, h2, h3⟩ := h
  cases hd : d.hdr.varCount <;> cases he : e.hdr.varCount <;> simp only [hd, he, Bool.false_eq_true, if_true, if_false,
    List.append_assoc, List.append_cancel_left_eq, List.cons_append, List.nil_append, List.cons.injEq, Tok.num.injEq, Tok.txt.injEq, true_and] at h3
  · exact ⟨rfl, fun _ => ⟨h3.1, h3.2.1⟩, h3.2.2⟩
  · have := h3.1; simp at this
  · have := h3.1; simp at this
  · exact ⟨rfl, nofun, h3⟩

theorem rec_start {d : Dti} {tabs : Nat} {x : List Tok} (h : printTypeRec d tabs = some x) :
    ∃ r, x = List.replicate tabs (.txt "\t") ++ .txt "type_name : \"" :: r := by
  have key : ∀ (d : Dti) r, ∃ r', printHead d tabs ++ r = List.replicate tabs (.txt "\t") ++ .txt "type_name : \"" :: r' := by
    intro d r
    unfold printHead
    simp only [List.append_assoc, List.cons_append]
    exact ⟨_, rfl⟩
  cases d with
  | prim k hd =>
    simp only [printTypeRec, Option.some.injEq] at h
    rw [← h, ← List.append_nil (printHead _ _)]
    exact key _ _
  | str b hd =>
    simp only [printTypeRec] at h
    split at h
    · simp only [Option.some.injEq, List.append_assoc] at h
      rw [← h]; exact key _ _
    · cases h
  | tup hd fs =>
    simp only [printTypeRec, Option.bind_eq_bind, Option.bind_eq_some_iff] at h
    obtain ⟨a, _, h⟩ := h
    simp only [Option.pure_def, Option.some.injEq, List.append_assoc] at h
    rw [← h]; exact key _ _
  | arr hd c =>
    simp only [printTypeRec, Option.bind_eq_bind, Option.bind_eq_some_iff] at h
    obtain ⟨a, _, h⟩ := h
    simp only [Option.pure_def, Option.some.injEq, List.append_assoc] at h
    rw [← h]; exact key _ _

theorem off_inj {t u : Dti} {n k tabs : Nat} {A B : List Tok}
    (h : (if t.isBit then line tabs "bit_offset : " (.num n) "\n" else if !t.isVar then line tabs "byte_offset : " (.num n) "\n"
        else line tabs "byte_offset_to_byte_offset : " (.num n) "\n") ++ A =
      (if u.isBit then line tabs "bit_offset : " (.num k) "\n" else if !u.isVar then line tabs "byte_offset : " (.num k) "\n"
        else line tabs "byte_offset_to_byte_offset : " (.num k) "\n") ++ B) : n = k ∧ A = B := by
  unfold line at h
  cases h1 : t.isBit <;> cases h2 : u.isBit <;> cases h3 : t.isVar <;> cases h4 : u.isVar <;>
    simp [h1, h2, h3, h4] at h <;> exact h

theorem pos_inj {f g : Fld} {t u : Dti} {tabs : Nat} {a b r r' : List Tok} (ha : printPos f t tabs = some a) (hb : printPos g u tabs = some b)
    (h : a ++ (List.replicate (tabs + 1) (.txt "\t") ++ .txt "type_name : \"" :: r) =
      b ++ (List.replicate (tabs + 1) (.txt "\t") ++ .txt "type_name : \"" :: r')) :
    cname f.name = cname g.name ∧ f.off = g.off ∧ t.needsValid = u.needsValid ∧ (t.needsValid = true → f.vbit = g.vbit) ∧ r = r' := by
  unfold printPos printName at ha hb
  split at ha
  · split at hb
    · simp only [Option.bind_eq_bind, Option.bind_some, Option.pure_def, Option.some.injEq] at ha hb
      rw [← ha, ← hb] at h
      simp only [List.append_assoc, List.append_cancel_left_eq, List.cons_append, List.nil_append, List.cons.injEq, Tok.str.injEq,
        true_and] at h
      obtain ⟨h1, h2⟩ := h
      obtain ⟨h4, h5⟩ := off_inj h2
      refine ⟨h1, h4, ?_⟩
      simp only [line, List.replicate_succ'] at h5
      cases hx : t.needsValid <;> cases hy : u.needsValid <;>
        simp only [hx, hy, Bool.false_eq_true, if_true, if_false, List.append_assoc, List.append_cancel_left_eq, List.cons_append, List.nil_append, List.cons.injEq,
          Tok.num.injEq, Tok.txt.injEq, true_and] at h5
      · exact ⟨rfl, nofun, h5⟩
      · have := h5.1; simp at this
      · have := h5.1; simp at this
      · exact ⟨rfl, fun _ => h5.1, h5.2⟩
    · cases hb
  · cases ha

theorem nHdr_eq {d e : Dti} (hf : d.hdr.isFinal = true) (hf' : e.hdr.isFinal = true) (hb : d.isBit = true → d.isVar = false)
    (h : cname d.hdr.name = cname e.hdr.name ∧ d.isNullable = e.isNullable ∧ d.isVar = e.isVar ∧
      d.hdr.size = e.hdr.size ∧ (d.isVar = true → d.isBit = false → d.hdr.maxSize = e.hdr.maxSize)) : nHdr d.hdr = nHdr e.hdr := by
  obtain ⟨h1, h2, h3, h4, h5⟩ := h
  unfold isNullable at h2
  rw [h3] at h2
  unfold isVar at h2 h3 h5 hb
  unfold nHdr
  rw [hf, hf', h1, h3, h4]
  cases hv : e.hdr.isVar with
  | true =>
    rw [hv] at h3
    rw [h5 h3 (by cases hx : d.isBit; rfl; have := hb hx; rw [h3] at this; cases this)]
    rfl
  | false =>
    rw [hv] at h2
    simp only [Bool.false_or] at h2
    rw [h2]
    rfl

theorem final_of {d : Dti} (h : TyOk d) : d.hdr.isFinal = true := by cases h <;> assumption

theorem bit_fixed {d : Dti} (h : TyOk d) (hb : d.isBit = true) : d.isVar = false := by
  cases h <;> first | assumption | cases hb

theorem printTypeRec_inj : ∀ {d : Dti}, TyOk d → ∀ {e : Dti}, TyOk e → ∀ {tabs : Nat} {x y r r' : List Tok},
    printTypeRec d tabs = some x → printTypeRec e tabs = some y → x ++ r = y ++ r' → norm true d = norm true e ∧ r = r' := by
  intro d
  induction d using Dti.ind with
  | hp k h =>
    intro hd e he tabs x y r r' hx hy hxy
    simp only [printTypeRec, Option.some.injEq] at hx
    cases e with
    | prim k' h' =>
      simp only [printTypeRec, Option.some.injEq] at hy
      rw [← hx, ← hy] at hxy
      obtain ⟨a1, a2, a3, a4, a5, a6, a7⟩ := head_inj hxy
      have hk : k = k' := by cases k <;> cases k' <;> first | rfl | cases a1
      have := nHdr_eq (final_of hd) (final_of he) (bit_fixed hd) ⟨a2, a3, a4, a5, a6⟩
      subst hk
      exact ⟨by simp only [norm]; exact congrArg _ this, a7⟩
    | str b h' =>
      exfalso
      simp only [printTypeRec] at hy
      split at hy
      · simp only [Option.some.injEq] at hy
        rw [← hx, ← hy] at hxy
        simp only [List.append_assoc] at hxy
        have := (head_inj hxy).1
        cases k <;> cases b <;> cases this
      · cases hy
    | tup h' fs =>
      exfalso
      simp only [printTypeRec, Option.bind_eq_bind, Option.bind_eq_some_iff] at hy
      obtain ⟨a, _, hy⟩ := hy
      simp only [Option.pure_def, Option.some.injEq] at hy
      rw [← hx, ← hy] at hxy
      simp only [List.append_assoc] at hxy
      have := (head_inj hxy).1
      cases k <;> cases this
    | arr h' c =>
      exfalso
      simp only [printTypeRec, Option.bind_eq_bind, Option.bind_eq_some_iff] at hy
      obtain ⟨a, _, hy⟩ := hy
      simp only [Option.pure_def, Option.some.injEq] at hy
      rw [← hx, ← hy] at hxy
      simp only [List.append_assoc] at hxy
      have := (head_inj hxy).1
      cases k <;> cases this
  | hs b h =>
    intro hd e he tabs x y r r' hx hy hxy
    have hfin : h.isFinal = true := final_of hd
    simp only [printTypeRec, hfin, if_true, Option.some.injEq] at hx
    cases e with
    | prim k' h' =>
      exfalso
      simp only [printTypeRec, Option.some.injEq] at hy
      rw [← hx, ← hy] at hxy
      simp only [List.append_assoc] at hxy
      have := (head_inj hxy).1
      cases b <;> cases k' <;> cases this
    | str b' h' =>
      have hfin' : h'.isFinal = true := final_of he
      simp only [printTypeRec, hfin', if_true, Option.some.injEq] at hy
      rw [← hx, ← hy] at hxy
      simp only [List.append_assoc] at hxy
      obtain ⟨a1, a2, a3, a4, a5, a6, a7⟩ := head_inj hxy
      obtain ⟨b1, b2, b3⟩ := contHead_inj a7
      simp only [List.append_cancel_left_eq] at b3
      have hk : b = b' := by cases b <;> cases b' <;> first | rfl | cases a1
      have hn : nHdr h = nHdr h' := nHdr_eq (final_of hd) (final_of he) (bit_fixed hd) ⟨a2, a3, a4, a5, a6⟩
      subst hk
      refine ⟨?_, b3⟩
      have a4 : h.isVar = h'.isVar := a4
      have hvc : h.isVar = h.varCount := by cases hd; assumption
      simp only [norm, hn, a4]
      cases hv : h'.isVar with
      | true => rfl
      | false =>
        have b4 : h.count = h'.count := (b2 (show h.varCount = false by rw [← hvc, a4, hv])).1
        rw [b4]
    | tup h' fs =>
      exfalso
      simp only [printTypeRec, Option.bind_eq_bind, Option.bind_eq_some_iff] at hy
      obtain ⟨a, _, hy⟩ := hy
      simp only [Option.pure_def, Option.some.injEq] at hy
      rw [← hx, ← hy] at hxy
      simp only [List.append_assoc] at hxy
      have := (head_inj hxy).1
      cases b <;> cases this
    | arr h' c =>
      exfalso
      simp only [printTypeRec, Option.bind_eq_bind, Option.bind_eq_some_iff] at hy
      obtain ⟨a, _, hy⟩ := hy
      simp only [Option.pure_def, Option.some.injEq] at hy
      rw [← hx, ← hy] at hxy
      simp only [List.append_assoc] at hxy
      have := (head_inj hxy).1
      cases b <;> cases this
  | ht h fs ih =>
    intro hd e he tabs x y r r' hx hy hxy
    simp only [printTypeRec, Option.bind_eq_bind, Option.bind_eq_some_iff] at hx
    obtain ⟨p, hp, hx⟩ := hx
    simp only [Option.pure_def, Option.some.injEq] at hx
    cases e with
    | prim k' h' =>
      exfalso
      simp only [printTypeRec, Option.some.injEq] at hy
      rw [← hx, ← hy] at hxy
      simp only [List.append_assoc] at hxy
      have := (head_inj hxy).1
      cases k' <;> cases this
    | str b' h' =>
      exfalso
      simp only [printTypeRec] at hy
      split at hy
      · simp only [Option.some.injEq] at hy
        rw [← hx, ← hy] at hxy
        simp only [List.append_assoc] at hxy
        have := (head_inj hxy).1
        cases b' <;> cases this
      · cases hy
    | tup h' gs =>
      simp only [printTypeRec, Option.bind_eq_bind, Option.bind_eq_some_iff] at hy
      obtain ⟨q, hq, hy⟩ := hy
      simp only [Option.pure_def, Option.some.injEq] at hy
      rw [← hx, ← hy] at hxy
      simp only [List.append_assoc] at hxy
      obtain ⟨a1, a2, a3, a4, a5, a6, a7⟩ := head_inj hxy
      obtain ⟨b1, b2, b3⟩ := contHead_inj a7
      simp only [List.append_cancel_left_eq] at b3
      have hn : nHdr h = nHdr h' := nHdr_eq (final_of hd) (final_of he) (bit_fixed hd) ⟨a2, a3, a4, a5, a6⟩
      obtain ⟨b4, b5⟩ := b2 (by cases hd; assumption)
      have b4 : h.count = h'.count := b4
      have b5 : h.bits = h'.bits := b5
      have l1 : fs.length = h.count := by cases hd; assumption
      have l2 : gs.length = h'.count := by cases he; assumption
      have o1 : ∀ f t, (f, t) ∈ fs → TyOk t := by cases hd; assumption
      have o2 : ∀ f t, (f, t) ∈ gs → TyOk t := by cases he; assumption
      have key : ∀ (r1 r2 : List (Fld × Dti)) (p q z z' : List Tok), r1.length = r2.length → (∀ w, w ∈ r1 → w ∈ fs) → (∀ w, w ∈ r2 → w ∈ gs) →
          printTypeFlds r1 r1.length tabs = some p → printTypeFlds r2 r2.length tabs = some q → p ++ z = q ++ z' →
          normAll true r1 = normAll true r2 ∧ z = z' := by
        intro r1
        induction r1 with
        | nil =>
          intro r2 p q z z' hl _ _ hp hq hpq
          cases r2 with
          | cons => cases hl
          | nil =>
            simp only [List.length_nil, printTypeFlds, Option.some.injEq] at hp hq
            rw [← hp, ← hq] at hpq
            exact ⟨rfl, hpq⟩
        | cons w r1 ihr =>
          intro r2 p q z z' hl m1 m2 hp hq hpq
          cases r2 with
          | nil => cases hl
          | cons w' r2 =>
            obtain ⟨f, t⟩ := w
            obtain ⟨g, u⟩ := w'
            simp only [List.length_cons, printTypeFlds, Option.bind_eq_bind, Option.bind_eq_some_iff] at hp hq
            obtain ⟨p1, hp1, p2, hp2, p3, hp3, hp⟩ := hp
            obtain ⟨q1, hq1, q2, hq2, q3, hq3, hq⟩ := hq
            simp only [Option.pure_def, Option.some.injEq] at hp hq
            rw [← hp, ← hq] at hpq
            simp only [List.append_assoc] at hpq
            obtain ⟨s, hs⟩ := rec_start hp2
            obtain ⟨s', hs'⟩ := rec_start hq2
            have hpq' := hpq
            rw [hs, hs'] at hpq'
            simp only [List.append_assoc, List.cons_append] at hpq'
            obtain ⟨c1, c2, c3, c4, c5⟩ := pos_inj hp1 hq1 hpq'
            have hpq2 : p2 ++ (p3 ++ z) = q2 ++ (q3 ++ z') := by
              rw [hs, hs']
              simp only [List.append_assoc, List.cons_append, c5]
            obtain ⟨d1, d2⟩ := ih f t (m1 _ (by simp)) (o1 f t (m1 _ (by simp))) (o2 g u (m2 _ (by simp))) hp2 hq2 hpq2
            obtain ⟨e1, e2⟩ := ihr r2 p3 q3 z z' (by simpa using hl) (fun w hw => m1 w (by simp [hw])) (fun w hw => m2 w (by simp [hw])) hp3 hq3 d2
            refine ⟨?_, e2⟩
            simp only [normAll, d1, e1]
            have hff : nFld true t f = nFld true u g := by
              unfold nFld
              simp only [if_true, c1, c2, c3]
              cases hv : u.needsValid with
              | true => rw [c4 (by rw [c3, hv])]
              | false => rfl
            rw [hff]
      obtain ⟨k1, k2⟩ := key fs gs p q _ _ (by omega) (fun _ h => h) (fun _ h => h) (by rw [l1]; exact hp) (by rw [l2]; exact hq) b3
      simp only [List.append_cancel_left_eq] at k2
      exact ⟨by simp only [norm, hn, b4, b5, k1], k2⟩
    | arr h' c =>
      exfalso
      simp only [printTypeRec, Option.bind_eq_bind, Option.bind_eq_some_iff] at hy
      obtain ⟨a, _, hy⟩ := hy
      simp only [Option.pure_def, Option.some.injEq] at hy
      rw [← hx, ← hy] at hxy
      simp only [List.append_assoc] at hxy
      have := (head_inj hxy).1
      cases this
  | ha h c ih =>
    intro hd e he tabs x y r r' hx hy hxy
    simp only [printTypeRec, Option.bind_eq_bind, Option.bind_eq_some_iff] at hx
    obtain ⟨p, hp, hx⟩ := hx
    simp only [Option.pure_def, Option.some.injEq] at hx
    cases e with
    | prim k' h' =>
      exfalso
      simp only [printTypeRec, Option.some.injEq] at hy
      rw [← hx, ← hy] at hxy
      simp only [List.append_assoc] at hxy
      have := (head_inj hxy).1
      cases k' <;> cases this
    | str b' h' =>
      exfalso
      simp only [printTypeRec] at hy
      split at hy
      · simp only [Option.some.injEq] at hy
        rw [← hx, ← hy] at hxy
        simp only [List.append_assoc] at hxy
        have := (head_inj hxy).1
        cases b' <;> cases this
      · cases hy
    | tup h' gs =>
      exfalso
      simp only [printTypeRec, Option.bind_eq_bind, Option.bind_eq_some_iff] at hy
      obtain ⟨a, _, hy⟩ := hy
      simp only [Option.pure_def, Option.some.injEq] at hy
      rw [← hx, ← hy] at hxy
      simp only [List.append_assoc] at hxy
      have := (head_inj hxy).1
      cases this
    | arr h' c' =>
      simp only [printTypeRec, Option.bind_eq_bind, Option.bind_eq_some_iff] at hy
      obtain ⟨q, hq, hy⟩ := hy
      simp only [Option.pure_def, Option.some.injEq] at hy
      rw [← hx, ← hy] at hxy
      simp only [List.append_assoc] at hxy
      obtain ⟨a1, a2, a3, a4, a5, a6, a7⟩ := head_inj hxy
      obtain ⟨b1, b2, b3⟩ := contHead_inj a7
      simp only [List.append_cancel_left_eq] at b3
      have hn : nHdr h = nHdr h' := nHdr_eq (final_of hd) (final_of he) (bit_fixed hd) ⟨a2, a3, a4, a5, a6⟩
      have hoc : TyOk c := by cases hd; assumption
      have hoc' : TyOk c' := by cases he; assumption
      obtain ⟨k1, k2⟩ := ih hoc hoc' hp hq b3
      simp only [List.append_cancel_left_eq] at k2
      refine ⟨?_, k2⟩
      have a4 : h.isVar = h'.isVar := a4
      have b1 : h.varCount = h'.varCount := b1
      have hvc : h.isVar = (h.varCount || c.isVar) := by cases hd; assumption
      simp only [norm, hn, b1, a4, k1]
      cases hv : h'.varCount with
      | true =>
        have : h'.isVar = true := by rw [← a4, hvc, b1, hv]; rfl
        simp [this]
      | false =>
        obtain ⟨b4, b5⟩ := b2 (show h.varCount = false by rw [b1, hv])
        have b4 : h.count = h'.count := b4
        have b5 : h.bits = h'.bits := b5
        rw [b4, b5]

end Dti
end TS
