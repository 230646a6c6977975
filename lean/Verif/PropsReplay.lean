import Verif.PropsWiden
import Verif.PropsRollback
/-
Property C98: edits that are possible with a type are possible, and do the same, once the maximum
sizes in the type have been raised.
-/
namespace TS
namespace Props
open Dti

variable {d e t u : Dti}

theorem tyAtNoData_widen (hw : Widens d e) (i : Nat) : (d.tyAtNoData i = none ∧ e.tyAtNoData i = none) ∨
    ∃ t u, d.tyAtNoData i = some t ∧ e.tyAtNoData i = some u ∧ Widens t u := by
  unfold tyAtNoData
  rw [hw.isCont, hw.isVarCount, hw.count]
  split
  · exact .inl ⟨rfl, rfl⟩
  · split
    · exact .inl ⟨rfl, rfl⟩
    · have h0 := hw
      cases hw with
      | prim => exact .inl ⟨rfl, rfl⟩
      | str => exact .inr ⟨_, _, rfl, rfl, .refl _⟩
      | arr _ hc => exact .inr ⟨_, _, rfl, rfl, hc⟩
      | tup =>
        rcases h0.field i with ⟨e1, e2⟩ | ⟨f, t, f', t', e1, e2, _, _, e5⟩
        · exact .inl ⟨by simp [tyAt, e1], by simp [tyAt, e2]⟩
        · exact .inr ⟨t, t', by simp [tyAt, e1], by simp [tyAt, e2], e5⟩

theorem typeAt_widen (pa : List Nat) : ∀ {d e : Dti}, Widens d e →
    (d.typeAt pa = none ∧ e.typeAt pa = none) ∨ ∃ t u, d.typeAt pa = some t ∧ e.typeAt pa = some u ∧ Widens t u := by
  induction pa with
  | nil => intro d e hw; exact .inr ⟨d, e, rfl, rfl, hw⟩
  | cons i pa ih =>
    intro d e hw
    simp only [typeAt]
    rcases tyAtNoData_widen hw i with ⟨e1, e2⟩ | ⟨t, u, e1, e2, e3⟩
    · rw [e1, e2]; exact .inl ⟨rfl, rfl⟩
    · rw [e1, e2]; exact ih e3

/-- The type at a position before the maximum sizes were raised, from the one after. -/
theorem typeAt_before (hw : Widens d e) {pa : List Nat} (h : e.typeAt pa = some u) :
    ∃ t, d.typeAt pa = some t ∧ Widens t u := by
  rcases typeAt_widen pa hw with ⟨_, e2⟩ | ⟨t, u', e1, e2, e3⟩
  · rw [e2] at h; cases h
  · rw [e2] at h; cases h; exact ⟨t, e1, e3⟩

theorem typeAt_after (hw : Widens d e) {pa : List Nat} (h : d.typeAt pa = some t) :
    ∃ u, e.typeAt pa = some u ∧ Widens t u := by
  rcases typeAt_widen pa hw with ⟨e1, _⟩ | ⟨t', u, e1, e2, e3⟩
  · rw [e1] at h; cases h
  · rw [e1] at h; cases h; exact ⟨u, e2, e3⟩

theorem IsTuple.widen (hu : TyOk u) (hw : Widens t u) {m : Bytes} {S : Nat} (h : IsTuple t m S) : IsTuple u m S := by
  obtain ⟨h1, v, h2⟩ := h
  exact ⟨h1, v, enc_widen h2 hw hu⟩

theorem Accepts.widen (hu : TyOk u) (hw : Widens t u) {v : Datum} (h : Accepts t v) : Accepts u v := by
  rcases h with h | h | h
  · exact .inl h
  · exact .inr (.inl h)
  · refine .inr (.inr ?_)
    have h0 := hw
    cases hw with
    | prim hh =>
      rename_i k _ _
      cases k <;> first | exact h | (obtain ⟨b, h1, h2⟩ := h; exact ⟨b, h1, by rw [hh.size]; exact h2⟩)
    | str => exact h
    | tup => obtain ⟨src, s, h1, h2⟩ := h; exact ⟨src, s, h1, h2.widen hu h0⟩
    | arr => obtain ⟨src, s, h1, h2⟩ := h; exact ⟨src, s, h1, h2.widen hu h0⟩

theorem Sz.widen (hu : TyOk u) (hw : Widens t u) {y : Val} {n : Nat} (h : Sz t y n) : Sz u y n := by
  rcases h with h | ⟨b, h1, h2⟩
  · exact .inl h
  · exact .inr ⟨b, enc_widen h1 hw hu, h2⟩

theorem Needs.widen (hu : TyOk u) (hw : Widens t u) {v : Datum} {n : Nat} (h : Needs t v n) : Needs u v n := by
  have h0 := hw
  cases hw with
  | str hh => obtain ⟨b, h1, h2⟩ := h; exact ⟨b, h1, by rw [hh.w]; exact h2⟩
  | prim =>
    rcases h with ⟨src, h1, h2⟩ | ⟨h1, h2⟩
    · exact .inl ⟨src, h1, h2.widen hu h0⟩
    · exact .inr ⟨h1, by rw [h0.size]; exact h2⟩
  | tup =>
    rcases h with ⟨src, h1, h2⟩ | ⟨h1, h2⟩
    · exact .inl ⟨src, h1, h2.widen hu h0⟩
    · exact .inr ⟨h1, by rw [h0.size]; exact h2⟩
  | arr =>
    rcases h with ⟨src, h1, h2⟩ | ⟨h1, h2⟩
    · exact .inl ⟨src, h1, h2.widen hu h0⟩
    · exact .inr ⟨h1, by rw [h0.size]; exact h2⟩

theorem minB_widen (hw : Widens t u) : minB u = minB t := by
  unfold minB; rw [hw.hasSizeP, hw.w, hw.size]

theorem EDen.widen (hu : TyOk u) (hw : Widens t u) {v : Datum} {y : Val} (h : EDen t v y) : EDen u v y := by
  unfold EDen at h ⊢
  rw [hw.isBit, hw.size]
  split
  · rename_i hn; simpa only [hn, if_true] using h
  · rename_i hn
    simp only [hn, Bool.false_eq_true, if_false] at h
    split
    · rename_i hb; simpa only [hb, if_true] using h
    · rename_i hb
      simp only [hb, Bool.false_eq_true, if_false] at h
      have h0 := hw
      have sub : ((∃ src s, v = .ptr src ∧ t.getSize src = some s ∧ s ≤ src.length ∧ Enc t (src.take s) y) ∨ (v = .empty ∧ Enc t (minB t) y)) →
          ((∃ src s, v = .ptr src ∧ u.getSize src = some s ∧ s ≤ src.length ∧ Enc u (src.take s) y) ∨ (v = .empty ∧ Enc u (minB u) y)) := by
        rintro (⟨src, s, a1, _, a3, a4⟩ | ⟨a1, a2⟩)
        · have := enc_widen a4 h0 hu
          exact .inl ⟨src, s, a1, (IsTuple.size hu ⟨a3, y, this⟩).1, a3, this⟩
        · exact .inr ⟨a1, by rw [minB_widen h0]; exact enc_widen a2 h0 hu⟩
      cases hw with
      | prim hh =>
        rename_i k _ _
        cases k <;> simp only [Den, hh.size] at h ⊢ <;> exact h
      | str hh => simp only [Den, hh.size, hh.isVar] at h ⊢; exact h
      | tup => exact sub h
      | arr => exact sub h

/-- The values on the way to a position take as many bytes with both types. -/
theorem sz_before (hd : TyOk d) (he : TyOk e) {b : Bytes} {val z : Val} (hen : Enc d b val) {q : List Nat} {n : Nat}
    (ht : d.typeAt q = some t) (hu : e.typeAt q = some u) (htu : Widens t u) (hz : val.at' q = some z) (h : Sz u z n) : Sz t z n := by
  rcases held_at q hd (.inr (.inr ⟨b, hen⟩)) hz ht with rfl | ⟨v, rfl, _⟩ | ⟨c, hc⟩
  · rcases h with h | ⟨c, h, _⟩
    · exact .inl h
    · exact absurd h enc_not_null
  · rcases h with ⟨h, _⟩ | ⟨c, h, _⟩ <;> cases h
  · have huk := (typeAt_ok q he hu).1
    have := Sz.unique huk h (.inr ⟨c, enc_widen hc htu huk, rfl⟩)
    exact .inr ⟨c, hc, this.symm⟩

/-- What can be set can be set after the maximum sizes have been raised. -/
theorem SetCond.widen (hd : TyOk d) (he : TyOk e) (hw : Widens d e) {b : Bytes} {val : Val} (hen : Enc d b val) {pa : List Nat}
    {v : Datum} {inc : Nat} (htu : Widens t u) (hu : TyOk u) (h : SetCond d t val inc v pa) : SetCond e u val inc v pa := by
  obtain ⟨h1, h2, h3⟩ := h
  refine ⟨h1, by rw [htu.isNullable]; exact h2, ?_⟩
  rw [htu.isVar]
  intro g1 g2
  obtain ⟨y, old, new, k1, k2, k3, k4, k5, k6⟩ := h3 g1 g2
  refine ⟨y, old, new, k1, Sz.widen hu htu k2, Needs.widen hu htu k3, Nat.le_trans k4 htu.hw.le, k5, ?_⟩
  intro q u' z n a1 a2 a3 a4 a5
  obtain ⟨t', b1, b2⟩ := typeAt_before hw a3
  have := k6 q t' z n a1 a2 b1 a4 (sz_before hd he hen b1 a3 b2 a4 a5)
  have := b2.hw.le
  omega

theorem Spare.widen (hd : TyOk d) (he : TyOk e) (hw : Widens d e) {b : Bytes} {val : Val} (hen : Enc d b val) {pa : List Nat} {g : Nat}
    (h : Spare d val pa g) : Spare e val pa g := by
  intro q u z n a1 a3 a4 a5
  obtain ⟨t, b1, b2⟩ := typeAt_before hw a3
  have := h q t z n a1 b1 a4 (sz_before hd he hen b1 a3 b2 a4 a5)
  have := b2.hw.le
  omega

theorem cont_widen (hw : Widens t u) : (t.cont = none ∧ u.cont = none) ∨ ∃ c c', t.cont = some c ∧ u.cont = some c' ∧ Widens c c' := by
  cases hw with
  | prim => exact .inl ⟨rfl, rfl⟩
  | str => exact .inr ⟨_, _, rfl, rfl, .refl _⟩
  | tup => exact .inl ⟨rfl, rfl⟩
  | arr _ hc => exact .inr ⟨_, _, rfl, rfl, hc⟩

theorem cont_before (hw : Widens t u) {c' : Dti} (h : u.cont = some c') : ∃ c, t.cont = some c ∧ Widens c c' := by
  rcases cont_widen hw with ⟨_, h2⟩ | ⟨c, c2, h1, h2, h3⟩
  · rw [h2] at h; cases h
  · rw [h2] at h; cases h; exact ⟨c, h1, h3⟩

theorem eltBits_widen (hw : Widens t u) : u.eltBits = t.eltBits := by unfold eltBits; rw [hw.needsValid, hw.size]

theorem GrowPre.widen (hw : Widens t u) {n slots : Nat} (h : GrowPre t n slots) : GrowPre u n slots := by
  refine ⟨by rw [fixedEnd_widen hw]; exact h.1, fun c' hc' hb => ?_⟩
  obtain ⟨c, hc, hcc⟩ := cont_before hw hc'
  rw [eltBits_widen hcc, hw.w]
  exact h.2 c hc (by rw [← hcc.isBit]; exact hb)

/-- A call that is given its data by the caller; a fixed size binary is given whole. -/
def Call.Plain (d : Dti) : Call → Prop
  | .set pa v _ => ∀ t, d.typeAt pa = some t → Full t v
  | .expand _ _ _ _ | .discard _ _ _ => True
  | .copy _ _ _ _ _ => False

theorem Call.pre_widen (he : TyOk e) (hw : Widens d e) {val : Val} (c : Call) (hc : c.Plain d) (h : c.Pre d val) : c.Pre e val := by
  cases c with
  | set pa v inc =>
    intro u hu
    obtain ⟨t, ht, htu⟩ := typeAt_before hw hu
    exact (h t ht).widen (typeAt_ok pa he hu).1 htu
  | expand pa index slots inc =>
    intro u hu hvc
    obtain ⟨t, ht, htu⟩ := typeAt_before hw hu
    exact GrowPre.widen htu (h t ht (by rw [← htu.isVarCount]; exact hvc))
  | discard pa index slots =>
    intro u c' hu hc' hb
    obtain ⟨t, ht, htu⟩ := typeAt_before hw hu
    obtain ⟨c, hc, hcc⟩ := cont_before htu hc'
    rw [eltBits_widen hcc]
    exact h t c ht hc (by rw [← hcc.isBit]; exact hb)
  | copy => exact hc.elim

theorem Call.can_widen {cv : Conv} (hd : TyOk d) (he : TyOk e) (hw : Widens d e) {b : Bytes} {val : Val} (hen : Enc d b val) (c : Call)
    (hc : c.Plain d) (h : c.Can cv d val) : c.Can cv e val := by
  cases c with
  | set pa v inc =>
    obtain ⟨t, ht, h⟩ := h
    obtain ⟨u, hu, htu⟩ := typeAt_after hw ht
    exact ⟨u, hu, SetCond.widen hd he hw hen htu (typeAt_ok pa he hu).1 h⟩
  | expand pa index slots inc =>
    obtain ⟨t, vs, ht, h1, h2, h3, h4, h5⟩ := h
    obtain ⟨u, hu, htu⟩ := typeAt_after hw ht
    refine ⟨u, vs, hu, by rw [htu.isVarCount]; exact h1, h2, h3, ?_, ?_⟩
    · rw [fixedEnd_widen htu, fixedEnd_widen htu]; exact h4
    · rw [fixedEnd_widen htu, fixedEnd_widen htu]; exact Spare.widen hd he hw hen h5
  | discard pa index slots =>
    obtain ⟨t, vs, ht, h1, h2⟩ := h
    obtain ⟨u, hu, htu⟩ := typeAt_after hw ht
    exact ⟨u, vs, hu, by rw [htu.isVarCount]; exact h1, h2⟩
  | copy => exact hc.elim

theorem eval_blank_unique {c c' : Dti} (hc' : TyOk c') (hw : Widens c c') {y y' : Val} (h : EVal c (blank c) y)
    (h' : EVal c' (blank c') y') : y = y' := by
  have hbl : blank c' = blank c := by unfold blank; rw [hw.isNullable, hw.isBit, hw.size]
  rw [hbl] at h'
  cases hb : blank c with
  | null => rw [hb] at h h'; rw [show y = _ from h, show y' = _ from h']
  | bits v => rw [hb] at h h'; rw [show y = _ from h, show y' = _ from h']
  | fixd x =>
    rw [hb] at h h'
    exact val_ext hc' (Nat.le_refl x.length) (Nat.le_refl _) (by rw [List.take_length]; exact enc_widen h hw hc')
      (by rw [List.take_length]; exact h') fun _ => .inl rfl
  | var x =>
    rw [hb] at h h'
    exact val_ext hc' (Nat.le_refl x.length) (Nat.le_refl _) (by rw [List.take_length]; exact enc_widen h hw hc')
      (by rw [List.take_length]; exact h') fun _ => .inl rfl

theorem Full.widen (hw : Widens t u) {v : Datum} (h : Full t v) : Full u v := by
  intro g b hu hv hb
  subst hu
  cases hw with
  | str hh => rw [hh.size]; exact h _ b rfl (by rw [← hh.isVar]; exact hv) hb

theorem Call.does_widen {cv : Conv} (he : TyOk e) (hw : Widens d e) {val val1 val2 : Val} (c : Call) (hc : c.Plain d)
    (h : c.Does cv d val val1) (h' : c.Does cv e val val2) : val1 = val2 := by
  cases c with
  | set pa v inc =>
    obtain ⟨_, t, y, ht, h1, rfl⟩ := h
    obtain ⟨_, u, y', hu, h1', rfl⟩ := h'
    obtain ⟨t', ht', htu⟩ := typeAt_before hw hu
    rw [ht] at ht'; cases ht'
    have huk := (typeAt_ok pa he hu).1
    rw [eden_unique huk (Full.widen htu (hc t ht)) (EDen.widen huk htu h1) h1']
  | expand pa index slots inc =>
    obtain ⟨t, c, ht, h1, h2, _, vs, vs', h3, ⟨_, y0, h4, rfl⟩, rfl⟩ := h
    obtain ⟨u, c', hu, h1', h2', _, ws, ws', h3', ⟨_, y0', h4', rfl⟩, rfl⟩ := h'
    obtain ⟨t', ht', htu⟩ := typeAt_before hw hu
    rw [ht] at ht'; cases ht'
    obtain ⟨c2, hc2, hcc⟩ := cont_before htu h2'
    rw [h2] at hc2; cases hc2
    rw [h3] at h3'; cases h3'
    obtain ⟨_, _, c3, hc3, hck, _⟩ := varCount_cont (typeAt_ok pa he hu).1 h1'
    rw [h2'] at hc3; cases hc3
    rw [eval_blank_unique hck hcc h4 h4']
  | discard pa index slots =>
    obtain ⟨t, ht, h1, _, vs, vs', h3, ⟨_, _, rfl⟩, rfl⟩ := h
    obtain ⟨u, hu, h1', _, ws, ws', h3', ⟨_, _, rfl⟩, rfl⟩ := h'
    rw [h3] at h3'; cases h3'
    rfl
  | copy => exact hc.elim

/-- C98: two tuples hold the same, one of the type and the other of the type with raised maximum sizes. A
sequence of calls that are all answered with 1 on the first is answered with 1 throughout on the second, and
the tuples hold the same afterwards; so they have the same size, and reads and counts at all positions agree. -/
theorem C98_replay {cv : Conv} (hcv : cv.Ok) (hd : Usable d) (he : Usable e) (hw : Widens d e) (cs : List Call) :
    ∀ {m n m' : Bytes} {S T : Nat} {val : Val} {qs : List Bool}, S ≤ m.length → T ≤ n.length → Enc d (m.take S) val →
    Enc e (n.take T) val → (d.isVar = true → d.hdr.maxSize ≤ m.length) → (e.isVar = true → e.hdr.maxSize ≤ n.length) →
    (∀ c ∈ cs, c.Plain d) → Careful cv d val cs → runAll cv d m cs = some (m', qs) → (∀ q ∈ qs, q = true) →
    ∃ n' S' T' val', runAll cv e n cs = some (n', qs) ∧ S' ≤ m'.length ∧ T' ≤ n'.length ∧ Enc d (m'.take S') val' ∧
      Enc e (n'.take T') val' ∧ S' = T' ∧ ReadsLike e m' n' := by
  have hdk := hd.ok
  have hek := he.ok
  induction cs with
  | nil =>
    intro m n m' S T val qs hS hT hem hen _ _ _ _ hrun _
    simp only [runAll, Option.some.injEq, Prod.mk.injEq] at hrun
    obtain ⟨rfl, rfl⟩ := hrun
    obtain ⟨k1, k2⟩ := alike_of hek hS hT (enc_widen hem hw hek) hen
    exact ⟨n, S, T, val, rfl, hS, hT, hem, hen, k1, k2⟩
  | cons c r ih =>
    intro m n m' S T val qs hS hT hem hen hrm hrn hpl hcar hrun hq
    obtain ⟨hp, hrest⟩ := hcar
    have hc := hpl c (List.mem_cons_self ..)
    obtain ⟨m1, q, S1, val1, k1, k2, k3, k4, k5, _⟩ := call_ok hcv hd hS hem hrm c hp
    obtain ⟨n1, q', T1, val2, l1, l2, l3, l4, l5, _⟩ := call_ok hcv he hT hen hrn c (c.pre_widen hek hw hc hp)
    simp only [runAll, k1] at hrun
    cases hr : runAll cv d m1 r with
    | none => rw [hr] at hrun; cases hrun
    | some x =>
      obtain ⟨m2, qs'⟩ := x
      rw [hr] at hrun
      simp only [Option.some.injEq, Prod.mk.injEq] at hrun
      obtain ⟨rfl, rfl⟩ := hrun
      have hq1 : q = true := hq q (List.mem_cons_self ..)
      subst hq1
      rcases k5 with ⟨_, a1, a2⟩ | ⟨h, _⟩
      · have hcan := c.can_widen hdk hek hw hem hc a1
        rcases l5 with ⟨rfl, b1, b2⟩ | ⟨_, h, _⟩
        · have hv := c.does_widen hek hw hc a2 b2
          subst hv
          obtain ⟨n', S', T', val', g1, g2⟩ := ih (by omega) (by omega) k4 l4 (by rw [k2]; exact hrm) (by rw [l2]; exact hrn)
            (fun c hc => hpl c (List.mem_cons_of_mem _ hc)) (hrest true val1 (.inl ⟨rfl, a1, a2⟩) ⟨_, k4⟩) hr
            (fun q h => hq q (List.mem_cons_of_mem _ h))
          exact ⟨n', S', T', val', by simp only [runAll, l1, g1], g2⟩
        · exact absurd hcan h
      · cases h

/-- C98: a single call on one and the same tuple: if it is answered with 1 with the type, then so it is with the
raised maximum sizes, and the two results cannot be told apart. In other words, a call that is refused with the raised maximum
sizes had been refused before, too. -/
theorem C98_call {cv : Conv} (hcv : cv.Ok) (hd : Usable d) (he : Usable e) (hw : Widens d e) {m m1 : Bytes} {S : Nat} {c : Call}
    (h : IsTuple d m S) (hrd : d.isVar = true → d.hdr.maxSize ≤ m.length) (hre : e.isVar = true → e.hdr.maxSize ≤ m.length)
    (hc : c.Plain d) (hp : ∀ val, Enc d (m.take S) val → c.Pre d val) (hrun : c.run cv d m = some (m1, true)) :
    ∃ m2 S', c.run cv e m = some (m2, true) ∧ IsTuple d m1 S' ∧ IsTuple e m2 S' ∧ ReadsLike e m1 m2 := by
  obtain ⟨hS, val, hen⟩ := h
  obtain ⟨m2, S', T', val', g1, g2, g3, g4, g5, g6, g7⟩ := C98_replay (cv := cv) hcv hd he hw [c] (m := m) (n := m) (m' := m1) (qs := [true])
    hS hS hen (enc_widen hen hw he.ok) hrd hre (by simpa using hc) ⟨hp val hen, fun _ _ _ _ => trivial⟩
    (by simp only [runAll, hrun]) (by simp)
  subst g6
  cases hr : c.run cv e m with
  | none => simp [runAll, hr] at g1
  | some x =>
    obtain ⟨a, q⟩ := x
    simp only [runAll, hr, Option.some.injEq, Prod.mk.injEq, List.cons.injEq, and_true] at g1
    obtain ⟨rfl, rfl⟩ := g1
    exact ⟨a, S', rfl, ⟨g2, val', g4⟩, ⟨g3, val', g5⟩, g7⟩

theorem ident_raised (hw : Widens t u) (hv : t.isVar = true) (hm : t.hdr.maxSize < u.hdr.maxSize) (hs : (cname t.hdr.name).length < 64) :
    ident u t = some false := by
  have hvu : u.hdr.isVar = true := by rw [hw.hw.isVar]; exact hv
  have hv : t.hdr.isVar = true := hv
  have hne : u.hdr.maxSize ≠ t.hdr.maxSize := by omega
  obtain ⟨b, hb⟩ : ∃ b, sameName u.hdr.name t.hdr.name = some b := by
    unfold sameName
    split
    · exact ⟨_, rfl⟩
    · rename_i h
      have h : cname u.hdr.name = cname t.hdr.name := by simpa using h
      rw [h, if_pos hs]
      exact ⟨_, rfl⟩
  cases hw with
  | prim => simp only [hdr] at *; cases b <;> simp [ident, hb, hv, hvu, hne]
  | str => simp only [hdr] at *; cases b <;> simp [ident, hb, hv, hvu, hne]
  | tup => simp only [hdr] at *; cases b <;> simp [ident, hb, hv, hvu, hne]
  | arr => simp only [hdr] at *; cases b <;> simp [ident, hb, hv, hvu, hne]

/-- C98: copies are not so. A tuple or array is copied between identical types only, and types with different
maximum sizes are not identical: once the maximum size of an element that is a tuple or array has been raised, the element can no
longer be copied from a tuple of the former type, not even if it is NULL there. -/
theorem C98_copy_refused (cv : Conv) (hd : Usable d) (hw : Widens d e) {m m2 : Bytes} {S2 inc : Nat} {pa : List Nat} (h2 : IsTuple d m2 S2)
    (ht : d.typeAt pa = some t) (hu : e.typeAt pa = some u) (hc : t.isCont = true) (hstr : t.isStr = false) (hv : t.isVar = true)
    (hm : t.hdr.maxSize < u.hdr.maxSize) (hs : (cname t.hdr.name).length < 64) :
    e.setFromTuple cv m pa d m2 pa inc = some (m, false) := by
  obtain ⟨t', ht', htu⟩ := typeAt_before hw hu
  rw [ht] at ht'; cases ht'
  have hid := ident_raised htu hv hm hs
  have hnum : t.isNum = false := by cases t <;> simp_all [isCont, isNum]
  obtain ⟨hS, val, hen⟩ := h2
  have hg := getElem_ok pa hd.ok hS hen
  unfold GetOk at hg
  unfold setFromTuple
  have hr : ∃ r, d.getElem m2 pa = some r := by
    split at hg
    · exact ⟨_, hg⟩
    · rcases hg with ⟨_, hg⟩ | ⟨_, dt, _, hg, _⟩ <;> exact ⟨_, hg⟩
  obtain ⟨r, hr⟩ := hr
  cases r with
  | none => simp [hr]
  | some v => simp [hr, ht, hu, hid, hnum, hstr]

/-! ### Examples -/

/-- The example type with a tuple of at most 901 bytes (instead of 900), a string of at most 255 bytes with its
length (instead of 200) and an array of at most 800 bytes (instead of 300). -/
def exMoreType : Dti := .tup { count := 4, maxSize := 901 }
  [({}, .prim .bitField { nullable := true, size := 5 }),
   ({}, .prim .int { nullable := true, size := 4 }),
   ({}, .str false { varCount := true, maxSize := 255 }),
   ({}, .arr { varCount := true, maxSize := 800 } (.prim .uint { nullable := true, size := 2 }))]

/-- `exMoreType` once finalised. -/
def exMore : Dti := .tup { isFinal := true, isVar := true, count := 4, maxSize := 901, size := 11, bits := 7 }
  [({ off := 1, vbit := 0 }, .prim .bitField { isFinal := true, nullable := true, size := 5 }),
   ({ off := 3, vbit := 6 }, .prim .int { isFinal := true, nullable := true, size := 4 }),
   ({ off := 7 }, .str false { isFinal := true, isVar := true, varCount := true, maxSize := 255, size := 1 }),
   ({ off := 9 }, .arr { isFinal := true, isVar := true, varCount := true, maxSize := 800, size := 2 }
      (.prim .uint { isFinal := true, nullable := true, size := 2 }))]

theorem exMoreType_widens : Widens exType exMoreType := by
  refine FW.tup ⟨rfl, rfl, rfl, rfl, rfl, rfl, rfl, by decide, by decide⟩ ?_
  refine .cons rfl rfl (.refl _) (.cons rfl rfl (.refl _) (.cons rfl rfl ?_ (.cons rfl rfl ?_ .nil)))
  · exact .str ⟨rfl, rfl, rfl, rfl, rfl, rfl, rfl, by decide, by decide⟩
  · exact .arr ⟨rfl, rfl, rfl, rfl, rfl, rfl, rfl, by decide, by decide⟩ (.refl _)

theorem exMore_usable : Usable exMore := by
  refine ⟨exMoreType, ?_, rfl, ?_⟩
  · refine .tup _ _ rfl rfl ?_
    intro f t h
    simp at h
    rcases h with ⟨_, rfl⟩ | ⟨_, rfl⟩ | ⟨_, rfl⟩ | ⟨_, rfl⟩
    · exact .prim _ _ rfl
    · exact .prim _ _ rfl
    · exact .str _ _ rfl
    · exact .arr _ _ rfl (.prim _ _ rfl)
  · refine .tup _ _ ?_ (by decide) (by decide) (by decide)
    intro f t h
    simp at h
    rcases h with ⟨_, rfl⟩ | ⟨_, rfl⟩ | ⟨_, rfl⟩ | ⟨_, rfl⟩
    · exact .prim _ _
    · exact .prim _ _
    · exact .str _ _ (by decide) (by decide)
    · exact .arr _ _ (.prim _ _) (by decide) (by decide)

theorem exMore_widens : Widens exFinal exMore := by
  obtain ⟨e', h1, h2⟩ := C89_finalize exMoreType_widens exType_finalize
  cases h1
  exact h2

/-- The calls on the tuple that are answered with 1. -/
def exPlainCalls : List Call :=
  [.set [3] .empty 20, .expand [3] 0 2 20, .set [3, 1] (.uint 5) 0, .set [2] (.bytes [97, 98]) 20, .discard [3] 0 1]

theorem exPlainCalls_sub : ∀ c ∈ exPlainCalls, c ∈ exCalls := by
  intro c hc
  simp only [exPlainCalls, List.mem_cons, List.not_mem_nil, or_false] at hc
  simp only [exCalls, List.mem_cons]
  rcases hc with rfl | rfl | rfl | rfl | rfl <;> simp

/-- The hypotheses of C98 are met by five calls that set, expand and discard. -/
example : ∃ m1 m2, runAll ieee exFinal exRoomy exPlainCalls = some (m1, List.replicate 5 true) ∧
    runAll ieee exMore exRoomy exPlainCalls = some (m2, List.replicate 5 true) ∧ ReadsLike exMore m1 m2 := by
  obtain ⟨hS, val, hen⟩ := exRoomy_tuple
  have hr : (runAll ieee exFinal exRoomy exPlainCalls).map Prod.snd = some (List.replicate 5 true) := by decide +kernel
  cases hx : runAll ieee exFinal exRoomy exPlainCalls with
  | none => rw [hx] at hr; cases hr
  | some x =>
    obtain ⟨m1, qs⟩ := x
    rw [hx] at hr
    simp only [Option.map_some, Option.some.injEq] at hr
    subst hr
    obtain ⟨m2, _, _, _, h1, _, _, _, _, _, h2⟩ := C98_replay ieee_ok exFinal_usable exMore_usable exMore_widens exPlainCalls
      (m := exRoomy) (n := exRoomy) hS hS hen (enc_widen hen exMore_widens exMore_usable.ok) (fun _ => by decide +kernel)
      (fun _ => by decide +kernel) (by
        intro c hc
        simp only [exPlainCalls, List.mem_cons, List.not_mem_nil, or_false] at hc
        rcases hc with rfl | rfl | rfl | rfl | rfl <;> simp only [Call.Plain] <;> intro t ht g b e1 e2 e3
        all_goals (subst e1; cases ht))
      (C63_modest ieee exFinal_usable exPlainCalls (fun c hc => exCalls_modest c (exPlainCalls_sub c hc)) val ⟨_, hen⟩) hx
      (by intro q hq; exact List.eq_of_mem_replicate hq)
    exact ⟨m1, m2, rfl, h1, h2⟩

/-- The other way round it is not so: a string of 220 bytes can be set with the raised maximum size only. -/
example : exFinal.canSetElem exRoomy 900 (.bytes (List.replicate 220 97)) [2] = some false ∧
    exMore.canSetElem exRoomy 900 (.bytes (List.replicate 220 97)) [2] = some true := by
  constructor <;> decide +kernel

/-- The array of the example type, NULL here, can be copied to a tuple of that type, but not to one of the type with
raised maximum sizes. -/
example : (exFinal.setFromTuple ieee exRoomy [3] exFinal exRoomy [3] 20).map Prod.snd = some true ∧
    exMore.setFromTuple ieee exRoomy [3] exFinal exRoomy [3] 20 = some (exRoomy, false) := by
  refine ⟨by decide +kernel, ?_⟩
  exact C98_copy_refused ieee exFinal_usable exMore_widens exRoomy_tuple (t := _) (u := _) rfl rfl rfl rfl rfl (by decide) (by decide)

end Props
end TS
