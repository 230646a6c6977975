import Verif.PropsHash
/-
C46: for which types the bytes that are hashed determine the value.
-/
namespace TS
namespace Props
open Dti

mutual
/-- Everything in a value of the type has a fixed size, and nothing inside of it can be NULL. (A STRING ends at its first NUL, so
its size is not fixed in this sense; a BINARY of a fixed size is allowed.) -/
def Rigid : Dti → Prop
  | .prim _ _ => True
  | .str bin h => bin = true ∧ h.varCount = false
  | .tup _ fs => RigidAll fs
  | .arr h c => h.varCount = false ∧ c.hdr.nullable = false ∧ Rigid c
def RigidAll : List (Fld × Dti) → Prop
  | [] => True
  | (_, t) :: r => t.hdr.nullable = false ∧ Rigid t ∧ RigidAll r
end

theorem RigidAll.mem {fs : List (Fld × Dti)} (h : RigidAll fs) {f : Fld} {t : Dti} (hm : (f, t) ∈ fs) :
    t.hdr.nullable = false ∧ Rigid t := by
  induction fs with
  | nil => cases hm
  | cons g fs ih =>
    obtain ⟨g, u⟩ := g
    simp only [RigidAll] at h
    rcases List.mem_cons.mp hm with he | he
    · cases he; exact ⟨h.1, h.2.1⟩
    · exact ih h.2.2 he

theorem rigid_fixed {d : Dti} (o : TyOk d) : Rigid d → d.isVar = false := by
  induction o with
  | prim k h _ hv => intro _; exact hv
  | str b h _ hv => intro hr; simp only [Rigid] at hr; simp [isVar, hdr, hv, hr.2]
  | tup h fs _ _ _ _ _ hv _ _ _ _ _ _ ih =>
    intro hr
    simp only [Rigid] at hr
    show h.isVar = false
    rw [hv, List.any_eq_false]
    rintro ⟨f, t⟩ hm
    rw [ih f t hm (hr.mem hm).2]
    simp
  | arr h c _ _ hv _ _ _ _ _ ih =>
    intro hr
    simp only [Rigid] at hr
    show h.isVar = false
    rw [hv, hr.1, ih hr.2.2]
    rfl

/-- `y` is the value of an element of type `t` that is not NULL. -/
def Live (t : Dti) (y : Val) : Prop := Held t y ∧ y ≠ .null

theorem bitBytes_inj {n m size : Nat} (hn : n < 2 ^ size) (hm : m < 2 ^ size) (h : bitBytes n size = bitBytes m size) : n = m := by
  refine Nat.eq_of_testBit_eq (fun i => ?_)
  by_cases hi : i < size
  · have := congrArg (fun l => l[i]?) h
    simp only [bitBytes, List.getElem?_map, List.getElem?_range hi, Option.map_some, Option.some.injEq] at this
    revert this
    cases n.testBit i <;> cases m.testBit i <;> simp
  · rw [Nat.testBit_lt_two_pow (Nat.lt_of_lt_of_le hn (Nat.pow_le_pow_right (by omega) (by omega))),
      Nat.testBit_lt_two_pow (Nat.lt_of_lt_of_le hm (Nat.pow_le_pow_right (by omega) (by omega)))]

theorem enc_not_null {t : Dti} {b : Bytes} {v : Val} (h : Enc t b v) : v ≠ .null := by
  cases h <;> simp

/-- What is inside of a value. -/
theorem live_kids {d : Dti} (o : TyOk d) (hc : d.isCont = true) {b : Bytes} {v : Val} (he : Enc d b v)
    (hr : ∀ n i, CountOk d n → i < n → (posOf d n i).ty.hdr.nullable = false ∧ (posOf d n i).ty.isVar = false) :
    ∃ vs, v = .node vs ∧ CountOk d vs.length ∧ ∀ i y, vs[i]? = some y → Live (posOf d vs.length i).ty y := by
  have hb : Enc d (b.take b.length) v := by simpa using he
  obtain ⟨cs, w, vs, rfl, r, hv⟩ := crep_of_enc o hc (Nat.le_refl _) hb
  refine ⟨vs, rfl, by rw [hv.1]; exact r.countOk, fun i y hy => ?_⟩
  have hi : i < cs.length := by rw [← hv.1]; exact (List.getElem?_eq_some_iff.mp hy).1
  have hat : (Val.node vs).at' [i] = some y := by simp [Val.at', hy]
  have hty := tyAtNoData_pos o hc r.countOk hi
  have hta : d.typeAt [i] = some (posOf d cs.length i).ty := by simp only [typeAt, hty, Option.bind_eq_bind, Option.bind_some]
  rw [hv.1]
  refine ⟨held_at [i] o (.inr (.inr ⟨_, he⟩)) hat hta, ?_⟩
  rintro rfl
  have hci : cs[i]? = some cs[i] := List.getElem?_eq_getElem hi
  have h1 := hv.2 i _ _ hci hy
  have h2 := r.elt i _ hci
  obtain ⟨h3, h4⟩ := hr _ i r.countOk hi
  cases hx : cs[i] with
  | null => rw [hx] at h2; simp [EltAt, needsValid, h3, h4] at h2
  | bits v => rw [hx] at h1; simp [EVal] at h1
  | fixd x => rw [hx] at h1; exact enc_not_null h1 rfl
  | var x => rw [hx] at h1; exact enc_not_null h1 rfl

theorem feeds_inj {fs : List (Fld × Dti)} : ∀ {vs ws : List Val}, vs.length = fs.length → ws.length = fs.length →
    (∀ (i : Nat) (f : Fld) (t : Dti) y z, fs[i]? = some (f, t) → vs[i]? = some y → ws[i]? = some z →
      (feed t y).length = (feed t z).length ∧ (feed t y = feed t z → y = z)) →
    (feeds fs vs).length = (feeds fs ws).length ∧ (feeds fs vs = feeds fs ws → vs = ws) := by
  induction fs with
  | nil => intro vs ws h1 h2 _; simp at h1 h2; subst h1; subst h2; simp
  | cons f fs ih =>
    intro vs ws h1 h2 hk
    obtain ⟨f, t⟩ := f
    match vs, ws, h1, h2 with
    | v :: vs, w :: ws, h1, h2 =>
      obtain ⟨a1, a2⟩ := hk 0 f t v w rfl rfl rfl
      obtain ⟨b1, b2⟩ := ih (vs := vs) (ws := ws) (by simpa using h1) (by simpa using h2)
        (fun i f t y z e1 e2 e3 => hk (i + 1) f t y z e1 e2 e3)
      simp only [feeds, List.length_append, a1, b1, true_and]
      intro heq
      obtain ⟨c1, c2⟩ := List.append_inj heq a1
      rw [a2 c1, b2 c2]

theorem flat_inj {t : Dti} : ∀ {vs ws : List Val}, vs.length = ws.length →
    (∀ y ∈ vs, ∀ z ∈ ws, (feed t y).length = (feed t z).length ∧ (feed t y = feed t z → y = z)) →
    (vs.map (feed t)).flatten.length = (ws.map (feed t)).flatten.length ∧ ((vs.map (feed t)).flatten = (ws.map (feed t)).flatten → vs = ws)
  | [], [], _, _ => by simp
  | v :: vs, w :: ws, h1, hk => by
    obtain ⟨a1, a2⟩ := hk v (by simp) w (by simp)
    obtain ⟨b1, b2⟩ := flat_inj (vs := vs) (ws := ws) (by simpa using h1) (fun y hy z hz => hk y (by simp [hy]) z (by simp [hz]))
    simp only [List.map_cons, List.flatten_cons, List.length_append, a1, b1, true_and]
    intro heq
    obtain ⟨c1, c2⟩ := List.append_inj heq a1
    rw [a2 c1, b2 c2]

/-- Values of a rigid type take the same number of bytes, and the bytes determine the value. -/
theorem feed_inj {d : Dti} (o : TyOk d) : Rigid d → ∀ {y z : Val}, Live d y → Live d z →
    (feed d y).length = (feed d z).length ∧ (feed d y = feed d z → y = z) := by
  induction o with
  | prim k h a1 a2 a3 a4 a5 a6 a7 =>
    intro _ y z hy hz
    have form : ∀ {y}, Live (.prim k h) y → (∃ n, y = .bits n ∧ k = .bitField ∧ n < 2 ^ h.size) ∨ ∃ b, y = .raw b ∧ k ≠ .bitField ∧ b.length = h.size := by
      rintro y ⟨hy | ⟨n, h1, h2, h3⟩ | ⟨b, hb⟩, h0⟩
      · exact absurd hy h0
      · left; refine ⟨n, h1, ?_, h3⟩; cases k <;> first | rfl | simp [isBit] at h2
      · obtain ⟨c1, c2, c3⟩ := enc_prim hb
        exact .inr ⟨b, c3, c1, c2⟩
    rcases form hy with ⟨n, rfl, hk, hn⟩ | ⟨b, rfl, hk, hb⟩ <;> rcases form hz with ⟨m, rfl, hk', hm⟩ | ⟨c, rfl, hk', hc⟩
    · simp only [feed_bits, hdr]
      exact ⟨by simp [bitBytes], fun h => by rw [bitBytes_inj hn hm h]⟩
    · exact absurd hk hk'
    · exact absurd hk' hk
    · simp only [feed]
      exact ⟨by rw [hb, hc], fun h => by rw [h]⟩
  | str bin h a1 a2 a3 a4 =>
    intro hr y z hy hz
    simp only [Rigid] at hr
    have ok : TyOk (.str bin h) := .str bin h a1 a2 a3 a4
    have form : ∀ {y}, Live (.str bin h) y → ∃ x, y = chars x ∧ x.length = h.count := by
      rintro y ⟨hy | ⟨n, h1, h2, h3⟩ | ⟨b, hb⟩, h0⟩
      · exact absurd hy h0
      · simp [isBit] at h2
      · have hb' : Enc (.str bin h) (b.take b.length) y := by simpa using hb
        obtain ⟨cs, w, vs, rfl, r, hv⟩ := crep_of_enc ok rfl (Nat.le_refl _) hb'
        obtain ⟨s1, s2⟩ := str_vals r hv
        refine ⟨_, s1, ?_⟩
        rw [rd_length _ _ _ s2]
        exact r.cntF (by simp [isVarCount, a2, hr.2])
    obtain ⟨x, rfl, hx⟩ := form hy
    obtain ⟨u, rfl, hu⟩ := form hz
    have hf : ∀ x, feed (.str bin h) (chars x) = x := by
      intro x
      simp only [chars, feed, hr.1, if_true]
      exact byteOf_chars x rfl
    rw [hf, hf]
    exact ⟨by rw [hx, hu], fun h => by rw [h]⟩
  | tup h fs a1 a2 a3 a4 a5 a6 a7 a8 a9 a10 a11 a12 ih =>
    intro hr y z hy hz
    simp only [Rigid] at hr
    have ok : TyOk (.tup h fs) := .tup h fs a1 a2 a3 a4 a5 a6 a7 a8 a9 a10 a11 a12
    have pos : ∀ n i, CountOk (.tup h fs) n → i < n → ∃ f t, fs[i]? = some (f, t) ∧ (posOf (.tup h fs) n i).ty = t := by
      intro n i hn hi
      have hn : n = h.count := hn rfl
      have hx := List.getElem?_eq_getElem (l := fs) (i := i) (by omega)
      refine ⟨fs[i].1, fs[i].2, hx, ?_⟩
      simp [posOf, hx]
    have form : ∀ {y}, Live (.tup h fs) y → ∃ vs, y = .node vs ∧ vs.length = fs.length ∧
        ∀ (i : Nat) f t y, fs[i]? = some (f, t) → vs[i]? = some y → Live t y := by
      rintro y ⟨hy | ⟨n, h1, h2, h3⟩ | ⟨b, hb⟩, h0⟩
      · exact absurd hy h0
      · simp [isBit] at h2
      · obtain ⟨vs, rfl, hn, hk⟩ := live_kids ok rfl hb (by
          intro n i hn hi
          obtain ⟨f, t, h1, h2⟩ := pos n i hn hi
          rw [h2]
          have hm := List.mem_of_getElem? h1
          exact ⟨(hr.mem hm).1, rigid_fixed (a3 f t hm) (hr.mem hm).2⟩)
        have hl : vs.length = h.count := hn rfl
        refine ⟨vs, rfl, by omega, fun i f t y hf hv => ?_⟩
        have hi := (List.getElem?_eq_some_iff.mp hv).1
        obtain ⟨f', t', h1, h2⟩ := pos vs.length i hn hi
        rw [hf] at h1; cases h1
        rw [← h2]
        exact hk i y hv
    obtain ⟨vs, rfl, hl, hv⟩ := form hy
    obtain ⟨ws, rfl, hl', hw⟩ := form hz
    obtain ⟨g1, g2⟩ := feeds_inj (fs := fs) hl hl' (fun i f t y z e1 e2 e3 =>
      have hm := List.mem_of_getElem? e1
      ih f t hm (hr.mem hm).2 (hv i f t y e1 e2) (hw i f t z e1 e3))
    simp only [feed]
    exact ⟨g1, fun h => by rw [g2 h]⟩
  | arr h c a1 a2 a3 a4 a5 a6 a7 a8 ih =>
    intro hr y z hy hz
    simp only [Rigid] at hr
    have ok : TyOk (.arr h c) := .arr h c a1 a2 a3 a4 a5 a6 a7 a8
    have pos : ∀ n i, (posOf (.arr h c) n i).ty = c := by
      intro n i
      simp only [posOf]
      split
      · split <;> rfl
      · rfl
    have form : ∀ {y}, Live (.arr h c) y → ∃ vs, y = .node vs ∧ vs.length = h.count ∧ ∀ y ∈ vs, Live c y := by
      rintro y ⟨hy | ⟨n, h1, h2, h3⟩ | ⟨b, hb⟩, h0⟩
      · exact absurd hy h0
      · simp [isBit] at h2
      · obtain ⟨vs, rfl, hn, hk⟩ := live_kids ok rfl hb (by
          intro n i _ _
          rw [pos]
          exact ⟨hr.2.1, rigid_fixed a2 hr.2.2⟩)
        refine ⟨vs, rfl, hn (by simp [isVarCount, hr.1]), fun y hy => ?_⟩
        obtain ⟨i, hi⟩ := List.mem_iff_getElem?.mp hy
        have := hk i y hi
        rwa [pos] at this
    obtain ⟨vs, rfl, hl, hv⟩ := form hy
    obtain ⟨ws, rfl, hl', hw⟩ := form hz
    obtain ⟨g1, g2⟩ := flat_inj (t := c) (vs := vs) (ws := ws) (by omega) (fun y hy z hz => ih hr.2.2 (hv y hy) (hw z hz))
    simp only [feed]
    exact ⟨g1, fun h => by rw [g2 h]⟩

/-- C46. If everything in a type has a fixed size and nothing in it can be NULL, then tuples that are hashed by the same bytes have the
same elements: every getter, at every position, gives the same for both (for containers, a pointer to it). So the only collisions are
those of the hash function. -/
theorem C46_tells_apart {d : Dti} (hu : Usable d) (hr : Rigid d) {m1 m2 : Bytes} {S1 S2 : Nat} (h1 : IsTuple d m1 S1) (h2 : IsTuple d m2 S2)
    (heq : hashTuple cat m1 d [[]] [] = hashTuple cat m2 d [[]] []) (pa : List Nat) : Same (d.getElem m1 pa) (d.getElem m2 pa) := by
  obtain ⟨l1, v1, e1⟩ := h1
  obtain ⟨l2, v2, e2⟩ := h2
  have hcat : ∀ (a b : Bytes), hashBytes cat a b = a ++ b := by
    intro a b
    unfold hashBytes
    induction b generalizing a with
    | nil => simp
    | cons x b ih => rw [List.foldl_cons, ih]; simp [cat]
  rw [hashTuple_feed hu.ok l1 e1, hashTuple_feed hu.ok l2 e2, hcat, hcat] at heq
  simp [posFeed, typeAt, Val.at'] at heq
  have := (feed_inj hu.ok hr ⟨.inr (.inr ⟨_, e1⟩), enc_not_null e1⟩ ⟨.inr (.inr ⟨_, e2⟩), enc_not_null e2⟩).2 heq
  subst this
  exact getElem_same hu.ok hu.ok l1 e1 l2 e2 rfl rfl

/-- An array of two UINTs of two bytes. -/
def exTwo16 : Dti := .arr { isFinal := true, count := 2, size := 4 } (.prim .uint { isFinal := true, size := 2 })

theorem exTwo16_usable : Usable exTwo16 :=
  ⟨.arr { count := 2 } (.prim .uint { size := 2 }), .arr _ _ rfl (.prim _ _ rfl), rfl, .arr _ _ (.prim _ _) (by decide) (by decide)⟩

theorem exTwo16_tuple {m : Bytes} (h : 4 ≤ m.length) : IsTuple exTwo16 m 4 :=
  ⟨h, fixed_enc exTwo16 _ exTwo16_usable.ok rfl rfl (by simp [exTwo16, hdr]; omega)⟩

example : Usable exTwo16 ∧ Rigid exTwo16 ∧ IsTuple exTwo16 [7, 0, 0, 0, 9] 4 ∧ IsTuple exTwo16 [7, 0, 0, 0, 1] 4 ∧
    hashTuple cat [7, 0, 0, 0, 9] exTwo16 [[]] [] = hashTuple cat [7, 0, 0, 0, 1] exTwo16 [[]] [] ∧
    hashTuple cat [7, 0, 0, 0, 9] exTwo16 [[]] [] ≠ hashTuple cat [7, 1, 0, 0, 9] exTwo16 [[]] [] :=
  ⟨exTwo16_usable, by simp [exTwo16, Rigid, hdr], exTwo16_tuple (by decide), exTwo16_tuple (by decide), by decide +kernel, by decide +kernel⟩

end Props
end TS
