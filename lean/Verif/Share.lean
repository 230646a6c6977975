import Verif.PropsFinState
/-
`finalize_type_info` on types in memory, where types may share parts.
-/
namespace TS
namespace Share
open Dti

/-- A `struct data_type_info` in memory, /repo/inc/tuplestore/data_type_info.h: as `Dti`, but with pointers to the containees. -/
inductive Node where
  | prim (k : PKind) (h : Hdr)
  | str (bin : Bool) (h : Hdr)
  | tup (h : Hdr) (fs : List (Fld × Nat))
  | arr (h : Hdr) (c : Nat)

/-- The types in memory, by address. -/
abbrev Store := Nat → Option Node

namespace Node

/-- The pointers in a type. (That of STRING and BINARY is set by `finalize_type_info` and always to the same static type.) -/
def ptrs : Node → List Nat
  | .tup _ fs => fs.map (·.2)
  | .arr _ c => [c]
  | _ => []

/-- The members of a type itself, without what it points to. -/
def top : Node → Dti
  | .prim k h => .prim k h
  | .str b h => .str b h
  | .tup h _ => .tup h []
  | .arr h _ => .arr h (.prim .uint {})

end Node

def upd (H : Store) (a : Nat) (n : Node) : Store := fun b => if b = a then some n else H b

/-! ### The function -/

/-- The first loop over the containees, /repo/src/data_type_info.c:129-156; `rec` is `finalize_type_info`. The result: the
containees, `is_variable_sized`, `prefix_bitmap_size_in_bits`, whether the end was reached, and the memory. (The members of the
tuple itself are in registers here: no other type is looked at in between that could be the tuple itself, unless the type contains
itself, and then the recursion does not end.) -/
def finAllH (rec : Nat → Store → Option (Store × Bool)) :
    List (Fld × Nat) → Bool → Nat → Store → Option (List (Fld × Nat) × Bool × Nat × Bool × Store)
  | [], v, b, H => some ([], v, b, true, H)
  | (f, p) :: r, v, b, H => do
    let (H, ok) ← rec p H
    if !ok then pure ((f, p) :: r, v, b, false, H)
    else
      let t := (← H p).top
      let f1 := if t.needsValid then { f with vbit := b } else f
      let b1 := if t.needsValid then b + 1 else b
      let f2 := if t.isBit then { f1 with off := b1 } else f1
      let b2 := if t.isBit then b1 + t.hdr.size else b1
      let (r, v, b, ok, H) ← finAllH rec r (v || t.isVar) b2 H
      pure ((f2, p) :: r, v, b, ok, H)

/-- The second loop, /repo/src/data_type_info.c:168-187, on the containees in memory. -/
def offsH (w : Nat) (H : Store) : Nat → List (Fld × Nat) → Option (List (Fld × Nat) × Nat)
  | s, [] => some ([], s)
  | s, (f, p) :: r => do
    let t := (← H p).top
    if t.isBit then
      let (r', e) ← offsH w H s r
      pure ((f, p) :: r', e)
    else
      let (r', e) ← offsH w H (w32 (s + if t.isVar then w else t.hdr.size)) r
      pure (({ f with off := s }, p) :: r', e)

/-- The end of the ARRAY case, /repo/src/data_type_info.c:200-239, once the containee `c` is finalised: the members of the array
and the return value. -/
def arrH (h : Hdr) (c : Dti) : Hdr × Bool :=
  let h := { h with isVar := h.varCount || c.isVar }
  if !h.varCount && h.count = 0 then (h, false)
  else
    let h := { h with bits := arrBits h c }
    if !h.isVar then ({ h with size := arrSize h c, isFinal := true }, true)
    else
      let h := { h with size := arrMin h c }
      if h.size > h.maxSize then (h, false) else ({ h with isFinal := true }, true)

/-- The end of the STRING and BINARY cases, /repo/src/data_type_info.c:98-110. -/
def strH (h : Hdr) : Hdr × Bool :=
  let h := { h with isVar := h.varCount }
  if !h.varCount && h.count = 0 then (h, false)
  else
    let h := { h with bits := 0 }
    if h.isVar then
      let h := { h with size := vsz h.maxSize }
      if h.size > h.maxSize then (h, false) else ({ h with isFinal := true }, true)
    else ({ h with size := h.count, isFinal := true }, true)

/-- `finalize_type_info`, /repo/src/data_type_info.c:43-246, on the type at address `a`: the memory afterwards and the return
value. `u1` is the address of `UINT_NON_NULLABLE[1]`. `none` is a pointer to no type, or a recursion deeper than the first argument. -/
def finH (u1 : Nat) : Nat → Nat → Store → Option (Store × Bool)
  | 0, _, _ => none
  | f + 1, a, H => do
    match ← H a with
    | .prim k h =>
      if h.isFinal then pure (H, true)
      else
        match finPrim k h with
        | some d => pure (upd H a (.prim k d.hdr), true)
        | none => pure (H, false)
    | .str b h =>
      if h.isFinal then pure (H, true)
      else do
        let (H, ok) ← finH u1 f u1 H
        if !ok then pure (H, false)
        else pure (upd H a (.str b (strH h).1), (strH h).2)
    | .tup h fs =>
      if h.isFinal then pure (H, true)
      else if h.count = 0 then pure (H, false)
      else do
        let (fs, v, b, ok, H) ← finAllH (finH u1 f) fs false 0 H
        let h := { h with isVar := v, bits := b, varCount := false }
        if !ok then pure (upd H a (.tup h fs), false)
        else do
          let (fs, e) ← offsH (vsz h.maxSize) H (w32 ((if h.isVar then vsz h.maxSize else 0) + bitmapBytes h.bits)) fs
          let h := { h with size := e }
          if h.isVar && h.size > h.maxSize then pure (upd H a (.tup h fs), false)
          else pure (upd H a (.tup { h with isFinal := true } fs), true)
    | .arr h c =>
      if h.isFinal then pure (H, true)
      else do
        let (H, ok) ← finH u1 f c H
        if !ok then pure (H, false)
        else do
          let t := (← H c).top
          pure (upd H a (.arr (arrH h t).1 c), (arrH h t).2)

/-! ### Unfolding -/

mutual
/-- The type at address `a`, with everything it points to, is `t`. -/
def Unf (H : Store) : Nat → Dti → Prop
  | a, .prim k h => H a = some (.prim k h)
  | a, .str b h => H a = some (.str b h)
  | a, .tup h gs => ∃ fs, H a = some (.tup h fs) ∧ UnfAll H fs gs
  | a, .arr h c => ∃ p, H a = some (.arr h p) ∧ Unf H p c
def UnfAll (H : Store) : List (Fld × Nat) → List (Fld × Dti) → Prop
  | fs, [] => fs = []
  | fs, (f, t) :: r => ∃ p s, fs = (f, p) :: s ∧ Unf H p t ∧ UnfAll H s r
end

mutual
def size : Dti → Nat
  | .prim .. => 1
  | .str .. => 1
  | .tup _ gs => 1 + sizeAll gs
  | .arr _ c => 1 + size c
def sizeAll : List (Fld × Dti) → Nat
  | [] => 0
  | (_, t) :: r => size t + sizeAll r
end

/-- The depth of the recursion that finalising needs. -/
def deep : Dti → Nat
  | .prim .. => 1
  | .str .. => 2
  | .tup _ gs => 1 + deepAll gs
  | .arr _ c => 1 + deep c
where deepAll : List (Fld × Dti) → Nat
  | [] => 0
  | (_, t) :: r => max (deep t) (deepAll r)

theorem deep_mem : ∀ {gs : List (Fld × Dti)} {f : Fld} {t : Dti}, (f, t) ∈ gs → deep t ≤ deep.deepAll gs
  | (f0, t0) :: r, f, t, hm => by
    simp only [deep.deepAll]
    rcases List.mem_cons.mp hm with h | h
    · cases h; omega
    · have := deep_mem h; omega

mutual
theorem deep_decl : ∀ t, deep (declOf t) = deep t
  | .prim .. => rfl
  | .str .. => rfl
  | .tup h gs => by simp only [declOf, deep, deepAll_decl gs]
  | .arr h c => by simp only [declOf, deep, deep_decl c]
theorem deepAll_decl : ∀ gs, deep.deepAll (declsOf gs) = deep.deepAll gs
  | [] => rfl
  | (f, t) :: r => by simp only [declsOf, deep.deepAll, deep_decl t, deepAll_decl r]
end

/-- What can be reached from a type. -/
inductive Reach (H : Store) : Nat → Nat → Prop
  | refl (a) : Reach H a a
  | step {a n p b} : H a = some n → p ∈ n.ptrs → Reach H p b → Reach H a b

theorem unf_top {H : Store} {a : Nat} {t : Dti} (h : Unf H a t) : ∃ n, H a = some n ∧ n.top.hdr = t.hdr ∧ n.top.isBit = t.isBit ∧
    n.top.isVar = t.isVar ∧ n.top.needsValid = t.needsValid := by
  cases t with
  | prim k g => exact ⟨_, h, rfl, rfl, rfl, rfl⟩
  | str b g => exact ⟨_, h, rfl, rfl, rfl, rfl⟩
  | tup g gs => obtain ⟨fs, h, _⟩ := h; exact ⟨_, h, rfl, rfl, rfl, rfl⟩
  | arr g c => obtain ⟨p, h, _⟩ := h; exact ⟨_, h, rfl, rfl, rfl, rfl⟩

theorem unfAll_det {H : Store} : ∀ {gs gs' : List (Fld × Dti)} {fs : List (Fld × Nat)},
    (∀ f t, (f, t) ∈ gs → ∀ {p s}, Unf H p t → Unf H p s → t = s) → UnfAll H fs gs → UnfAll H fs gs' → gs = gs'
  | [], gs', fs, _, h1, h2 => by
    simp only [UnfAll] at h1
    subst h1
    cases gs' with
    | nil => rfl
    | cons x r => obtain ⟨f, t⟩ := x; obtain ⟨_, _, h, _⟩ := h2; cases h
  | (f, t) :: r, gs', fs, ih, h1, h2 => by
    obtain ⟨p, s, rfl, h3, h4⟩ := h1
    cases gs' with
    | nil => simp only [UnfAll] at h2; cases h2
    | cons x r' =>
      obtain ⟨f', t'⟩ := x
      obtain ⟨p', s', he, h5, h6⟩ := h2
      cases he
      rw [ih f t (by simp) h3 h5, unfAll_det (fun f t hm => ih f t (by simp [hm])) h4 h6]

theorem unf_det {H : Store} : ∀ {t s : Dti} {a : Nat}, Unf H a t → Unf H a s → t = s := by
  intro t
  induction t using Dti.ind with
  | hp k h =>
    intro s a h1 h2
    simp only [Unf] at h1
    cases s with
    | tup g gs => obtain ⟨_, h2, _⟩ := h2; rw [h1] at h2; cases h2
    | arr g c => obtain ⟨_, h2, _⟩ := h2; rw [h1] at h2; cases h2
    | _ => simp only [Unf] at h2; rw [h1] at h2; cases h2; try rfl
  | hs b h =>
    intro s a h1 h2
    simp only [Unf] at h1
    cases s with
    | tup g gs => obtain ⟨_, h2, _⟩ := h2; rw [h1] at h2; cases h2
    | arr g c => obtain ⟨_, h2, _⟩ := h2; rw [h1] at h2; cases h2
    | _ => simp only [Unf] at h2; rw [h1] at h2; cases h2; try rfl
  | ht h gs ih =>
    intro s a h1 h2
    simp only [Unf] at h1
    obtain ⟨fs, h1, h3⟩ := h1
    cases s with
    | tup g gs' =>
      simp only [Unf] at h2
      obtain ⟨fs', h2, h4⟩ := h2
      rw [h1] at h2; cases h2
      rw [unfAll_det (fun f t hm => ih f t hm) h3 h4]
    | arr g c => obtain ⟨_, h2, _⟩ := h2; rw [h1] at h2; cases h2
    | _ => simp only [Unf] at h2; rw [h1] at h2; cases h2
  | ha h c ih =>
    intro s a h1 h2
    simp only [Unf] at h1
    obtain ⟨p, h1, h3⟩ := h1
    cases s with
    | arr g c' =>
      simp only [Unf] at h2
      obtain ⟨p', h2, h4⟩ := h2
      rw [h1] at h2; cases h2
      rw [ih h3 h4]
    | tup g gs => obtain ⟨_, h2, _⟩ := h2; rw [h1] at h2; cases h2
    | _ => simp only [Unf] at h2; rw [h1] at h2; cases h2

theorem unfAll_mem {H : Store} : ∀ {gs : List (Fld × Dti)} {fs : List (Fld × Nat)} {p : Nat}, UnfAll H fs gs → p ∈ fs.map (·.2) →
    ∃ f t, (f, t) ∈ gs ∧ Unf H p t
  | [], fs, p, h, hm => by simp only [UnfAll] at h; subst h; cases hm
  | (f, t) :: r, fs, p, h, hm => by
    obtain ⟨q, s, rfl, h1, h2⟩ := h
    simp only [List.map_cons, List.mem_cons] at hm
    rcases hm with rfl | hm
    · exact ⟨f, t, by simp, h1⟩
    · obtain ⟨f', t', h3, h4⟩ := unfAll_mem h2 hm
      exact ⟨f', t', by simp [h3], h4⟩

theorem size_mem : ∀ {gs : List (Fld × Dti)} {f : Fld} {t : Dti}, (f, t) ∈ gs → size t ≤ sizeAll gs
  | (f0, t0) :: r, f, t, hm => by
    simp only [sizeAll]
    rcases List.mem_cons.mp hm with h | h
    · cases h; omega
    · have := size_mem h; omega

/-- What a type points to is smaller. -/
theorem unf_ptr {H : Store} {a p : Nat} {n : Node} {t : Dti} (h : Unf H a t) (hn : H a = some n) (hp : p ∈ n.ptrs) :
    ∃ s, Unf H p s ∧ size s < size t := by
  cases t with
  | prim k g => simp only [Unf] at h; rw [hn] at h; cases h; cases hp
  | str b g => simp only [Unf] at h; rw [hn] at h; cases h; cases hp
  | tup g gs =>
    obtain ⟨fs, h, h2⟩ := h
    rw [hn] at h; cases h
    obtain ⟨f, t, h3, h4⟩ := unfAll_mem h2 hp
    have := size_mem h3
    exact ⟨t, h4, by simp only [size]; omega⟩
  | arr g c =>
    obtain ⟨q, h, h2⟩ := h
    rw [hn] at h; cases h
    simp only [Node.ptrs, List.mem_singleton] at hp
    subst hp
    exact ⟨c, h2, by simp only [size]; omega⟩

theorem reach_size {H : Store} {a b : Nat} (hr : Reach H a b) : ∀ {t : Dti}, Unf H a t → ∃ s, Unf H b s ∧ size s ≤ size t := by
  induction hr with
  | refl a => intro t h; exact ⟨t, h, Nat.le_refl _⟩
  | step hn hp _ ih =>
    intro t h
    obtain ⟨s, h1, h2⟩ := unf_ptr h hn hp
    obtain ⟨u, h3, h4⟩ := ih h1
    exact ⟨u, h3, by omega⟩

/-- No type with a finite unfolding can be reached from what it points to. -/
theorem not_reach_up {H : Store} {a p : Nat} {n : Node} {t : Dti} (h : Unf H a t) (hn : H a = some n) (hp : p ∈ n.ptrs) : ¬ Reach H p a := by
  intro hr
  obtain ⟨s, h1, h2⟩ := unf_ptr h hn hp
  obtain ⟨u, h3, h4⟩ := reach_size hr h1
  rw [unf_det h3 h] at h4
  omega

/-- The unfolding depends on nothing but what can be reached. -/
theorem unf_local {H K : Store} : ∀ {t : Dti} {a : Nat}, (∀ b, Reach H a b → K b = H b) → Unf H a t → Unf K a t := by
  intro t
  induction t using Dti.ind with
  | hp k h => intro a hk h1; simp only [Unf] at *; rw [hk a (.refl a)]; exact h1
  | hs b h => intro a hk h1; simp only [Unf] at *; rw [hk a (.refl a)]; exact h1
  | ht h gs ih =>
    intro a hk h1
    simp only [Unf] at *
    obtain ⟨fs, h1, h2⟩ := h1
    refine ⟨fs, by rw [hk a (.refl a)]; exact h1, ?_⟩
    have hk2 : ∀ p, p ∈ fs.map (·.2) → ∀ b, Reach H p b → K b = H b := fun p hp b hb => hk b (.step h1 hp hb)
    clear h1 hk
    induction gs generalizing fs with
    | nil => exact h2
    | cons x r ihr =>
      obtain ⟨f, t⟩ := x
      simp only [UnfAll] at *
      obtain ⟨p, s, rfl, h3, h4⟩ := h2
      exact ⟨p, s, rfl, ih f t (by simp) (hk2 p (by simp)) h3,
        ihr (fun f t hm => ih f t (by simp [hm])) s h4 (fun p hp => hk2 p (by simp at hp ⊢; exact .inr hp))⟩
  | ha h c ih =>
    intro a hk h1
    simp only [Unf] at *
    obtain ⟨p, h1, h2⟩ := h1
    exact ⟨p, by rw [hk a (.refl a)]; exact h1, ih (fun b hb => hk b (.step h1 (by simp [Node.ptrs]) hb)) h2⟩

/-! ### What finalising does to other types -/

/-- `e` is `d` after some calls of `finalize_type_info` on parts of it: it is declared the same, and finalising it comes to the same. -/
structure Adv (d e : Dti) : Prop where
  half : Half d e
  fin : finalize e = finalize d
  decl : declOf e = declOf d

theorem Adv.refl {d : Dti} (h : Raw d) : Adv d d := ⟨half_refl h, rfl, rfl⟩

theorem Adv.raw {d e : Dti} (h : Adv d e) (hr : Raw d) : Raw e := half_raw hr h.half

theorem Fini.of_half {d e : Dti} (hd : d.hdr.isFinal = true) (h : Half d e) : Fini d e := by
  cases d with
  | prim k g => rcases h with h | ⟨_, h⟩; exact h; exact absurd hd (by simp [hdr, h])
  | str b g => rcases h with h | ⟨_, _, h, _⟩; exact h; exact absurd hd (by simp [hdr, h.fin])
  | tup g fs => simp only [Half] at h; rcases h with h | ⟨_, _, _, h, _⟩; exact h; exact absurd hd (by simp [hdr, h.fin])
  | arr g c => simp only [Half] at h; rcases h with h | ⟨_, _, _, h, _⟩; exact h; exact absurd hd (by simp [hdr, h.fin])

/-- A finalised type is never changed. -/
theorem Adv.made {d e : Dti} (h : Adv d e) (hd : Made d) : e = d := by
  obtain ⟨d', _, h2, _⟩ := Fini.of_half hd.final h.half
  have := h.fin
  rw [h2.fix, hd.fix] at this
  exact Option.some.inj this

theorem halfs_trans {as bs cs : List (Fld × Dti)} (ih : ∀ f t, (f, t) ∈ as → ∀ {e u}, Half t e → Half e u → Half t u)
    (h1 : Halfs as bs) (h2 : Halfs bs cs) : Halfs as cs := by
  induction as generalizing bs cs with
  | nil => simp only [Halfs] at h1; subst h1; exact h2
  | cons x r ihr =>
    obtain ⟨f, t⟩ := x
    simp only [Halfs] at h1
    obtain ⟨f1, t1, s, rfl, k1, k2, k3⟩ := h1
    simp only [Halfs] at h2
    obtain ⟨f2, t2, s2, rfl, m1, m2, m3⟩ := h2
    exact ⟨f2, t2, s2, rfl, m1.trans k1, ih f t (by simp) k2 m2, ihr (fun f t hm => ih f t (by simp [hm])) k3 m3⟩

theorem fini_trans {d e u : Dti} (h1 : Half d e) (h2 : Fini e u) : Fini d u := by
  obtain ⟨e', a1, a2, a3⟩ := h2
  obtain ⟨d', b1, b2⟩ := (half_agree h1).2 e' a1
  exact ⟨d', b1, a2, a3.trans b2⟩

theorem fini_half {d e u : Dti} (h1 : Fini d e) (h2 : Half e u) : Fini d u := by
  obtain ⟨d', a1, a2, a3⟩ := h1
  obtain ⟨e', b1, b2, b3⟩ := Fini.of_half a2.final h2
  rw [a2.fix] at b1; cases b1
  exact ⟨d', a1, b2, b3.trans a3⟩

theorem half_trans : ∀ {d e u : Dti}, Half d e → Half e u → Half d u := by
  intro d
  induction d using Dti.ind with
  | hp k h =>
    intro e u h1 h2
    rcases h1 with h1 | ⟨rfl, h1⟩
    · exact half_of_done (fini_half h1 h2)
    · exact h2
  | hs b h =>
    intro e u h1 h2
    have h0 := h1
    rcases h1 with h1 | ⟨h', rfl, h1, hv⟩
    · exact half_of_done (fini_half h1 h2)
    · rcases h2 with h2 | ⟨h'', rfl, h2, hv2⟩
      · exact half_of_done (fini_trans h0 h2)
      · exact .inr ⟨h'', rfl, ⟨h1.fin, h2.fin', h2.name.trans h1.name, h2.nullable.trans h1.nullable, h2.maxSize.trans h1.maxSize, h2.count.trans h1.count⟩, hv2.trans hv⟩
  | ht h fs ih =>
    intro e u h1 h2
    have h0 := h1
    simp only [Half] at h1
    rcases h1 with h1 | ⟨h', gs, rfl, h1, hs⟩
    · exact half_of_done (fini_half h1 h2)
    · simp only [Half] at h2
      rcases h2 with h2 | ⟨h'', gs2, rfl, h2, hs2⟩
      · exact half_of_done (fini_trans h0 h2)
      · simp only [Half]
        exact .inr ⟨h'', gs2, rfl, ⟨h1.fin, h2.fin', h2.name.trans h1.name, h2.nullable.trans h1.nullable, h2.maxSize.trans h1.maxSize, h2.count.trans h1.count⟩,
          halfs_trans ih hs hs2⟩
  | ha h c ih =>
    intro e u h1 h2
    have h0 := h1
    simp only [Half] at h1
    rcases h1 with h1 | ⟨h', c', rfl, h1, hv, hs⟩
    · exact half_of_done (fini_half h1 h2)
    · simp only [Half] at h2
      rcases h2 with h2 | ⟨h'', c2, rfl, h2, hv2, hs2⟩
      · exact half_of_done (fini_trans h0 h2)
      · simp only [Half]
        exact .inr ⟨h'', c2, rfl, ⟨h1.fin, h2.fin', h2.name.trans h1.name, h2.nullable.trans h1.nullable, h2.maxSize.trans h1.maxSize, h2.count.trans h1.count⟩,
          hv2.trans hv, ih hs hs2⟩

theorem Adv.trans {d e u : Dti} (h1 : Adv d e) (h2 : Adv e u) : Adv d u :=
  ⟨half_trans h1.half h2.half, h2.fin.trans h1.fin, h2.decl.trans h1.decl⟩

theorem made_fields {h : Hdr} {gs : List (Fld × Dti)} (hm : Made (.tup h gs)) : ∀ f t, (f, t) ∈ gs → Made t := by
  generalize he : Dti.tup h gs = e at hm
  cases hm with
  | prim h1 => rw [(finPrim_eq h1).1] at he; cases he
  | str h1 => rw [(finStr_eq h1).1] at he; cases he
  | arr _ h1 => rw [(finArr_iff.mp h1).2.2] at he; cases he
  | @tup h0 gs0 _ h1 h2 h3 h4 =>
    rw [finTup_eq h4] at he
    cases he
    intro f t hm
    obtain ⟨g, hg⟩ := mem_names (tupOffs_names _ gs0) hm
    exact h1 g t hg

theorem made_elem {h : Hdr} {c : Dti} (hm : Made (.arr h c)) : Made c := by
  generalize he : Dti.arr h c = e at hm
  cases hm with
  | prim h1 => rw [(finPrim_eq h1).1] at he; cases he
  | str h1 => rw [(finStr_eq h1).1] at he; cases he
  | arr h0 h1 => rw [(finArr_iff.mp h1).2.2] at he; cases he; exact h0
  | tup _ _ _ h4 => rw [finTup_eq h4] at he; cases he

theorem raw_made {d : Dti} (h : Raw d) (hf : d.hdr.isFinal = true) : Made d := by
  cases h with
  | made h => exact h
  | prim k h h1 => exact absurd hf (by simp [hdr, h1])
  | str b h h1 => exact absurd hf (by simp [hdr, h1])
  | tup h fs h1 => exact absurd hf (by simp [hdr, h1])
  | arr h c h1 => exact absurd hf (by simp [hdr, h1])

theorem raw_tup {h : Hdr} {gs : List (Fld × Dti)} (hr : Raw (.tup h gs)) : ∀ f t, (f, t) ∈ gs → Raw t := by
  cases hf : h.isFinal with
  | false => exact (raw_fields hr hf).2
  | true => exact fun f t hm => .made (made_fields (raw_made hr hf) f t hm)

theorem raw_arr {h : Hdr} {c : Dti} (hr : Raw (.arr h c)) : Raw c := by
  cases hf : h.isFinal with
  | false => exact raw_elem hr hf
  | true => exact .made (made_elem (raw_made hr hf))

/-- The same for the fields of a tuple. -/
inductive AdvAll : List (Fld × Dti) → List (Fld × Dti) → Prop
  | nil : AdvAll [] []
  | cons {f f' : Fld} {t t' : Dti} {r s : List (Fld × Dti)} : f'.name = f.name → Adv t t' → AdvAll r s → AdvAll ((f, t) :: r) ((f', t') :: s)

theorem AdvAll.halfs {as bs : List (Fld × Dti)} (h : AdvAll as bs) : Halfs as bs := by
  induction h with
  | nil => rfl
  | cons h1 h2 _ ih => exact ⟨_, _, _, rfl, h1, h2.half, ih⟩

theorem AdvAll.decl {as bs : List (Fld × Dti)} (h : AdvAll as bs) : declsOf bs = declsOf as := by
  induction h with
  | nil => rfl
  | cons h1 h2 _ ih => simp only [declsOf, h1, h2.decl, ih]

theorem AdvAll.none {as bs : List (Fld × Dti)} (h : AdvAll as bs) : finalizeAll as = none → finalizeAll bs = none := by
  induction h with
  | nil => exact id
  | @cons f f' t t' r s h1 h2 _ ih =>
    simp only [finalizeAll, Option.bind_eq_bind, h2.fin]
    cases finalize t with
    | none => intro _; rfl
    | some t' =>
      simp only [Option.bind_some]
      cases hr : finalizeAll r with
      | none => intro _; rw [ih hr]; rfl
      | some x => intro h; cases h

/-- Fields with the same offsets. -/
inductive Same : List (Fld × Dti) → List (Fld × Dti) → Prop
  | nil : Same [] []
  | cons {f : Fld} {t t' : Dti} {r s : List (Fld × Dti)} : Adv t t' → Same r s → Same ((f, t) :: r) ((f, t') :: s)

theorem Same.adv {as bs : List (Fld × Dti)} (h : Same as bs) : AdvAll as bs := by
  induction h with
  | nil => exact .nil
  | cons h1 _ ih => exact .cons rfl h1 ih

theorem Same.fin {as bs : List (Fld × Dti)} (h : Same as bs) : finalizeAll bs = finalizeAll as := by
  induction h with
  | nil => rfl
  | cons h1 _ ih => simp only [finalizeAll, h1.fin, ih]

theorem Same.made {as bs : List (Fld × Dti)} (h : Same as bs) (hm : ∀ f t, (f, t) ∈ as → Made t) : bs = as := by
  induction h with
  | nil => rfl
  | @cons f t t' r s h1 _ ih => rw [h1.made (hm f t (by simp)), ih (fun f t h => hm f t (by simp [h]))]

theorem Adv.tup {h : Hdr} {gs gs' : List (Fld × Dti)} (hr : Raw (.tup h gs)) (hs : Same gs gs') : Adv (.tup h gs) (.tup h gs') := by
  cases hf : h.isFinal with
  | true =>
    rw [hs.made (made_fields (raw_made hr hf))]
    exact .refl hr
  | false =>
    refine ⟨?_, ?_, ?_⟩
    · simp only [Half]; exact .inr ⟨h, gs', rfl, .refl hf, hs.adv.halfs⟩
    · simp only [finalize, hf, Bool.false_eq_true, if_false, hs.fin]
    · simp only [declOf, hs.adv.decl]

theorem Adv.arr {h : Hdr} {c c' : Dti} (hr : Raw (.arr h c)) (hs : Adv c c') : Adv (.arr h c) (.arr h c') := by
  cases hf : h.isFinal with
  | true =>
    rw [hs.made (made_elem (raw_made hr hf))]
    exact .refl hr
  | false =>
    refine ⟨?_, ?_, ?_⟩
    · simp only [Half]; exact .inr ⟨h, c', rfl, .refl hf, rfl, hs.half⟩
    · simp only [finalize, hf, Bool.false_eq_true, if_false, hs.fin]
    · simp only [declOf, hs.decl]

/-- Every type in memory is what it was, or some of it is finalised now. -/
def Evolves (H K : Store) : Prop := ∀ a t, Unf H a t → Raw t → ∃ t', Unf K a t' ∧ Adv t t'

theorem Evolves.refl (H : Store) : Evolves H H := fun _ t h hr => ⟨t, h, .refl hr⟩

theorem Evolves.trans {H K L : Store} (h1 : Evolves H K) (h2 : Evolves K L) : Evolves H L := by
  intro a t h hr
  obtain ⟨t', k1, k2⟩ := h1 a t h hr
  obtain ⟨t'', k3, k4⟩ := h2 a t' k1 (k2.raw hr)
  exact ⟨t'', k3, k2.trans k4⟩

theorem Evolves.all {H K : Store} (he : Evolves H K) : ∀ {gs : List (Fld × Dti)} {fs : List (Fld × Nat)}, UnfAll H fs gs →
    (∀ f t, (f, t) ∈ gs → Raw t) → ∃ gs', UnfAll K fs gs' ∧ Same gs gs'
  | [], fs, h, _ => ⟨[], h, .nil⟩
  | (f, t) :: r, fs, h, hr => by
    obtain ⟨p, s, rfl, h1, h2⟩ := h
    obtain ⟨t', k1, k2⟩ := he p t h1 (hr f t (by simp))
    obtain ⟨r', k3, k4⟩ := Evolves.all he h2 (fun f t hm => hr f t (by simp [hm]))
    exact ⟨(f, t') :: r', ⟨p, s, rfl, k1, k3⟩, .cons k2 k4⟩

/-- Changing one type, so that it is finalised or not but declared the same, changes the others likewise. -/
theorem evolves_upd {H : Store} {a : Nat} {n : Node} {t0 t1 : Dti} (h0 : Unf H a t0) (h1 : Unf (upd H a n) a t1) (ha : Adv t0 t1) :
    Evolves H (upd H a n) := by
  intro b t
  induction t using Dti.ind generalizing b with
  | hp k h =>
    intro hu hr
    by_cases hb : b = a
    · subst hb; rw [unf_det hu h0]; exact ⟨t1, h1, ha⟩
    · refine ⟨_, ?_, .refl hr⟩
      simp only [Unf, upd, if_neg hb] at hu ⊢; exact hu
  | hs k h =>
    intro hu hr
    by_cases hb : b = a
    · subst hb; rw [unf_det hu h0]; exact ⟨t1, h1, ha⟩
    · refine ⟨_, ?_, .refl hr⟩
      simp only [Unf, upd, if_neg hb] at hu ⊢; exact hu
  | ht h gs ih =>
    intro hu hr
    by_cases hb : b = a
    · subst hb; rw [unf_det hu h0]; exact ⟨t1, h1, ha⟩
    · simp only [Unf] at hu
      obtain ⟨fs, h2, h3⟩ := hu
      have : ∃ gs', UnfAll (upd H a n) fs gs' ∧ Same gs gs' := by
        have hr2 := raw_tup hr
        clear h2 hr
        induction gs generalizing fs with
        | nil => exact ⟨[], h3, .nil⟩
        | cons x r ihr =>
          obtain ⟨f, t⟩ := x
          obtain ⟨p, s, rfl, h4, h5⟩ := h3
          obtain ⟨t', k1, k2⟩ := ih f t (by simp) p h4 (hr2 f t (by simp))
          obtain ⟨r', k3, k4⟩ := ihr (fun f t hm => ih f t (by simp [hm])) s h5 (fun f t hm => hr2 f t (by simp [hm]))
          exact ⟨(f, t') :: r', ⟨p, s, rfl, k1, k3⟩, .cons k2 k4⟩
      obtain ⟨gs', k1, k2⟩ := this
      refine ⟨.tup h gs', ⟨fs, ?_, k1⟩, .tup hr k2⟩
      simp only [upd, if_neg hb]; exact h2
  | ha h c ih =>
    intro hu hr
    by_cases hb : b = a
    · subst hb; rw [unf_det hu h0]; exact ⟨t1, h1, ha⟩
    · simp only [Unf] at hu
      obtain ⟨p, h2, h3⟩ := hu
      obtain ⟨c', k1, k2⟩ := ih p h3 (raw_arr hr)
      refine ⟨.arr h c', ⟨p, ?_, k1⟩, .arr hr k2⟩
      simp only [upd, if_neg hb]; exact h2

/-! ### The calls -/

/-- The pointers stay what they are. -/
def SamePtrs (H K : Store) : Prop := ∀ b, (K b).map Node.ptrs = (H b).map Node.ptrs

theorem SamePtrs.trans {H K L : Store} (h1 : SamePtrs H K) (h2 : SamePtrs K L) : SamePtrs H L := fun b => (h2 b).trans (h1 b)

theorem SamePtrs.symm {H K : Store} (h : SamePtrs H K) : SamePtrs K H := fun b => (h b).symm

theorem samePtrs_upd {H : Store} {a : Nat} {n n' : Node} (hn : H a = some n) (hp : n'.ptrs = n.ptrs) : SamePtrs H (upd H a n') := by
  intro b
  unfold upd
  split
  · rename_i h; subst h; rw [hn]; simp [hp]
  · rfl

theorem reach_same {H K : Store} (hs : SamePtrs H K) {a b : Nat} (h : Reach H a b) : Reach K a b := by
  induction h with
  | refl a => exact .refl a
  | @step a n p b hn hp _ ih =>
    have := hs a
    rw [hn] at this
    cases hk : K a with
    | none => rw [hk] at this; cases this
    | some m =>
      rw [hk] at this
      simp only [Option.map_some, Option.some.injEq] at this
      exact .step hk (by rw [this]; exact hp) ih

theorem unf_upd {H : Store} {a p : Nat} {n : Node} {t : Dti} (hr : ¬ Reach H p a) (h : Unf H p t) : Unf (upd H a n) p t :=
  unf_local (fun b hb => by
    unfold upd
    split
    · rename_i he; subst he; exact absurd hb hr
    · rfl) h

theorem unfAll_upd {H : Store} {a : Nat} {n : Node} : ∀ {gs : List (Fld × Dti)} {fs : List (Fld × Nat)},
    (∀ p, p ∈ fs.map (·.2) → ¬ Reach H p a) → UnfAll H fs gs → UnfAll (upd H a n) fs gs
  | [], _, _, h => h
  | (f, t) :: r, fs, hr, h => by
    obtain ⟨p, s, rfl, h1, h2⟩ := h
    exact ⟨p, s, rfl, unf_upd (hr p (by simp)) h1, unfAll_upd (fun p hp => hr p (by simp at hp ⊢; exact .inr hp)) h2⟩

/-- `UNF` at the address of the static type that strings point to. -/
def Std (u1 : Nat) (H : Store) : Prop := ∃ h : Hdr, H u1 = some (.prim .uint h) ∧ h.size = 1 ∧ Raw (.prim .uint h)

theorem accept_adv {t t' : Dti} (hr : Raw t) (h : finalize t = some t') : Adv t t' := by
  have hm := raw_finalize t t' hr h
  refine ⟨half_of_done ⟨t', h, hm, rfl⟩, by rw [hm.fix, h], ?_⟩
  have := Props.C66_declared t
  rw [(finSt_spec t).1 t' h] at this
  exact this

theorem Std.finalize {h : Hdr} (hs : h.size = 1) : ∃ h', finalize (.prim .uint h) = some (.prim .uint h') ∧ h'.size = 1 := by
  simp only [Dti.finalize]
  split
  · exact ⟨h, rfl, hs⟩
  · refine ⟨{ h with isFinal := true, isVar := false }, ?_, hs⟩
    simp [finPrim, hs]

theorem Std.evolves {u1 : Nat} {H K : Store} (h : Std u1 H) (he : Evolves H K) : Std u1 K := by
  obtain ⟨g, h1, h2, h3⟩ := h
  obtain ⟨t', k1, k2⟩ := he u1 (.prim .uint g) h1 h3
  have hr := k2.raw h3
  rcases k2.half with ⟨d', a1, a2, _⟩ | ⟨rfl, _⟩
  · obtain ⟨g', b1, b2⟩ := Std.finalize (h := g) h2
    have := k2.fin
    rw [a2.fix, b1] at this
    have := Option.some.inj this
    subst this
    exact ⟨g', k1, b2, hr⟩
  · exact ⟨g, k1, h2, h3⟩

/-- What a call of `finalize_type_info` on the type at `a`, which unfolds to `t`, has to do. -/
def Good (u1 a : Nat) (t : Dti) (H : Store) (r : Option (Store × Bool)) : Prop :=
  ∃ K ok, r = some (K, ok) ∧ Evolves H K ∧ SamePtrs H K ∧ (∀ b, ¬ Reach H a b → b ≠ u1 → K b = H b) ∧
    (finalize t = none → ok = false) ∧ ∀ t', finalize t = some t' → ok = true ∧ Unf K a t'

theorem good_final {u1 a : Nat} {t : Dti} {H : Store} (hu : Unf H a t) (hf : t.hdr.isFinal = true) : Good u1 a t H (some (H, true)) := by
  have := final_finalize hf
  refine ⟨H, true, rfl, .refl H, fun _ => rfl, fun _ _ _ => rfl, fun h => ?_, fun t' h => ?_⟩
  · rw [this] at h; cases h
  · rw [this] at h; cases h; exact ⟨rfl, hu⟩

/-- The write at the end. -/
theorem good_upd {u1 a : Nat} {t t1 t2 : Dti} {H K : Store} {n n' : Node} {ok : Bool} (he : Evolves H K) (hp : SamePtrs H K)
    (hfr : ∀ b, ¬ Reach H a b → b ≠ u1 → K b = H b) (hn : K a = some n) (hp' : n'.ptrs = n.ptrs)
    (h1 : Unf K a t1) (h2 : Unf (upd K a n') a t2) (ha : Adv t1 t2)
    (hnone : finalize t = none → ok = false) (hsome : ∀ t', finalize t = some t' → ok = true ∧ t2 = t') :
    Good u1 a t H (some (upd K a n', ok)) := by
  refine ⟨_, ok, rfl, he.trans (evolves_upd h1 h2 ha), hp.trans (samePtrs_upd hn hp'), fun b hb hb1 => ?_, hnone, fun t' ht => ?_⟩
  · unfold upd
    rw [if_neg (by rintro rfl; exact hb (.refl _))]
    exact hfr b hb hb1
  · obtain ⟨h3, rfl⟩ := hsome t' ht
    exact ⟨h3, h2⟩

theorem good_prim (u1 f : Nat) {a : Nat} {k : PKind} {h : Hdr} {H : Store} (hu : H a = some (.prim k h)) (hr : Raw (.prim k h)) :
    Good u1 a (.prim k h) H (finH u1 (f + 1) a H) := by
  unfold finH
  rw [hu]
  simp only [Option.bind_eq_bind, Option.bind_some]
  have hu' : Unf H a (.prim k h) := hu
  cases hf : h.isFinal with
  | true => exact good_final hu' hf
  | false =>
    have hfin : finalize (.prim k h) = finPrim k h := by simp [finalize, hf]
    simp only [Bool.false_eq_true, if_false]
    cases hp : finPrim k h with
    | none =>
      exact ⟨H, false, rfl, .refl H, fun _ => rfl, fun _ _ _ => rfl, fun _ => rfl, fun t' ht => by rw [hfin, hp] at ht; cases ht⟩
    | some d =>
      have hd := (finPrim_eq hp).1
      have hd2 : d = .prim k d.hdr := by rw [hd]; rfl
      refine good_upd (t1 := .prim k h) (t2 := d) (.refl H) (fun _ => rfl) (fun _ _ _ => rfl) hu rfl hu' ?_ ?_ ?_ ?_
      · rw [hd2]; simp [Unf, upd, Dti.hdr]
      · exact accept_adv hr (by rw [hfin, hp])
      · intro h; rw [hfin, hp] at h; cases h
      · intro t' ht; rw [hfin, hp] at ht; cases ht; exact ⟨rfl, rfl⟩

theorem strH_spec (b : Bool) (h : Hdr) : finStr b h = if (strH h).2 = true then some (.str b (strH h).1) else none := by
  unfold finStr strH
  dsimp only
  cases h.varCount with
  | true => by_cases hm : vsz h.maxSize > h.maxSize <;> simp [hm]
  | false => by_cases hm : h.count = 0 <;> simp [hm]

theorem strH_kept {h : Hdr} (hf : h.isFinal = false) (hb : (strH h).2 = false) : Kept h (strH h).1 ∧ (strH h).1.varCount = h.varCount ∧
    (strH h).1.isStatic = h.isStatic := by
  unfold strH at *
  dsimp only at *
  repeat' split at hb
  all_goals first | cases hb | skip
  · rename_i h1; rw [if_pos h1]; exact ⟨⟨hf, hf, rfl, rfl, rfl, rfl⟩, rfl, rfl⟩
  · rename_i h1 h2 h3; rw [if_neg h1, if_pos h2, if_pos h3]; exact ⟨⟨hf, hf, rfl, rfl, rfl, rfl⟩, rfl, rfl⟩

theorem arrBits_isVar (h : Hdr) (v : Bool) (c : Dti) : arrBits { h with isVar := v } c = arrBits h c := by
  unfold arrBits; rfl

theorem arrH_spec (h : Hdr) (c : Dti) : finArr h c = if (arrH h c).2 = true then some (.arr (arrH h c).1 c) else none := by
  unfold finArr finArrSize arrH
  simp only [arrBits_isVar]
  by_cases h1 : (!h.varCount && decide (h.count = 0)) = true
  · rw [if_pos h1, if_pos h1]; rfl
  · rw [if_neg h1, if_neg h1]
    by_cases h2 : (!(h.varCount || c.isVar)) = true
    · rw [if_pos h2, if_pos h2]; rfl
    · rw [if_neg h2, if_neg h2]
      split <;> rfl

theorem arrH_kept {h : Hdr} {c : Dti} (hf : h.isFinal = false) (hb : (arrH h c).2 = false) : Kept h (arrH h c).1 ∧ (arrH h c).1.varCount = h.varCount ∧
    (arrH h c).1.isStatic = h.isStatic := by
  unfold arrH at *
  dsimp only at *
  repeat' split at hb
  all_goals first | cases hb | skip
  · rename_i h1; rw [if_pos h1]; exact ⟨⟨hf, hf, rfl, rfl, rfl, rfl⟩, rfl, rfl⟩
  · rename_i h1 h2 h3; rw [if_neg h1, if_neg h2, if_pos h3]; exact ⟨⟨hf, hf, rfl, rfl, rfl, rfl⟩, rfl, rfl⟩

theorem arrH_top (h : Hdr) {c c' : Dti} (h1 : c'.hdr = c.hdr) (h2 : c'.isBit = c.isBit) (h3 : c'.isVar = c.isVar)
    (h4 : c'.needsValid = c.needsValid) : arrH h c' = arrH h c := by
  have e1 : ∀ g, arrBits g c' = arrBits g c := fun g => by unfold arrBits; rw [h1, h2, h3, h4]
  have e2 : ∀ g, arrSize g c' = arrSize g c := fun g => by unfold arrSize; rw [h1, h2]
  have e3 : ∀ g, arrMin g c' = arrMin g c := fun g => by
    have e : offBitmap (.arr g c') = offBitmap (.arr g c) := by
      simp [offBitmap, offCountP, hasCountP, hasSizeP, isVarCount, Dti.w, Dti.hdr, h3]
    unfold arrMin
    rw [h1, h2, h3, h4, e]
  unfold arrH
  simp only [e1, e2, e3, h3]

/-- The same types under other offsets. -/
theorem unfAll_rename {K : Store} : ∀ {gs0 gs1 : List (Fld × Dti)} {fs fs' : List (Fld × Nat)}, UnfAll K fs gs1 → Same gs0 gs1 →
    fs'.map (fun x => (x.1.name, x.2)) = fs.map (fun x => (x.1.name, x.2)) → ∃ gs2, UnfAll K fs' gs2 ∧ AdvAll gs0 gs2
  | [], gs1, fs, fs', h, hs, he => by
    cases hs
    simp only [UnfAll] at h
    subst h
    simp only [List.map_nil, List.map_eq_nil_iff] at he
    subst he
    exact ⟨[], rfl, .nil⟩
  | (f, t) :: r, gs1, fs, fs', h, hs, he => by
    cases hs with
    | cons h1 h2 =>
      obtain ⟨p, s, rfl, h3, h4⟩ := h
      cases fs' with
      | nil => simp at he
      | cons x s' =>
        obtain ⟨f', p'⟩ := x
        simp only [List.map_cons, List.cons.injEq, Prod.mk.injEq] at he
        obtain ⟨⟨h5, rfl⟩, h6⟩ := he
        obtain ⟨gs2, k1, k2⟩ := unfAll_rename h4 h2 h6
        exact ⟨(f', _) :: gs2, ⟨_, s', rfl, h3, k1⟩, .cons h5 h1 k2⟩

theorem offsH_spec {w : Nat} {H : Store} : ∀ {gs : List (Fld × Dti)} {fs : List (Fld × Nat)} (s : Nat), UnfAll H fs gs →
    ∃ fs', offsH w H s fs = some (fs', (assignOffs w s gs).2) ∧ UnfAll H fs' (assignOffs w s gs).1 ∧
      fs'.map (fun x => (x.1.name, x.2)) = fs.map (fun x => (x.1.name, x.2))
  | [], fs, s, h => by
    simp only [UnfAll] at h
    subst h
    exact ⟨[], rfl, rfl, rfl⟩
  | (f, t) :: r, fs, s, h => by
    obtain ⟨p, q, rfl, h1, h2⟩ := h
    obtain ⟨n, h3, h4, h5, h6, _⟩ := unf_top h1
    unfold offsH assignOffs
    rw [h3]
    simp only [Option.bind_eq_bind, Option.bind_some, h4, h5, h6]
    cases hb : t.isBit with
    | true =>
      obtain ⟨fs', k1, k2, k3⟩ := offsH_spec s h2
      refine ⟨(f, p) :: fs', ?_, ⟨p, fs', rfl, h1, k2⟩, by simp [k3]⟩
      simp only [if_true]
      rw [k1]; rfl
    | false =>
      obtain ⟨fs', k1, k2, k3⟩ := offsH_spec (w32 (s + if t.isVar = true then w else t.hdr.size)) h2
      refine ⟨({ f with off := s }, p) :: fs', ?_, ⟨p, fs', rfl, h1, k2⟩, by simp [k3]⟩
      simp only [Bool.false_eq_true, if_false]
      rw [k1]; rfl

theorem finAllH_spec {u1 : Nat} {rec : Nat → Store → Option (Store × Bool)} {n : Nat}
    (hrec : ∀ p t H, Unf H p t → Raw t → Std u1 H → deep t ≤ n → Good u1 p t H (rec p H)) : ∀ {gs0 : List (Fld × Dti)} {fs : List (Fld × Nat)} {H : Store} (v : Bool) (b : Nat),
    UnfAll H fs gs0 → (∀ f t, (f, t) ∈ gs0 → Raw t ∧ deep t ≤ n) → Std u1 H →
    ∃ fs' v' b' ok K, finAllH rec fs v b H = some (fs', v', b', ok, K) ∧ Evolves H K ∧ SamePtrs H K ∧
      (∀ c, (∀ p, p ∈ fs.map (·.2) → ¬ Reach H p c) → c ≠ u1 → K c = H c) ∧
      fs'.map (fun x => (x.1.name, x.2)) = fs.map (fun x => (x.1.name, x.2)) ∧
      (finalizeAll gs0 = none → ok = false) ∧
      ∀ gs, finalizeAll gs0 = some gs → ok = true ∧ v' = (v || gs.any (fun p => p.2.isVar)) ∧ b' = (assignBits b gs).2 ∧ UnfAll K fs' (assignBits b gs).1
  | [], fs, H, v, b, h, _, _ => by
    simp only [UnfAll] at h
    subst h
    exact ⟨[], v, b, true, H, rfl, .refl H, fun _ => rfl, fun _ _ _ => rfl, rfl, fun h => (by cases h),
      fun gs h => (by cases h; exact ⟨rfl, by simp, rfl, rfl⟩)⟩
  | (f, t) :: r, fs, H, v, b, h, hr, hstd => by
    obtain ⟨p, s, rfl, h1, h2⟩ := h
    obtain ⟨K1, ok1, h3, h4, h5, h6, h7, h8⟩ := hrec p t H h1 (hr f t (by simp)).1 hstd (hr f t (by simp)).2
    simp only [finAllH, h3, Option.bind_eq_bind, Option.bind_some]
    cases ht : finalize t with
    | none =>
      have hok := h7 ht
      subst hok
      refine ⟨_, _, _, _, K1, rfl, h4, h5, fun c hc hc1 => h6 c (hc p (by simp)) hc1, rfl, fun _ => rfl, fun gs hgs => ?_⟩
      simp [finalizeAll, ht] at hgs
    | some t' =>
      obtain ⟨hok, h9⟩ := h8 t' ht
      subst hok
      obtain ⟨n', h10, h11, h12, h13, h14⟩ := unf_top h9
      simp only [Bool.not_true, Bool.false_eq_true, if_false, h10, Option.bind_some, h11, h12, h13, h14]
      obtain ⟨r', k1, k2⟩ := h4.all h2 (fun f t hm => (hr f t (by simp [hm])).1)
      have hmade := raw_finalize _ _ (hr f t (by simp)).1 ht
      have hr' : ∀ f t, (f, t) ∈ r' → Raw t ∧ deep t ≤ n := by
        have hr2 : ∀ f t, (f, t) ∈ r → Raw t ∧ deep t ≤ n := fun f t hm => hr f t (by simp [hm])
        clear k1 hr h2
        induction k2 with
        | nil => intro f t hm; cases hm
        | @cons f0 t0 t1 r0 s0 a1 _ ih =>
          intro f t hm
          rcases List.mem_cons.mp hm with hm | hm
          · cases hm
            have := hr2 f0 t0 (by simp)
            exact ⟨a1.raw this.1, by rw [← deep_decl, a1.decl, deep_decl]; exact this.2⟩
          · exact ih (fun f t hm => hr2 f t (by simp [hm])) f t hm
      obtain ⟨fs', v', b', ok, K, m1, m2, m3, m4, m5, m6, m7⟩ := finAllH_spec hrec (v || t'.isVar)
        (if t'.isBit = true then (if t'.needsValid = true then b + 1 else b) + t'.hdr.size else if t'.needsValid = true then b + 1 else b)
        k1 hr' (hstd.evolves h4)
      rw [m1, Option.bind_some]
      refine ⟨_, _, _, _, K, rfl, h4.trans m2, h5.trans m3, fun c hc hc1 => ?_, ?_, ?_, ?_⟩
      · rw [m4 c (fun q hq hq2 => hc q (by simp at hq ⊢; exact .inr hq) (reach_same h5.symm hq2)) hc1]
        exact h6 c (hc p (by simp)) hc1
      · simp only [List.map_cons, m5]
        congr 2
        repeat' split
        all_goals rfl
      · intro hn
        apply m6
        simp only [finalizeAll, ht, Option.bind_eq_bind, Option.bind_some] at hn
        rw [k2.fin]
        cases hq : finalizeAll r with
        | none => rfl
        | some x => rw [hq] at hn; cases hn
      · intro gs hgs
        simp only [finalizeAll, ht, Option.bind_eq_bind, Option.bind_eq_some_iff, Option.pure_def, Option.some.injEq, exists_eq_left'] at hgs
        obtain ⟨gr, hgr, rfl⟩ := hgs
        obtain ⟨o1, o2, o3, o4⟩ := m7 gr (by rw [k2.fin]; exact hgr)
        obtain ⟨t'', q1, q2⟩ := m2 p t' h9 (.made hmade)
        rw [q2.made hmade] at q1
        refine ⟨o1, by rw [o2]; simp [Bool.or_assoc], by rw [o3]; rfl, ?_⟩
        exact ⟨p, fs', rfl, q1, o4⟩

theorem good_main (u1 : Nat) (f : Nat) : ∀ (a : Nat) (t : Dti) (H : Store), Unf H a t → Raw t → Std u1 H → deep t ≤ f →
    Good u1 a t H (finH u1 f a H) := by
  induction f with
  | zero => intro a t H _ _ _ hd; cases t <;> simp only [deep] at hd <;> omega
  | succ f ih =>
    intro a t H hu hr hstd hd
    cases t with
    | prim k h => exact good_prim u1 f hu hr
    | str b h =>
      have hu0 := hu
      simp only [Unf] at hu
      unfold finH
      rw [hu]
      simp only [Option.bind_eq_bind, Option.bind_some]
      cases hf : h.isFinal with
      | true => exact good_final hu0 hf
      | false =>
        have hfin : finalize (.str b h) = finStr b h := by simp [finalize, hf]
        simp only [Bool.false_eq_true, if_false]
        obtain ⟨f, rfl⟩ : ∃ k, f = k + 1 := ⟨f - 1, by simp only [deep] at hd; omega⟩
        obtain ⟨g, s1, s2, s3⟩ := hstd
        obtain ⟨K, ok, k1, k2, k3, k4, k5, k6⟩ := good_prim u1 f s1 s3
        obtain ⟨g', e1, _⟩ := Std.finalize (h := g) s2
        obtain ⟨rfl, k7⟩ := k6 _ e1
        rw [k1]
        simp only [Option.bind_some, Bool.not_true, Bool.false_eq_true, if_false]
        have hau : a ≠ u1 := by rintro rfl; rw [s1] at hu; cases hu
        have hnr : ∀ c, c ≠ u1 → ¬ Reach H u1 c := by
          intro c hc hrc
          cases hrc with
          | refl => exact hc rfl
          | step h1 h2 => rw [s1] at h1; cases h1; cases h2
        have hKa : K a = some (.str b h) := by rw [k4 a (hnr a hau) hau]; exact hu
        have hspec := strH_spec b h
        refine good_upd (t1 := .str b h) (t2 := .str b (strH h).1) k2 k3 (fun c _ hc1 => k4 c (hnr c hc1) hc1) hKa rfl hKa (by simp [Unf, upd]) ?_ ?_ ?_
        · cases hok : (strH h).2 with
          | true =>
            rw [hok, if_pos rfl] at hspec
            exact accept_adv hr (hfin.trans hspec)
          | false =>
            rw [hok, if_neg (by simp)] at hspec
            obtain ⟨a1, a2, a3⟩ := strH_kept hf hok
            have hh : Half (.str b h) (.str b (strH h).1) := .inr ⟨_, rfl, a1, a2⟩
            refine ⟨hh, ?_, ?_⟩
            · rw [hfin, hspec]
              cases hq : finalize (.str b (strH h).1) with
              | none => rfl
              | some x => obtain ⟨d', q, _⟩ := (half_agree hh).2 x hq; rw [hfin, hspec] at q; cases q
            · simp only [declOf, a1.name, a1.nullable, a1.maxSize, a1.count, a2, a3]
        · intro hn; rw [hfin, hspec] at hn
          cases hok : (strH h).2 with
          | true => rw [hok] at hn; cases hn
          | false => rfl
        · intro t' ht; rw [hfin, hspec] at ht
          cases hok : (strH h).2 with
          | true => rw [hok] at ht; cases ht; exact ⟨rfl, rfl⟩
          | false => rw [hok] at ht; cases ht
    | tup h gs0 =>
      have hu0 := hu
      simp only [Unf] at hu
      obtain ⟨fs, hu, huf⟩ := hu
      unfold finH
      rw [hu]
      simp only [Option.bind_eq_bind, Option.bind_some]
      cases hf : h.isFinal with
      | true => exact good_final hu0 hf
      | false =>
        simp only [Bool.false_eq_true, if_false]
        by_cases h0 : h.count = 0
        · rw [if_pos h0]
          have hfin : finalize (.tup h gs0) = none := by simp [finalize, hf, h0]
          exact ⟨H, false, rfl, .refl H, fun _ => rfl, fun _ _ _ => rfl, fun _ => rfl, fun t' ht => by rw [hfin] at ht; cases ht⟩
        · rw [if_neg h0]
          have hkids : ∀ p, p ∈ fs.map (·.2) → ¬ Reach H p a := fun p hp => not_reach_up hu0 hu hp
          have hau : a ≠ u1 := by rintro rfl; obtain ⟨g, s1, _⟩ := hstd; rw [s1] at hu; cases hu
          obtain ⟨fs', v', b', ok, K, m1, m2, m3, m4, m5, m6, m7⟩ := finAllH_spec (n := f) ih false 0 huf
            (fun g t hm => ⟨raw_tup hr g t hm, by have := deep_mem hm; simp only [deep] at hd; omega⟩) hstd
          have hKa : K a = some (.tup h fs) := by rw [m4 a hkids hau]; exact hu
          have hptr : fs'.map (·.2) = fs.map (·.2) := by
            have := congrArg (List.map Prod.snd) m5
            simpa [List.map_map, Function.comp_def] using this
          have hkidsK : ∀ p, p ∈ fs'.map (·.2) → ¬ Reach K p a := fun p hp hr => hkids p (by rw [← hptr]; exact hp) (reach_same m3.symm hr)
          have hfr : ∀ c, ¬ Reach H a c → c ≠ u1 → K c = H c := fun c hc hc1 => m4 c (fun p hp hr => hc (.step hu hp hr)) hc1
          obtain ⟨gs1, n1, n2⟩ := m2.all huf (raw_tup hr)
          have hu1 : Unf K a (.tup h gs1) := ⟨fs, hKa, n1⟩
          have hr1 : Raw (.tup h gs1) := (Adv.tup hr n2).raw hr
          have hfineq : finalize (.tup h gs1) = finalize (.tup h gs0) := (Adv.tup hr n2).fin
          have hrefuse : ∀ (g : Hdr) (fs2 : List (Fld × Nat)), finalize (.tup h gs0) = none → Kept h g → g.isStatic = h.isStatic →
              fs2.map (fun x => (x.1.name, x.2)) = fs.map (fun x => (x.1.name, x.2)) → Good u1 a (.tup h gs0) H (some (upd K a (.tup g fs2), false)) := by
            intro g fs2 hn hk hst he
            have hptr2 : fs2.map (·.2) = fs.map (·.2) := by
              have := congrArg (List.map Prod.snd) he
              simpa [List.map_map, Function.comp_def] using this
            have hrefl : Same gs1 gs1 := by
              have := raw_tup hr1
              clear n1 n2 hu1 hr1 hfineq
              induction gs1 with
              | nil => exact .nil
              | cons x r ihr => obtain ⟨f, t⟩ := x; exact .cons (.refl (this f t (by simp))) (ihr (fun f t hm => this f t (by simp [hm])))
            obtain ⟨gs2, q1, q2⟩ := unfAll_rename n1 hrefl he
            have hh : Half (.tup h gs1) (.tup g gs2) := by simp only [Half]; exact .inr ⟨g, gs2, rfl, hk, q2.halfs⟩
            refine good_upd (t1 := .tup h gs1) (t2 := .tup g gs2) m2 m3 hfr hKa hptr2 hu1
              ⟨fs2, by simp [upd], unfAll_upd (fun p hp hr => hkids p (by rw [← hptr2]; exact hp) (reach_same m3.symm hr)) q1⟩ ⟨hh, ?_, ?_⟩
              (fun _ => rfl) (fun t' ht => by rw [hn] at ht; cases ht)
            · rw [hfineq, hn]
              cases hq : finalize (.tup g gs2) with
              | none => rfl
              | some x => obtain ⟨d', q, _⟩ := (half_agree hh).2 x hq; rw [hfineq, hn] at q; cases q
            · simp only [declOf, hk.name, hk.nullable, hk.maxSize, hk.count, hst, q2.decl]
          rw [m1]
          simp only [Option.bind_some]
          cases hall : finalizeAll gs0 with
          | none =>
            have hok := m6 hall
            subst hok
            simp only [Bool.not_false, if_true]
            exact hrefuse _ _ (by simp [finalize, hf, h0, hall]) ⟨hf, rfl, rfl, rfl, rfl, rfl⟩ rfl m5
          | some gs =>
            obtain ⟨hok, hv, hb, hun⟩ := m7 gs hall
            subst hok
            simp only [Bool.not_true, Bool.false_eq_true, if_false]
            have hfin : finalize (.tup h gs0) = finTup h gs := by simp [finalize, hf, h0, hall]
            simp only [Bool.false_or] at hv
            obtain ⟨fs2, p1, p2, p3⟩ := offsH_spec (w := vsz h.maxSize)
              (w32 ((if v' = true then vsz h.maxSize else 0) + bitmapBytes b')) hun
            rw [p1]
            simp only [Option.bind_some]
            subst hv hb
            unfold finTup at hfin
            dsimp only at hfin
            by_cases hc : ((gs.any fun p => p.2.isVar) && decide ((assignOffs (vsz h.maxSize) (w32 ((if (gs.any fun p => p.2.isVar) = true then vsz h.maxSize else 0) + bitmapBytes (assignBits 0 gs).2)) (assignBits 0 gs).1).2 > h.maxSize)) = true
            · rw [if_pos hc] at hfin
              rw [if_pos hc]
              exact hrefuse _ _ hfin ⟨hf, rfl, rfl, rfl, rfl, rfl⟩ rfl (p3.trans m5)
            · rw [if_neg hc] at hfin
              rw [if_neg hc]
              have hptr2 : fs2.map (·.2) = fs.map (·.2) := by
                have := congrArg (List.map Prod.snd) (p3.trans m5)
                simpa [List.map_map, Function.comp_def] using this
              refine good_upd (t1 := .tup h gs1) m2 m3 hfr hKa hptr2 hu1 (t2 := .tup _ (assignOffs (vsz h.maxSize) (w32 ((if (gs.any fun p => p.2.isVar) = true then vsz h.maxSize else 0) + bitmapBytes (assignBits 0 gs).2)) (assignBits 0 gs).1).1)
                ⟨fs2, by simp only [upd, if_true], unfAll_upd (fun p hp hr => hkids p (by rw [← hptr2]; exact hp) (reach_same m3.symm hr)) p2⟩
                (accept_adv hr1 (hfineq.trans hfin)) (fun hn => by rw [hfin] at hn; cases hn) (fun t' ht => by rw [hfin] at ht; cases ht; exact ⟨rfl, rfl⟩)
    | arr h c =>
      have hu0 := hu
      simp only [Unf] at hu
      obtain ⟨p, hu, huc⟩ := hu
      unfold finH
      rw [hu]
      simp only [Option.bind_eq_bind, Option.bind_some]
      cases hf : h.isFinal with
      | true => exact good_final hu0 hf
      | false =>
        simp only [Bool.false_eq_true, if_false]
        have hnr : ¬ Reach H p a := not_reach_up hu0 hu (by simp [Node.ptrs])
        have hau : a ≠ u1 := by rintro rfl; obtain ⟨g, s1, _⟩ := hstd; rw [s1] at hu; cases hu
        obtain ⟨K, ok, k1, k2, k3, k4, k5, k6⟩ := ih p c H huc (raw_arr hr) hstd (by simp only [deep] at hd; omega)
        rw [k1]
        simp only [Option.bind_some]
        have hfr : ∀ b, ¬ Reach H a b → b ≠ u1 → K b = H b := fun b hb hb1 => k4 b (fun hr => hb (.step hu (by simp [Node.ptrs]) hr)) hb1
        cases hc : finalize c with
        | none =>
          have := k5 hc
          subst this
          exact ⟨K, false, rfl, k2, k3, hfr, fun _ => rfl, fun t' ht => by simp [finalize, hf, hc] at ht⟩
        | some c' =>
          obtain ⟨rfl, k7⟩ := k6 c' hc
          obtain ⟨n, e1, e2, e3, e4, e5⟩ := unf_top k7
          simp only [Bool.not_true, Bool.false_eq_true, if_false, e1, Option.bind_some]
          rw [arrH_top h e2 e3 e4 e5]
          have hKa : K a = some (.arr h p) := by rw [k4 a hnr hau]; exact hu
          have hfin : finalize (.arr h c) = finArr h c' := by simp [finalize, hf, hc]
          have hm := raw_finalize _ _ (raw_arr hr) hc
          have hfin' : finalize (.arr h c') = finArr h c' := by simp [finalize, hf, hm.fix]
          have hr' : Raw (.arr h c') := .arr _ _ hf (.made hm)
          have hspec := arrH_spec h c'
          have hnrK : ¬ Reach K p a := fun hr => hnr (reach_same k3.symm hr)
          refine good_upd (t1 := .arr h c') (t2 := .arr (arrH h c').1 c') k2 k3 hfr hKa rfl ⟨p, hKa, k7⟩ ⟨p, by simp [upd], unf_upd hnrK k7⟩ ?_ ?_ ?_
          · cases hok : (arrH h c').2 with
            | true =>
              rw [hok, if_pos rfl] at hspec
              exact accept_adv hr' (hfin'.trans hspec)
            | false =>
              rw [hok, if_neg (by simp)] at hspec
              obtain ⟨a1, a2, a3⟩ := arrH_kept hf hok
              have hh : Half (.arr h c') (.arr (arrH h c').1 c') := by
                simp only [Half]; exact .inr ⟨_, _, rfl, a1, a2, half_refl (.made hm)⟩
              refine ⟨hh, ?_, ?_⟩
              · rw [hfin', hspec]
                cases hq : finalize (.arr (arrH h c').1 c') with
                | none => rfl
                | some x => obtain ⟨d', q, _⟩ := (half_agree hh).2 x hq; rw [hfin', hspec] at q; cases q
              · simp only [declOf, a1.name, a1.nullable, a1.maxSize, a1.count, a2, a3]
          · intro hn; rw [hfin, hspec] at hn
            cases hok : (arrH h c').2 with
            | true => rw [hok] at hn; cases hn
            | false => rfl
          · intro t' ht; rw [hfin, hspec] at ht
            cases hok : (arrH h c').2 with
            | true => rw [hok] at ht; cases ht; exact ⟨rfl, rfl⟩
            | false => rw [hok] at ht; cases ht

end Share
end TS
