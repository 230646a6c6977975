import Verif.TypeSer
import Verif.TypeSpec
/-
Types up to the members that are never read: a normal form, and that finalising only depends on it.
-/
namespace TS

theorem strn_strn (b : Bytes) : strn (strn b) = strn b := by
  unfold strn
  induction b with
  | nil => rfl
  | cons x b ih =>
    by_cases h : (x != 0) = true
    · simp only [List.takeWhile_cons, h, if_true, ih]
    · have h : (x != 0) = false := by simpa using h
      simp [h]

theorem strn_length_le (b : Bytes) : (strn b).length ≤ b.length := by
  unfold strn
  exact (List.takeWhile_sublist _).length_le

theorem cname_length (n : Bytes) : (cname n).length ≤ 64 := by
  unfold cname
  have := strn_length_le (n.take 64)
  have : (n.take 64).length ≤ 64 := by simp; omega
  omega

theorem cname_cname (n : Bytes) : cname (cname n) = cname n := by
  have := cname_length n
  have h : (cname n).take 64 = cname n := List.take_of_length_le this
  show strn ((cname n).take 64) = cname n
  rw [h]
  unfold cname
  exact strn_strn _

theorem strn_nonzero {b : Bytes} {x : UInt8} (h : x ∈ strn b) : x ≠ 0 := by
  unfold strn at h
  have := List.all_takeWhile (l := b) (p := (· != 0))
  rw [List.all_eq_true] at this
  simpa using this x h

namespace Dti

/-- The members common to all kinds of types that are read once the type is finalised. -/
def nHdr (h : Hdr) : Hdr :=
  { isFinal := h.isFinal, name := cname h.name, nullable := if h.isVar then false else h.nullable,
    isVar := h.isVar, size := h.size, maxSize := if h.isVar then h.maxSize else 0 }

/-- A field of a tuple; its name is kept only on demand. -/
def nFld (kn : Bool) (t : Dti) (f : Fld) : Fld :=
  { name := if kn then cname f.name else [], off := f.off, vbit := if t.needsValid then f.vbit else 0 }

mutual
/-- The normal form of a finalised type: all members that are never read are reset. With `kn` the
names of the fields of tuples are kept. -/
def norm (kn : Bool) : Dti → Dti
  | .prim k h => .prim k (nHdr h)
  | .str b h => .str b { nHdr h with varCount := h.isVar, count := if h.isVar then 0 else h.count }
  | .tup h fs => .tup { nHdr h with count := h.count, bits := h.bits } (normAll kn fs)
  | .arr h c => .arr { nHdr h with
      varCount := h.varCount, count := if h.isVar && h.varCount then 0 else h.count
      bits := if h.varCount then 0 else h.bits } (norm kn c)
def normAll (kn : Bool) : List (Fld × Dti) → List (Fld × Dti)
  | [] => []
  | (f, t) :: r => (nFld kn t f, norm kn t) :: normAll kn r
end

section
variable (kn : Bool) (d : Dti)

@[simp] theorem norm_isBit : (norm kn d).isBit = d.isBit := by
  cases d with
  | prim k h => cases k <;> rfl
  | _ => rfl

@[simp] theorem norm_isCont : (norm kn d).isCont = d.isCont := by cases d <;> rfl

@[simp] theorem norm_isVar : (norm kn d).isVar = d.isVar := by cases d <;> rfl

@[simp] theorem norm_size : (norm kn d).hdr.size = d.hdr.size := by cases d <;> rfl

@[simp] theorem norm_kind : (norm kn d).kind = d.kind := by cases d <;> rfl

@[simp] theorem norm_isFinal : (norm kn d).hdr.isFinal = d.hdr.isFinal := by cases d <;> rfl

@[simp] theorem norm_needsValid : (norm kn d).needsValid = d.needsValid := by
  have h : (norm kn d).hdr.nullable = if d.hdr.isVar then false else d.hdr.nullable := by
    cases d <;> rfl
  unfold needsValid
  rw [norm_isVar, h]
  unfold isVar
  cases d.hdr.isVar <;> simp

@[simp] theorem norm_isNullable : (norm kn d).isNullable = d.isNullable := by
  have h : (norm kn d).hdr.nullable = if d.hdr.isVar then false else d.hdr.nullable := by
    cases d <;> rfl
  unfold isNullable
  rw [norm_isVar, h]
  unfold isVar
  cases d.hdr.isVar <;> simp

theorem norm_maxSize (h : d.isVar = true) : (norm kn d).hdr.maxSize = d.hdr.maxSize := by
  unfold isVar at h
  cases d <;> (simp only [norm, hdr, nHdr] at h ⊢; rw [h]; rfl)

theorem norm_w (h : d.isVar = true) : (norm kn d).w = d.w := by
  unfold w; rw [norm_maxSize kn d h]

@[simp] theorem norm_hasSizeP : (norm kn d).hasSizeP = d.hasSizeP := by
  cases d with
  | arr h c => simp [norm, hasSizeP, nHdr]
  | _ => rfl

@[simp] theorem norm_isVarCount : (norm kn d).isVarCount = d.isVarCount := by
  cases d <;> rfl

@[simp] theorem norm_hasCountP : (norm kn d).hasCountP = d.hasCountP := norm_isVarCount kn d

theorem hasSizeP_isVar {d : Dti} (h : d.hasSizeP = true) : d.isVar = true := by
  cases d with
  | prim => cases h
  | str => cases h
  | tup => exact h
  | arr => simp [hasSizeP] at h; exact h.1

theorem isVarCount_isVar {d : Dti} (h : d.isVarCount = true) : d.isVar = true := by
  cases d with
  | prim => cases h
  | str => exact h
  | tup => cases h
  | arr => simp [isVarCount] at h; exact h.1

@[simp] theorem norm_offCountP : (norm kn d).offCountP = d.offCountP := by
  unfold offCountP
  rw [norm_hasSizeP]
  cases h : d.hasSizeP with
  | false => simp
  | true => rw [norm_w kn d (hasSizeP_isVar h)]

@[simp] theorem norm_offBitmap : (norm kn d).offBitmap = d.offBitmap := by
  unfold offBitmap
  rw [norm_offCountP, norm_hasCountP]
  cases h : d.hasCountP with
  | false => simp
  | true => rw [norm_w kn d (isVarCount_isVar h)]

end

theorem serName_cname (n : Bytes) : serName (cname n) = serName n := by
  unfold serName; rw [cname_cname]

mutual
theorem ser_norm : ∀ d, ser (norm true d) = ser d
  | .prim k h => by
    have : isNullable (.prim k (nHdr h)) = isNullable (.prim k h) := norm_isNullable true (.prim k h)
    simp only [norm, ser, serPrim, this]
    simp [nHdr, serName_cname]
  | .str b h => by
    simp only [norm, ser, serStr, nHdr, serName_cname]
    cases h.isVar <;> simp
  | .tup h fs => by
    simp only [norm, ser, serTup, nHdr, serName_cname, serAll_norm fs]
    cases h.isVar <;> simp
  | .arr h c => by
    simp only [norm, ser, serArr, nHdr, serName_cname, ser_norm c]
    cases h.isVar <;> cases h.varCount <;> simp
theorem serAll_norm : ∀ fs, serAll (normAll true fs) = serAll fs
  | [] => rfl
  | (f, t) :: r => by
    simp [normAll, serAll, nFld, serName_cname, ser_norm t, serAll_norm r]
end

/-- The type was produced by `finalize_type_info`. -/
inductive Made : Dti → Prop
  | prim {k h d'} : finPrim k h = some d' → Made d'
  | str {b h d'} : finStr b h = some d' → Made d'
  | tup {h gs d'} : (∀ f t, (f, t) ∈ gs → Made t) → gs.length = h.count → h.count ≠ 0 →
      finTup h gs = some d' → Made d'
  | arr {h c d'} : Made c → finArr h c = some d' → Made d'

/-- A type as a user builds it: every node is not yet finalised or a finalised type, tuples have
as many fields as they say. -/
inductive Raw : Dti → Prop
  | made {d} : Made d → Raw d
  | prim (k) (h : Hdr) : h.isFinal = false → Raw (.prim k h)
  | str (b) (h : Hdr) : h.isFinal = false → Raw (.str b h)
  | tup (h : Hdr) (fs : List (Fld × Dti)) : h.isFinal = false → fs.length = h.count →
      (∀ f t, (f, t) ∈ fs → Raw t) → Raw (.tup h fs)
  | arr (h : Hdr) (c) : h.isFinal = false → Raw c → Raw (.arr h c)

theorem finPrim_eq {k h d'} (hf : finPrim k h = some d') :
    d' = .prim k { h with isVar := false, isFinal := true } ∧ 1 ≤ h.size ∧ h.size ≤ 64 ∧
    (k ≠ .bitField → h.size ≤ 32) ∧ (k = .uint ∨ k = .int → h.size ≤ 8) ∧
    (k = .float → h.size = 4 ∨ h.size = 8) := by
  unfold finPrim at hf
  cases k <;> simp at hf <;> (obtain ⟨h1, rfl⟩ := hf; refine ⟨rfl, ?_⟩; simp; omega)

theorem finPrim_final {k h d'} (hf : finPrim k h = some d') : d'.hdr.isFinal = true := by
  rw [(finPrim_eq hf).1]; rfl

theorem finStr_eq {b h d'} (hf : finStr b h = some d') :
    d' = .str b { h with isVar := h.varCount, bits := 0, isFinal := true
                         size := if h.varCount then vsz h.maxSize else h.count } ∧
    (h.varCount = false → h.count ≠ 0) ∧ (h.varCount = true → vsz h.maxSize ≤ h.maxSize) := by
  unfold finStr at hf
  cases hv : h.varCount with
  | false =>
    simp [hv] at hf
    obtain ⟨h1, rfl⟩ := hf
    exact ⟨by simp, fun _ => h1, by simp⟩
  | true =>
    simp [hv] at hf
    obtain ⟨h1, rfl⟩ := hf
    exact ⟨by simp, by simp, fun _ => h1⟩

/-- `size` of a finalised array type. -/
def arrSz (h : Hdr) (c : Dti) : Nat :=
  if h.varCount || c.isVar then
    arrMin { h with isVar := h.varCount || c.isVar, bits := arrBits h c } c
  else arrSize { h with isVar := h.varCount || c.isVar, bits := arrBits h c } c

theorem finArr_iff {h c d'} : finArr h c = some d' ↔
    (h.varCount = false → h.count ≠ 0) ∧ ((h.varCount || c.isVar) = true → arrSz h c ≤ h.maxSize) ∧
    d' = .arr { h with isVar := h.varCount || c.isVar, bits := arrBits h c, isFinal := true
                       size := arrSz h c } c := by
  unfold finArr finArrSize arrSz
  cases hv : h.varCount with
  | true =>
    simp only [Bool.not_true, Bool.false_and, Bool.false_eq_true, if_false, Bool.true_or, if_true]
    split
    · rename_i h0
      simp; omega
    · rename_i h0
      simp only [Option.some.injEq]
      constructor
      · intro h; exact ⟨by simp, fun _ => by omega, h.symm⟩
      · intro h; exact h.2.2.symm
  | false =>
    by_cases hc : h.count = 0
    · simp [hc]
    · simp only [Bool.not_false, Bool.true_and, hc, decide_false, Bool.false_eq_true, if_false, Bool.false_or]
      cases hcv : c.isVar with
      | false =>
        simp only [Bool.not_false, if_true, Option.some.injEq, Bool.false_eq_true, if_false]
        constructor
        · intro h; exact ⟨by simp [hc], by simp, h.symm⟩
        · intro h; exact h.2.2.symm
      | true =>
        simp only [Bool.not_true, Bool.false_eq_true, if_false, if_true]
        split
        · rename_i h0
          simp [hc]; omega
        · rename_i h0
          simp only [Option.some.injEq]
          constructor
          · intro h; exact ⟨by simp [hc], fun _ => by omega, h.symm⟩
          · intro h; exact h.2.2.symm

/-- The fields of a finalised tuple type and its `size`. -/
def tupOffs (h : Hdr) (gs : List (Fld × Dti)) : List (Fld × Dti) × Nat :=
  assignOffs (vsz h.maxSize)
    (w32 ((if gs.any (fun p => p.2.isVar) then vsz h.maxSize else 0) + bitmapBytes (assignBits 0 gs).2))
    (assignBits 0 gs).1

theorem finTup_iff {h gs d'} : finTup h gs = some d' ↔
    (gs.any (fun p => p.2.isVar) = true → (tupOffs h gs).2 ≤ h.maxSize) ∧
    d' = .tup { h with isVar := gs.any (fun p => p.2.isVar), bits := (assignBits 0 gs).2
                       varCount := false, isFinal := true, size := (tupOffs h gs).2 } (tupOffs h gs).1 := by
  have : finTup h gs = if gs.any (fun p => p.2.isVar) && decide ((tupOffs h gs).2 > h.maxSize) then none
    else some (.tup { h with isVar := gs.any (fun p => p.2.isVar), bits := (assignBits 0 gs).2
                             varCount := false, isFinal := true, size := (tupOffs h gs).2 } (tupOffs h gs).1) := rfl
  rw [this]
  generalize gs.any (fun p => p.2.isVar) = v
  generalize tupOffs h gs = o
  cases v with
  | false => simp [eq_comm]
  | true =>
    by_cases ho : o.2 > h.maxSize
    · simp only [ho, decide_true, Bool.and_self, if_true]
      constructor
      · intro h; cases h
      · intro h; have := h.1 trivial; omega
    · have ho2 : o.2 ≤ h.maxSize := by omega
      simp [ho, ho2, eq_comm]

theorem finTup_eq {h gs d'} (hf : finTup h gs = some d') :
    d' = .tup { h with isVar := gs.any (fun p => p.2.isVar), bits := (assignBits 0 gs).2
                       varCount := false, isFinal := true, size := (tupOffs h gs).2 } (tupOffs h gs).1 :=
  (finTup_iff.mp hf).2

theorem Made.final {d : Dti} (h : Made d) : d.hdr.isFinal = true := by
  cases h with
  | prim h => exact finPrim_final h
  | str h => rw [(finStr_eq h).1]; rfl
  | tup _ _ _ h => rw [finTup_eq h]; rfl
  | arr _ h => rw [(finArr_iff.mp h).2.2]; rfl

theorem final_finalize {d : Dti} (h : d.hdr.isFinal = true) : finalize d = some d := by
  cases d <;> (simp only [hdr] at h; simp [finalize, h])

theorem raw_finalize : ∀ d d', Raw d → finalize d = some d' → Made d' := by
  intro d
  induction d using Dti.ind with
  | hp k h =>
    intro d' hr hf
    cases hr with
    | made hm => rw [final_finalize hm.final] at hf; cases hf; exact hm
    | prim _ _ h0 =>
      simp only [finalize, h0, Bool.false_eq_true, if_false] at hf
      exact .prim hf
  | hs b h =>
    intro d' hr hf
    cases hr with
    | made hm => rw [final_finalize hm.final] at hf; cases hf; exact hm
    | str _ _ h0 =>
      simp only [finalize, h0, Bool.false_eq_true, if_false] at hf
      exact .str hf
  | ht h fs ih =>
    intro d' hr hf
    cases hr with
    | made hm => rw [final_finalize hm.final] at hf; cases hf; exact hm
    | tup _ _ h0 hl hall =>
      simp only [finalize, h0, Bool.false_eq_true, if_false] at hf
      split at hf
      · cases hf
      · rename_i hc
        simp only [Option.bind_eq_bind, Option.bind_eq_some_iff] at hf
        obtain ⟨gs, hg, hf⟩ := hf
        have key : ∀ (fs gs : List (Fld × Dti)), (∀ f t, (f, t) ∈ fs → ∀ d', Raw t → finalize t = some d' → Made d') →
            (∀ f t, (f, t) ∈ fs → Raw t) → finalizeAll fs = some gs →
            gs.length = fs.length ∧ ∀ f t, (f, t) ∈ gs → Made t := by
          intro fs
          induction fs with
          | nil => intro gs _ _ h; simp [finalizeAll] at h; subst h; simp
          | cons p r ih2 =>
            obtain ⟨f, t⟩ := p
            intro gs h1 h2 h
            simp only [finalizeAll, Option.bind_eq_bind, Option.bind_eq_some_iff, Option.pure_def,
              Option.some.injEq] at h
            obtain ⟨t', ht', r', hr', rfl⟩ := h
            obtain ⟨hl', hm'⟩ := ih2 r' (fun f t hm => h1 f t (List.mem_cons_of_mem _ hm))
              (fun f t hm => h2 f t (List.mem_cons_of_mem _ hm)) hr'
            refine ⟨by simp [hl'], ?_⟩
            intro f2 t2 hm
            rcases List.mem_cons.mp hm with hm | hm
            · cases hm
              exact h1 f t (by simp) _ (h2 f t (by simp)) ht'
            · exact hm' _ _ hm
        obtain ⟨hl2, hm2⟩ := key fs gs ih hall hg
        exact .tup hm2 (by omega) hc hf
  | ha h c ih =>
    intro d' hr hf
    cases hr with
    | made hm => rw [final_finalize hm.final] at hf; cases hf; exact hm
    | arr _ _ h0 hc =>
      simp only [finalize, h0, Bool.false_eq_true, if_false] at hf
      simp only [Option.bind_eq_bind, Option.bind_eq_some_iff] at hf
      obtain ⟨c', hc', hf⟩ := hf
      exact .arr (ih c' hc hc') hf

/-- What finalising a container reads of a containee. -/
structure Alike (kn : Bool) (p q : Fld × Dti) : Prop where
  nm : kn = true → cname p.1.name = cname q.1.name
  ty : norm kn p.2 = norm kn q.2

theorem Alike.isBit {kn p q} (h : Alike kn p q) : p.2.isBit = q.2.isBit := by
  rw [← norm_isBit kn p.2, h.ty, norm_isBit]
theorem Alike.isVar {kn p q} (h : Alike kn p q) : p.2.isVar = q.2.isVar := by
  rw [← norm_isVar kn p.2, h.ty, norm_isVar]
theorem Alike.size {kn p q} (h : Alike kn p q) : p.2.hdr.size = q.2.hdr.size := by
  rw [← norm_size kn p.2, h.ty, norm_size]
theorem Alike.needsValid {kn p q} (h : Alike kn p q) : p.2.needsValid = q.2.needsValid := by
  rw [← norm_needsValid kn p.2, h.ty, norm_needsValid]

/-- Two lists of fields whose corresponding members are alike. -/
inductive All2 {α : Type} (R : α → α → Prop) : List α → List α → Prop
  | nil : All2 R [] []
  | cons {a b l r} : R a b → All2 R l r → All2 R (a :: l) (b :: r)

theorem All2.length {α : Type} {R : α → α → Prop} {l r : List α} (h : All2 R l r) :
    l.length = r.length := by
  induction h with
  | nil => rfl
  | cons _ _ ih => simp [ih]

/-- `p` and `q` are alike, with the same is-valid bit and, for bit fields, the same place. -/
structure AlikeB (kn : Bool) (p q : Fld × Dti) : Prop extends Alike kn p q where
  vb : p.2.needsValid = true → p.1.vbit = q.1.vbit
  ob : p.2.isBit = true → p.1.off = q.1.off

theorem assignBits_alike {kn : Bool} {gs es : List (Fld × Dti)} (h : All2 (Alike kn) gs es) (b : Nat) :
    (assignBits b gs).2 = (assignBits b es).2 ∧
    All2 (AlikeB kn) (assignBits b gs).1 (assignBits b es).1 := by
  induction h generalizing b with
  | nil => exact ⟨rfl, .nil⟩
  | @cons p q l r hpq _ ih =>
    obtain ⟨f, t⟩ := p
    obtain ⟨g, u⟩ := q
    have h1 := hpq.isBit
    have h2 := hpq.needsValid
    have h3 := hpq.size
    simp only at h1 h2 h3
    simp only [assignBits, ← h1, ← h2, ← h3]
    obtain ⟨i1, i2⟩ := ih (if t.isBit = true then (if t.needsValid = true then b + 1 else b) + t.hdr.size
      else if t.needsValid = true then b + 1 else b)
    refine ⟨i1, .cons ⟨⟨?_, hpq.ty⟩, ?_, ?_⟩ i2⟩
    · intro hk
      have := hpq.nm hk
      simp only at this ⊢
      cases t.isBit <;> cases t.needsValid <;> simp [this]
    · intro hv
      simp only at hv ⊢
      cases t.isBit <;> simp [hv]
    · intro hb
      simp only at hb ⊢
      simp [hb]

theorem assignOffs_alike {kn : Bool} {gs es : List (Fld × Dti)} (h : All2 (AlikeB kn) gs es) (w w' s : Nat)
    (hw : gs.any (fun p => p.2.isVar) = true → w = w') :
    (assignOffs w s gs).2 = (assignOffs w' s es).2 ∧
    normAll kn (assignOffs w s gs).1 = normAll kn (assignOffs w' s es).1 := by
  induction h generalizing s with
  | nil => exact ⟨rfl, rfl⟩
  | @cons p q l r hpq _ ih =>
    obtain ⟨f, t⟩ := p
    obtain ⟨g, u⟩ := q
    have h1 := hpq.isBit
    have h2 := hpq.needsValid
    have h3 := hpq.size
    have h4 := hpq.isVar
    have h5 := hpq.ty
    have h6 := hpq.nm
    have h7 := hpq.vb
    have h8 := hpq.ob
    simp only at h1 h2 h3 h4 h5 h6 h7 h8
    have ih := fun s => ih s (fun hv => hw (by simp [hv]))
    simp only [assignOffs, ← h1, ← h3, ← h4]
    have hnm : (if kn = true then cname f.name else []) = if kn = true then cname g.name else [] := by
      cases kn with
      | true => simp [h6]
      | false => rfl
    have hvb : (if t.needsValid = true then f.vbit else 0) = if t.needsValid = true then g.vbit else 0 := by
      cases hv : t.needsValid with
      | true => simp [h7 hv]
      | false => rfl
    cases hb : t.isBit with
    | true =>
      simp only [if_true]
      obtain ⟨i1, i2⟩ := ih s
      refine ⟨i1, ?_⟩
      simp only [normAll, nFld, i2, h5, ← h2, hnm, hvb, h8 hb]
    | false =>
      simp only [Bool.false_eq_true, if_false]
      have hslot : (if t.isVar = true then w else t.hdr.size) = if t.isVar = true then w' else t.hdr.size := by
        cases hv : t.isVar with
        | true => simp [hw (by simp [hv])]
        | false => rfl
      rw [hslot]
      obtain ⟨i1, i2⟩ := ih (w32 (s + if t.isVar = true then w' else t.hdr.size))
      refine ⟨i1, ?_⟩
      simp only [normAll, nFld, i2, h5, ← h2, hnm, hvb]

theorem any_alike {kn : Bool} {gs es : List (Fld × Dti)} (h : All2 (Alike kn) gs es) :
    gs.any (fun p => p.2.isVar) = es.any (fun p => p.2.isVar) := by
  induction h with
  | nil => rfl
  | cons hpq _ ih => simp [ih, hpq.isVar]

/-- Finalising a tuple type only depends on what the normal form keeps. -/
theorem finTup_alike {kn : Bool} {h1 h2 : Hdr} {gs es : List (Fld × Dti)} {d1 : Dti}
    (ha : All2 (Alike kn) gs es) (hn : cname h1.name = cname h2.name) (hc : h1.count = h2.count)
    (hnl : gs.any (fun p => p.2.isVar) = false → h1.nullable = h2.nullable)
    (hm : gs.any (fun p => p.2.isVar) = true → h1.maxSize = h2.maxSize)
    (hf : finTup h1 gs = some d1) :
    ∃ d2, finTup h2 es = some d2 ∧ norm kn d2 = norm kn d1 := by
  obtain ⟨hmax, hd1⟩ := finTup_iff.mp hf
  have hv := any_alike ha
  obtain ⟨hb, hbl⟩ := assignBits_alike ha 0
  have hany : ∀ l b, (assignBits b l).1.any (fun p => p.2.isVar) = l.any (fun p => p.2.isVar) := by
    intro l
    induction l with
    | nil => intro b; rfl
    | cons p r ih => intro b; obtain ⟨f, t⟩ := p; simp [assignBits, ih]
  have hw : (assignBits 0 gs).1.any (fun p => p.2.isVar) = true → vsz h1.maxSize = vsz h2.maxSize := by
    intro h; rw [hany] at h; rw [hm h]
  have hs0 : (if gs.any (fun p => p.2.isVar) then vsz h1.maxSize else 0) =
      if es.any (fun p => p.2.isVar) then vsz h2.maxSize else 0 := by
    rw [← hv]
    cases hvv : gs.any (fun p => p.2.isVar) with
    | true => simp [hm hvv]
    | false => rfl
  have ho := assignOffs_alike hbl (vsz h1.maxSize) (vsz h2.maxSize)
    (w32 ((if gs.any (fun p => p.2.isVar) then vsz h1.maxSize else 0) + bitmapBytes (assignBits 0 gs).2)) hw
  have ho : (tupOffs h1 gs).2 = (tupOffs h2 es).2 ∧ normAll kn (tupOffs h1 gs).1 = normAll kn (tupOffs h2 es).1 := by
    unfold tupOffs
    rw [← hs0, ← hb]
    exact ho
  refine ⟨_, finTup_iff.mpr ⟨?_, rfl⟩, ?_⟩
  · intro hve
    rw [← hv] at hve
    rw [← ho.1, ← hm hve]; exact hmax hve
  · subst hd1
    simp only [norm, nHdr]
    rw [ho.2, ho.1, hn, hc, hb, hv]
    cases hvv : es.any (fun p => p.2.isVar) with
    | true => simp [hm (hv.trans hvv)]
    | false => simp [hnl (hv.trans hvv)]

/-- Finalising an array type only depends on what the normal form keeps. -/
theorem finArr_alike {kn : Bool} {h1 h2 : Hdr} {c1 c2 d1 : Dti}
    (ha : norm kn c1 = norm kn c2) (hn : cname h1.name = cname h2.name)
    (hvc : h1.varCount = h2.varCount) (hc : h1.varCount = false → h1.count = h2.count)
    (hnl : (h1.varCount || c1.isVar) = false → h1.nullable = h2.nullable)
    (hm : (h1.varCount || c1.isVar) = true → h1.maxSize = h2.maxSize)
    (hf : finArr h1 c1 = some d1) :
    ∃ d2, finArr h2 c2 = some d2 ∧ norm kn d2 = norm kn d1 := by
  obtain ⟨hcnt, hmax, hd1⟩ := finArr_iff.mp hf
  have k1 : c1.isVar = c2.isVar := by rw [← norm_isVar kn c1, ha, norm_isVar]
  have k2 : c1.isBit = c2.isBit := by rw [← norm_isBit kn c1, ha, norm_isBit]
  have k3 : c1.needsValid = c2.needsValid := by rw [← norm_needsValid kn c1, ha, norm_needsValid]
  have k4 : c1.hdr.size = c2.hdr.size := by rw [← norm_size kn c1, ha, norm_size]
  have hbits : h1.varCount = false → arrBits h1 c1 = arrBits h2 c2 := by
    intro hv
    have hv2 := hv; rw [hvc] at hv2
    unfold arrBits
    rw [hv, hv2, k1, k2, k3, k4, hc hv]
    rfl
  have hsz : arrSz h1 c1 = arrSz h2 c2 := by
    unfold arrSz
    rw [← hvc, ← k1]
    cases hv : (h1.varCount || c1.isVar) with
    | false =>
      have hvv : h1.varCount = false := by cases h : h1.varCount <;> simp_all
      simp [arrSize, ← k2, ← k4, hbits hvv, hc hvv]
    | true =>
      have hob : ∀ b1 b2, offBitmap (.arr { h1 with isVar := true, bits := b1 } c1) =
          offBitmap (.arr { h2 with isVar := true, varCount := h1.varCount, bits := b2 } c2) := by
        intro b1 b2
        simp only [offBitmap, offCountP, hasSizeP, hasCountP, isVarCount, w, hdr, ← k1, hm hv]
      simp only [if_true, arrMin]
      rw [← k1, ← k2, ← k3, ← k4]
      rw [show h2.varCount = h1.varCount from hvc.symm] at *
      rw [hob (arrBits h1 c1) (arrBits h2 c2)]
      cases hvv : h1.varCount with
      | true => simp
      | false => simp [hc hvv, hm hv]
  refine ⟨_, finArr_iff.mpr ⟨?_, ?_, rfl⟩, ?_⟩
  · intro h; rw [← hvc] at h; rw [← hc h]; exact hcnt h
  · intro h; rw [← hvc, ← k1] at h; rw [← hsz, ← hm h]; exact hmax h
  · subst hd1
    simp only [norm, nHdr]
    rw [← ha, ← hn, ← hvc, ← k1, ← hsz]
    cases hv : (h1.varCount || c1.isVar) with
    | false =>
      have hvv : h1.varCount = false := by cases h : h1.varCount <;> simp_all
      simp [hvv, hbits hvv, hc hvv, hnl hv]
    | true =>
      cases hvv : h1.varCount with
      | true => simp [hm hv]
      | false => simp [hm hv, hbits hvv, hc hvv]

end Dti
end TS
