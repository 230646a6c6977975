import Verif.PropsElem
import Verif.ContWalk
/-
When an element can be set, and the size of the tuple afterwards.
-/
namespace TS
namespace Dti

/-! ### The value determines the size -/

/-- Bytes a value of an element takes outside of the fixed part of its container, if the type of
the element is variable sized: none if it is NULL, else the size of its datum. -/
def Sz (t : Dti) (y : Val) (n : Nat) : Prop := (y = .null ∧ n = 0) ∨ ∃ b, Enc t b y ∧ b.length = n

theorem enc_not_null {t : Dti} {b : Bytes} (e : Enc t b .null) : False := by cases e

theorem eltAt_hlen {d : Dti} {m : Bytes} {S f o : Nat} {p : PosInfo} {c : Elt} {y : Val} (hok : TyOk p.ty)
    (e : EltAt d m S f p o c) (hy : EVal p.ty c y) (hv : p.ty.isVar = true) : Sz p.ty y c.hlen := by
  cases c with
  | null => exact Or.inl ⟨hy, rfl⟩
  | bits v => exact absurd (isVar_not_bit hok hv) (by rw [e.1]; simp)
  | fixd b => exact absurd hv (by rw [e.2.1]; simp)
  | var b => exact Or.inr ⟨b, hy, rfl⟩

theorem eltAt_hlen_fixed {d : Dti} {m : Bytes} {S f o : Nat} {p : PosInfo} {c : Elt}
    (e : EltAt d m S f p o c) (hv : p.ty.isVar = false) : c.hlen = 0 := by
  cases c with
  | var b => exact absurd e.1 (by rw [hv]; simp)
  | _ => rfl

theorem heap_det {cs cs' : List Elt} (hl : cs'.length = cs.length)
    (h : ∀ (i : Nat) c c', cs[i]? = some c → cs'[i]? = some c' → c'.hlen = c.hlen) : heap cs' = heap cs := by
  induction cs generalizing cs' with
  | nil => cases cs' with
    | nil => rfl
    | cons => simp at hl
  | cons c cs ih => cases cs' with
    | nil => simp at hl
    | cons c' cs' =>
      have h0 := h 0 c c' rfl rfl
      have := ih (cs' := cs') (by simpa using hl) (fun i a b h1 h2 => h (i + 1) a b h1 h2)
      simp only [heap, List.map_cons, List.sum_cons] at this ⊢
      omega

theorem heap_det_except {cs cs' : List Elt} {i : Nat} {c c' : Elt} (hl : cs'.length = cs.length)
    (hi : cs[i]? = some c) (hi' : cs'[i]? = some c')
    (h : ∀ (j : Nat) a a', j ≠ i → cs[j]? = some a → cs'[j]? = some a' → a'.hlen = a.hlen) :
    heap cs' + c.hlen = heap cs + c'.hlen := by
  have h1 := heap_set (c' := c') hi
  have h2 : heap cs' = heap (cs.set i c') := by
    refine heap_det (by simp [hl]) ?_
    intro j a a' ha ha'
    rw [List.getElem?_set] at ha
    by_cases hij : i = j
    · subst hij
      have hlt := (List.getElem?_eq_some_iff.mp hi).1
      rw [if_pos rfl, if_pos hlt] at ha
      rw [hi'] at ha'
      cases ha; cases ha'; rfl
    · rw [if_neg hij] at ha
      exact h j a a' (Ne.symm hij) ha ha'
  omega

/-- Two data of the same type and value have the same size. -/
theorem enc_len {d : Dti} {b : Bytes} {v : Val} (e : Enc d b v) :
    ∀ {b' : Bytes}, TyOk d → Enc d b' v → b'.length = b.length := by
  induction e with
  | prim h1 h2 =>
    intro b' _ e'
    obtain ⟨_, h3, h4⟩ := enc_prim e'
    omega
  | @cont d b cs o vs hc r hl hn hb hf hv ihf ihv =>
    intro b' h e'
    obtain ⟨cs', o', vs', h1, r', hv'⟩ := enc_cont hc e'
    cases h1
    have hlen : cs'.length = cs.length := by rw [← hv'.1, hl]
    have hheap : heap cs' = heap cs := by
      refine heap_det hlen ?_
      intro i c c' hi hi'
      have hlt := (List.getElem?_eq_some_iff.mp hi).1
      have hok := posOf_ok h hc r.countOk hlt
      have el := r.elt i c hi
      have el' := r'.elt i c' hi'
      have hy := List.getElem?_eq_getElem (l := vs) (i := i) (by rw [hl]; exact hlt)
      have hev' := hv'.2 i c' _ hi' hy
      rw [hlen] at el' hev'
      cases hvv : (posOf d cs.length i).ty.isVar with
      | false => rw [eltAt_hlen_fixed el hvv, eltAt_hlen_fixed el' hvv]
      | true =>
        rcases eltAt_hlen hok el' hev' hvv with ⟨z1, z2⟩ | ⟨x, z1, z2⟩
        · rw [z2]
          rcases var_elt h hc r hi hvv with rfl | ⟨x, rfl⟩
          · rfl
          · exact absurd (z1 ▸ hv i x _ hi hy) enc_not_null
        · rcases var_elt h hc r hi hvv with rfl | ⟨x0, rfl⟩
          · have := hn i hi
            rw [hy] at this
            injection this with this
            rw [this] at z1
            exact absurd z1 enc_not_null
          · rw [← z2]; exact ihv i x0 _ hi hy hok z1
    have := r.sum
    have := r'.sum
    rw [hlen] at *
    omega

theorem Sz.unique {t : Dti} {y : Val} {a b : Nat} (ht : TyOk t) (h1 : Sz t y a) (h2 : Sz t y b) : a = b := by
  rcases h1 with ⟨x1, x2⟩ | ⟨u, x1, x2⟩
  · rcases h2 with ⟨y1, y2⟩ | ⟨w, y1, y2⟩
    · omega
    · subst x1; exact absurd y1 enc_not_null
  · rcases h2 with ⟨y1, y2⟩ | ⟨w, y1, y2⟩
    · subst y1; exact absurd x1 enc_not_null
    · have := enc_len x1 ht y1; omega

/-- Replacing an element changes the size by the difference of what the two take. -/
theorem upd_len (pa : List Nat) : ∀ {d t : Dti} {b b' : Bytes} {val y y' : Val} {old new : Nat},
    TyOk d → Enc d b val → Enc d b' (val.upd pa y') → val.has pa → d.typeAt pa = some t → val.at' pa = some y →
    (t.isVar = true → Sz t y old ∧ Sz t y' new) → (t.isVar = false → old = new) → b'.length + old = b.length + new := by
  induction pa with
  | nil =>
    intro d t b b' val y y' old new h e e' _ ht hat s s'
    simp only [typeAt, Option.some.injEq] at ht
    simp only [Val.at', Option.some.injEq] at hat
    subst ht; subst hat
    cases htv : d.isVar with
    | true =>
      have h1 := Sz.unique h (s htv).1 (Or.inr ⟨b, e, rfl⟩)
      have h2 := Sz.unique h (s htv).2 (Or.inr ⟨b', e', rfl⟩)
      omega
    | false =>
      have h1 := (enc_size h e).2.2.2.2.2 htv
      have h2 := (enc_size h e').2.2.2.2.2 htv
      have h3 := s' htv
      omega
  | cons i pa ih =>
    intro d t b b' val y y' old new h e e' hh ht hat s s'
    cases hc : d.isCont with
    | false => rw [notCont_typeAt hc] at ht; cases ht
    | true =>
      obtain ⟨cs, o, vs, rfl, r, hv⟩ := enc_cont hc e
      simp only [Val.has] at hh
      cases hi : vs[i]? with
      | none => rw [hi] at hh; exact hh.elim
      | some z =>
        rw [hi] at hh
        simp only [Val.at', hi] at hat
        simp only [Val.upd, hi] at e'
        obtain ⟨cs', o', vs', h1, r', hv'⟩ := enc_cont hc e'
        cases h1
        have hlen : cs'.length = cs.length := by rw [← hv'.1, ← hv.1, List.length_set]
        have hltv := (List.getElem?_eq_some_iff.mp hi).1
        have hlt : i < cs.length := by rw [← hv.1]; exact hltv
        have hok := posOf_ok h hc r.countOk hlt
        have hty := tyAtNoData_pos h hc r.countOk hlt
        simp only [typeAt, hty, Option.bind_eq_bind, Option.bind_some] at ht
        obtain ⟨c, hci⟩ : ∃ c, cs[i]? = some c := ⟨_, List.getElem?_eq_getElem hlt⟩
        obtain ⟨c', hci'⟩ : ∃ c, cs'[i]? = some c := ⟨_, List.getElem?_eq_getElem (by omega)⟩
        have hev := hv.2 i _ _ hci hi
        have hz' : (vs.set i (z.upd pa y'))[i]? = some (z.upd pa y') := by
          rw [List.getElem?_set, if_pos rfl, if_pos hltv]
        have hev' := hv'.2 i _ _ hci' hz'
        have el := r.elt i _ hci
        have el' := r'.elt i _ hci'
        rw [hlen] at hev' el'
        have hheap := heap_det_except hlen hci hci' (by
          intro j a a' hj ha ha'
          have hltj := (List.getElem?_eq_some_iff.mp ha).1
          have hokj := posOf_ok h hc r.countOk hltj
          obtain ⟨w, hyj⟩ : ∃ w, vs[j]? = some w := ⟨_, List.getElem?_eq_getElem (by rw [hv.1]; exact hltj)⟩
          have hyj' : (vs.set i (z.upd pa y'))[j]? = some w := by
            rw [List.getElem?_set, if_neg (Ne.symm hj)]; exact hyj
          have ea := r.elt j _ ha
          have ea' := r'.elt j _ ha'
          have va := hv.2 j _ _ ha hyj
          have va' := hv'.2 j _ _ ha' hyj'
          rw [hlen] at ea' va'
          cases hvj : (posOf d cs.length j).ty.isVar with
          | false => rw [eltAt_hlen_fixed ea hvj, eltAt_hlen_fixed ea' hvj]
          | true => exact Sz.unique hokj (eltAt_hlen hokj ea' va' hvj) (eltAt_hlen hokj ea va hvj))
        have hsum := r.sum
        have hsum' := r'.sum
        rw [hlen] at hsum'
        -- the sizes inside
        have hin : c'.hlen + old = c.hlen + new := by
          cases hcv : (posOf d cs.length i).ty.isVar with
          | false =>
            have h1 := eltAt_hlen_fixed el hcv
            have h2 := eltAt_hlen_fixed el' hcv
            have h3 := s' (by
              cases htv : t.isVar with
              | false => rfl
              | true => rw [(typeAt_ok pa hok ht).2 htv] at hcv; cases hcv)
            omega
          | true =>
            have s1 := eltAt_hlen hok el hev hcv
            have s2 := eltAt_hlen hok el' hev' hcv
            cases pa with
            | nil =>
              simp only [typeAt, Option.some.injEq] at ht
              subst ht
              simp only [Val.at', Option.some.injEq] at hat
              subst hat
              simp only [Val.upd] at s2
              have h1 := Sz.unique hok (s hcv).1 s1
              have h2 := Sz.unique hok (s hcv).2 s2
              omega
            | cons j pa =>
              have hzn : ∃ ws, z = .node ws := by
                cases z with
                | node ws => exact ⟨ws, rfl⟩
                | _ => simp [Val.has] at hh
              obtain ⟨ws, rfl⟩ := hzn
              rcases s1 with ⟨x1, _⟩ | ⟨u, x1, x2⟩
              · cases x1
              · rcases s2 with ⟨w1, _⟩ | ⟨w, w1, w2⟩
                · simp only [Val.has] at hh
                  simp only [Val.upd] at w1
                  cases hj : ws[j]? with
                  | none => rw [hj] at hh; exact hh.elim
                  | some zz => rw [hj] at w1; cases w1
                · have := ih hok x1 w1 hh ht hat s s'
                  omega
        omega

/-- A container inside a tuple is itself encoded somewhere. -/
theorem enc_at (pa : List Nat) : ∀ {d t : Dti} {b : Bytes} {val : Val} {vs : List Val}, TyOk d → Enc d b val →
    d.typeAt pa = some t → val.at' pa = some (.node vs) → ∃ b', Enc t b' (.node vs) := by
  induction pa with
  | nil =>
    intro d t b val vs _ e ht hat
    simp only [typeAt, Option.some.injEq] at ht
    simp only [Val.at', Option.some.injEq] at hat
    subst ht; subst hat
    exact ⟨b, e⟩
  | cons i pa ih =>
    intro d t b val vs h e ht hat
    cases hc : d.isCont with
    | false => rw [notCont_typeAt hc] at ht; cases ht
    | true =>
      obtain ⟨cs, o, ws, rfl, r, hv⟩ := enc_cont hc e
      simp only [Val.at'] at hat
      cases hi : ws[i]? with
      | none => rw [hi] at hat; cases hat
      | some z =>
        rw [hi] at hat
        have hlt : i < cs.length := by rw [← hv.1]; exact (List.getElem?_eq_some_iff.mp hi).1
        have hok := posOf_ok h hc r.countOk hlt
        have hty := tyAtNoData_pos h hc r.countOk hlt
        simp only [typeAt, hty, Option.bind_eq_bind, Option.bind_some] at ht
        obtain ⟨c, hci⟩ : ∃ c, cs[i]? = some c := ⟨_, List.getElem?_eq_getElem hlt⟩
        have hev := hv.2 i _ _ hci hi
        have hz : z ≠ .null ∧ ∀ w, z ≠ .bits w := by
          constructor
          · rintro rfl; cases pa <;> simp [Val.at'] at hat
          · rintro w rfl; cases pa <;> simp [Val.at'] at hat
        cases c with
        | null => exact absurd hev hz.1
        | bits v => exact absurd hev (hz.2 v)
        | fixd x => exact ih hok hev ht hat
        | var x => exact ih hok hev ht hat

/-! ### When an element can be set -/

/-- The bytes an element of the variable sized type `t` takes once it is set to `v`: a string or
binary its length field and its characters (a string up to the first NUL), a tuple or array what
the given one takes, the empty datum the minimal one. -/
def Needs (t : Dti) (v : Datum) (n : Nat) : Prop :=
  match t with
  | .str bin h => ∃ b, (v = .bytes b ∨ (v = .empty ∧ b = [])) ∧
      n = vsz h.maxSize + (if bin then b else b.takeWhile (· ≠ 0)).length
  | t => (∃ src, v = .ptr src ∧ Props.IsTuple t src n) ∨ (v = .empty ∧ n = t.hdr.size)

theorem strn_takeWhile (b : Bytes) : b.takeWhile (· ≠ 0) = strn b := by
  unfold strn
  congr 1
  funext x
  by_cases h : x = 0 <;> simp [h]

theorem newSize_needs {t : Dti} {v : Datum} {y : Val} (ht : TyOk t) (hv : t.isVar = true) (hd : Den t v y) :
    ∃ n, t.newSize v = some n ∧ Needs t v n ∧ (n ≤ t.hdr.maxSize → Sz t y n) := by
  cases t with
  | prim k h => exact absurd hv (by cases ht; simp_all [isVar, hdr])
  | str bin h =>
    obtain ⟨b0, b, x, h1, h2, h3, h4, h5, h6⟩ := hd
    have hvh : h.isVar = true := hv
    have hxb := h5 hvh
    subst hxb
    have hbl : x.length ≤ b0.length := by
      rw [h3]; split
      · exact Nat.le_refl _
      · exact strn_le _
    have h4' := vsz_le h.maxSize
    unfold lim at h2
    have hu : u32 (vsz h.maxSize + x.length) = some (vsz h.maxSize + x.length) := u32_eq (by omega)
    refine ⟨vsz h.maxSize + x.length, ?_, ⟨b0, ?_, ?_⟩, ?_⟩
    · cases bin <;> simp [newSize, h1] at h3 ⊢
      · rw [← h3]; exact hu
      · rw [← h3]; exact hu
    · cases v <;> simp [Datum.asBytes] at h1 ⊢
      · exact h1
      · exact h1
    · rw [h3, strn_takeWhile]
    · intro hle
      refine Or.inr ⟨leEnc (vsz h.maxSize) x.length ++ x, ?_, by simp⟩
      rw [h4]
      exact str_enc_var ht hvh hle
  | tup h fs =>
    rcases hd with ⟨src, s, h1, h2, h3, h4⟩ | ⟨h1, h2⟩
    · subst h1
      exact ⟨s, h2, Or.inl ⟨src, rfl, h3, y, h4⟩, fun _ => Or.inr ⟨_, h4, by simp; omega⟩⟩
    · subst h1
      exact ⟨_, rfl, Or.inr ⟨rfl, rfl⟩, fun _ => Or.inr ⟨_, h2, minB_length ht rfl⟩⟩
  | arr h c =>
    rcases hd with ⟨src, s, h1, h2, h3, h4⟩ | ⟨h1, h2⟩
    · subst h1
      exact ⟨s, h2, Or.inl ⟨src, rfl, h3, y, h4⟩, fun _ => Or.inr ⟨_, h4, by simp; omega⟩⟩
    · subst h1
      exact ⟨_, rfl, Or.inr ⟨rfl, rfl⟩, fun _ => Or.inr ⟨_, h2, minB_length ht rfl⟩⟩

theorem Needs.unique {t : Dti} {v : Datum} {a b : Nat} (ht : TyOk t) (h1 : Needs t v a) (h2 : Needs t v b) : a = b := by
  have aux : ∀ t : Dti, TyOk t →
      ((∃ src, v = .ptr src ∧ Props.IsTuple t src a) ∨ (v = .empty ∧ a = t.hdr.size)) →
      ((∃ src, v = .ptr src ∧ Props.IsTuple t src b) ∨ (v = .empty ∧ b = t.hdr.size)) → a = b := by
    intro t ht h1 h2
    rcases h1 with ⟨s1, rfl, k1⟩ | ⟨rfl, k1⟩
    · rcases h2 with ⟨s2, e, k2⟩ | ⟨e, k2⟩
      · cases e
        have := (k1.size ht).1
        rw [(k2.size ht).1] at this
        exact (Option.some.inj this).symm
      · cases e
    · rcases h2 with ⟨s2, e, k2⟩ | ⟨e, k2⟩
      · cases e
      · omega
  cases t with
  | prim k h => exact aux _ ht h1 h2
  | tup h fs => exact aux _ ht h1 h2
  | arr h c => exact aux _ ht h1 h2
  | str bin h =>
    obtain ⟨b1, k1, k2⟩ := h1
    obtain ⟨b2, k3, k4⟩ := h2
    have : b1 = b2 := by
      rcases k1 with rfl | ⟨rfl, rfl⟩
      · rcases k3 with e | ⟨e, _⟩
        · cases e; rfl
        · cases e
      · rcases k3 with e | ⟨_, e⟩
        · cases e
        · exact e.symm
    subst this
    omega

theorem fits_iff {mx old new inc : Nat} : fits mx old new inc = true ↔ new ≤ mx ∧ new ≤ old + inc := by
  simp only [fits, Bool.not_eq_true', Bool.or_eq_false_iff, Bool.and_eq_false_iff, decide_eq_false_iff_not]
  omega

theorem canSetDatum_var {t : Dti} {m : Bytes} {valid : Bool} {inc old new : Nat} {v : Datum}
    (hn : v.isNull = false) (hok : TyOk t) (hv : t.isVar = true) (ho : t.oldSize m valid = some old)
    (hw : t.newSize v = some new) : t.canSetDatum m valid inc v = some (fits t.hdr.maxSize old new inc) := by
  have hb := isVar_not_bit hok hv
  have hc : t.isCont = true := by
    cases hok with
    | prim => simp_all [isVar, hdr]
    | _ => rfl
  simp [canSetDatum, hn, hb, hv, hc, ho, hw]

/-- Every container on the way to the element at `pa` has room for `new` bytes instead of `old`. -/
def Rooms (d : Dti) (val : Val) (pa : List Nat) (old new : Nat) : Prop :=
  ∀ q u z n, q <+: pa → q ≠ pa → d.typeAt q = some u → val.at' q = some z → Sz u z n →
    n + new ≤ u.hdr.maxSize + old

theorem rooms_cons {d c : Dti} {vs : List Val} {i : Nat} {y : Val} {pa : List Nat} {old new S : Nat}
    (hd : TyOk d) (hc : d.tyAtNoData i = some c) (hi : vs[i]? = some y) (hS : Sz d (.node vs) S) :
    Rooms d (.node vs) (i :: pa) old new ↔ S + new ≤ d.hdr.maxSize + old ∧ Rooms c y pa old new := by
  have hty : ∀ q, d.typeAt (i :: q) = c.typeAt q := fun q => by simp [typeAt, hc]
  have hat : ∀ q, (Val.node vs).at' (i :: q) = y.at' q := fun q => by simp only [Val.at', hi]
  constructor
  · intro h
    refine ⟨h [] d (.node vs) S List.nil_prefix (by simp) rfl rfl hS, ?_⟩
    intro q u z n h1 h2 h3 h4 h5
    exact h (i :: q) u z n (List.cons_prefix_cons.mpr ⟨rfl, h1⟩) (by simpa using h2) (by rw [hty]; exact h3)
      (by rw [hat]; exact h4) h5
  · intro ⟨h1, h2⟩ q u z n g1 g2 g3 g4 g5
    cases q with
    | nil =>
      simp only [typeAt, Option.some.injEq] at g3
      simp only [Val.at', Option.some.injEq] at g4
      subst g3; subst g4
      rw [Sz.unique hd g5 hS]; exact h1
    | cons j q =>
      obtain ⟨rfl, g0⟩ := List.cons_prefix_cons.mp g1
      exact h2 q u z n g0 (by simpa using g2) (by rw [← hty]; exact g3) (by rw [← hat]; exact g4) g5

theorem rooms_nil {d : Dti} {val : Val} {old new : Nat} : Rooms d val [] old new := by
  intro q u z n h1 h2
  exact absurd (List.prefix_nil.mp h1) h2

/-- The condition for an element of type `t` at `pa` to be set to `v`. -/
def SetCond (d t : Dti) (val : Val) (inc : Nat) (v : Datum) (pa : List Nat) : Prop :=
  val.has pa ∧ (v.isNull = true → pa ≠ [] ∧ t.isNullable = true) ∧
    (v.isNull = false → t.isVar = true → ∃ y old new, val.at' pa = some y ∧ Sz t y old ∧ Needs t v new ∧
      new ≤ t.hdr.maxSize ∧ new ≤ old + inc ∧ Rooms d val pa old new)

theorem canSetElem_iff (pa : List Nat) : ∀ {d t : Dti} {m : Bytes} {S : Nat} {val : Val} {inc : Nat} {v : Datum},
    TyOk d → S ≤ m.length → Enc d (m.take S) val → d.typeAt pa = some t → (∃ y, EDen t v y) →
    ∃ q, d.canSetElem m inc v pa = some q ∧ (q = true ↔ SetCond d t val inc v pa) := by
  induction pa with
  | nil =>
    intro d t m S val inc v h hS he ht hd
    simp only [typeAt, Option.some.injEq] at ht
    subst ht
    obtain ⟨z1, z2, z3, z4, z5, z6⟩ := enc_size h he
    have hl : (m.take S).length = S := by simp; omega
    rw [hl] at z1 z5
    have hgs : d.getSize m = some S := (Props.IsTuple.size h ⟨hS, val, he⟩).1
    have hsz : Sz d val S := Or.inr ⟨_, he, hl⟩
    cases hn : v.isNull with
    | true =>
      refine ⟨false, by simp [canSetElem, hn], ?_⟩
      simp [SetCond, hn]
    | false =>
      obtain ⟨y, hy⟩ := hd
      simp only [EDen, hn, z4, Bool.false_eq_true, if_false] at hy
      cases hv : d.isVar with
      | false =>
        refine ⟨true, by simp [canSetElem, canSetDatum, hn, z4, hv], ?_⟩
        simp [SetCond, hn, hv, Val.has]
      | true =>
        obtain ⟨n, n1, n2, n3⟩ := newSize_needs h hv hy
        refine ⟨_, by
          simp only [canSetElem, hn, Bool.false_eq_true, if_false]
          exact canSetDatum_var hn h hv (by simp only [oldSize, if_true]; exact hgs) n1, ?_⟩
        rw [fits_iff]
        constructor
        · intro ⟨h1, h2⟩
          exact ⟨by simp [Val.has], by simp [hn], fun _ _ => ⟨val, S, n, rfl, hsz, n2, h1, h2, rooms_nil⟩⟩
        · intro ⟨_, _, h3⟩
          obtain ⟨y', old, new, k1, k2, k3, k4, k5, k6⟩ := h3 hn hv
          simp only [Val.at', Option.some.injEq] at k1
          subst k1
          rw [Needs.unique h k3 n2] at k4 k5
          rw [Sz.unique h k2 hsz] at k5
          exact ⟨k4, k5⟩
  | cons i pa ih =>
    intro d t m S val inc v h hS he ht hd
    have htv := (typeAt_ok (i :: pa) h ht).2
    cases hc : d.isCont with
    | false => rw [notCont_typeAt hc] at ht; cases ht
    | true =>
      obtain ⟨cs, o, vs, rfl, r, hv⟩ := crep_of_enc h hc hS he
      have hl : (m.take S).length = S := by simp; omega
      have hsz : Sz d (.node vs) S := Or.inr ⟨_, he, hl⟩
      by_cases hlt : i < cs.length
      · have hok := posOf_ok h hc r.countOk hlt
        have hty := tyAtNoData_pos h hc r.countOk hlt
        simp only [typeAt, hty, Option.bind_eq_bind, Option.bind_some] at ht
        obtain ⟨c, hci⟩ : ∃ c, cs[i]? = some c := ⟨_, List.getElem?_eq_getElem hlt⟩
        obtain ⟨z, hz⟩ : ∃ z, vs[i]? = some z := ⟨_, List.getElem?_eq_getElem (by rw [hv.1]; exact hlt)⟩
        have hev := hv.2 i c z hci hz
        have el := r.elt i c hci
        cases pa with
        | nil =>
          simp only [typeAt, Option.some.injEq] at ht
          subst ht
          simp only [canSetElem, canSetCont, hc, getCount_eq h hc r, Bool.not_true, Bool.false_eq_true, if_false,
            Option.bind_eq_bind, Option.bind_some, ge_iff_le, Nat.not_le.mpr hlt, canSetContUnsafe, canSetAt, posInfo_eq h hc r hlt]
          have hhas : (Val.node vs).has [i] := by simp [Val.has, hz]
          cases hn : v.isNull with
          | true =>
            refine ⟨_, by simp only [if_true]; rfl, ?_⟩
            simp [SetCond, hn, hhas]
          | false =>
            cases htvv : (posOf d cs.length i).ty.isVar with
            | false =>
              refine ⟨true, by simp, ?_⟩
              simp [SetCond, hn, hhas, htvv]
            | true =>
              obtain ⟨y, hy⟩ := hd
              have hb := isVar_not_bit hok htvv
              simp only [EDen, hn, hb, Bool.false_eq_true, if_false] at hy
              obtain ⟨n, n1, n2, n3⟩ := newSize_needs hok htvv hy
              have hdv := htv htvv
              have hmx := r.mx hdv
              have hold := eltAt_hlen hok el hev htvv
              have hcan : ∃ mem valid, (posOf d cs.length i).ty.oldSize mem valid = some c.hlen ∧
                  (match eltPtr d (posOf d cs.length i) (o i) c with
                    | none => (posOf d cs.length i).ty.canSetDatum (m.drop S) false (min inc (d.hdr.maxSize - S)) v
                    | some o => (posOf d cs.length i).ty.canSetDatum (m.drop o) true (min inc (d.hdr.maxSize - S)) v) =
                  (posOf d cs.length i).ty.canSetDatum mem valid (min inc (d.hdr.maxSize - S)) v := by
                rcases var_elt h hc r hci htvv with rfl | ⟨b, rfl⟩
                · exact ⟨m.drop S, false, rfl, rfl⟩
                · exact ⟨m.drop (o i), true, by simp only [oldSize, if_true]; exact elt_size r hci, rfl⟩
              obtain ⟨mem, valid, c1, c2⟩ := hcan
              refine ⟨fits (posOf d cs.length i).ty.hdr.maxSize c.hlen n (min inc (d.hdr.maxSize - S)), ?_, ?_⟩
              · simp only [Bool.not_true, Bool.false_eq_true, if_false, getSize_eq h hc r, Option.bind_some, sub32_eq hmx,
                  ptrAt_eq h hc r hci]
                rw [← canSetDatum_var hn hok htvv c1 n1, ← c2]
                rfl
              · rw [fits_iff]
                constructor
                · intro ⟨h1, h2⟩
                  refine ⟨hhas, by simp [hn], fun _ _ => ⟨z, c.hlen, n, by simp [Val.at', hz], hold, n2, h1, by omega, ?_⟩⟩
                  exact (rooms_cons h hty hz hsz).mpr ⟨by omega, rooms_nil⟩
                · intro ⟨_, _, h3⟩
                  obtain ⟨y', old, new, k1, k2, k3, k4, k5, k6⟩ := h3 hn htvv
                  simp only [Val.at', hz, Option.some.injEq] at k1
                  subst k1
                  have k6 := ((rooms_cons h hty hz hsz).mp k6).1
                  have e1 := Needs.unique hok k3 n2
                  have e2 := Sz.unique hok k2 hold
                  omega
        | cons j pa =>
          have hinc : ∃ inc', (t.isVar = true → inc' = min inc (d.hdr.maxSize - S) ∧ S ≤ d.hdr.maxSize) ∧
              (∀ {β : Type} (k : Nat → Option β),
                ((if d.isVar then (d.getSize m).bind fun s => (sub32 d.hdr.maxSize s).bind fun x => some (min inc x)
                  else some inc).bind k) = k inc') := by
            cases hdv : d.isVar with
            | false =>
              refine ⟨inc, ?_, by simp⟩
              intro hh
              have := htv hh
              rw [hdv] at this; cases this
            | true =>
              have hmx := r.mx hdv
              refine ⟨min inc (d.hdr.maxSize - S), fun _ => ⟨rfl, hmx⟩, ?_⟩
              intro β k
              simp only [if_true, getSize_eq h hc r, Option.bind_some, sub32_eq hmx]
          obtain ⟨inc', i1, i2⟩ := hinc
          have hstep : d.canSetElem m inc v (i :: j :: pa) =
              match eltPtr d (posOf d cs.length i) (o i) c with
              | none => some false
              | some o => (posOf d cs.length i).ty.canSetElem (m.drop o) inc' v (j :: pa) := by
            have := i2 (fun inc => (d.posInfo m i).bind fun p => (d.ptrAt m p).bind fun x =>
              match x with
              | none => some false
              | some o => canSetElem p.ty (m.drop o) inc v (j :: pa))
            simp only [posInfo_eq h hc r hlt, Option.bind_some, ptrAt_eq h hc r hci] at this
            rw [← this]
            simp only [canSetElem, hc, getCount_eq h hc r, Bool.not_true, Bool.false_eq_true, if_false,
              Option.bind_eq_bind, Option.bind_some, ge_iff_le, Nat.not_le.mpr hlt, posInfo_eq h hc r hlt,
              ptrAt_eq h hc r hci, Option.pure_def]
            cases d.isVar with
            | false => rfl
            | true => cases d.getSize m with
              | none => rfl
              | some s =>
                simp only [if_true, Option.bind_some]
                cases sub32 d.hdr.maxSize s <;> rfl
          rw [hstep]
          rcases walk h hc r hv hlt with ⟨h1, h2⟩ | ⟨h1, ⟨v', h2⟩, o', h3⟩ | ⟨o', S', y, h1, h2, h3, h4⟩
          · rw [ptrAt_eq h hc r hci, Option.some.injEq] at h2
            rw [h2]
            refine ⟨false, rfl, ?_⟩
            simp [SetCond, Val.has, h1]
          · exfalso
            have : (posOf d cs.length i).ty.isCont = false := by
              cases hcc : (posOf d cs.length i).ty with
              | prim => rfl
              | _ => rw [hcc] at h1; simp [isBit] at h1
            rw [notCont_typeAt this] at ht; cases ht
          · rw [ptrAt_eq h hc r hci, Option.some.injEq] at h1
            rw [h1]
            obtain ⟨q, q1, q2⟩ := ih (inc := inc') hok h3 h4 ht hd
            refine ⟨q, q1, q2.trans ?_⟩
            have hhas : (Val.node vs).has (i :: j :: pa) ↔ y.has (j :: pa) := by simp only [Val.has, h2]
            have hat : (Val.node vs).at' (i :: j :: pa) = y.at' (j :: pa) := by simp only [Val.at', h2]
            unfold SetCond
            rw [hhas, hat]
            constructor
            · intro ⟨g1, g2, g3⟩
              refine ⟨g1, fun hn => ⟨by simp, (g2 hn).2⟩, fun hn hvv => ?_⟩
              obtain ⟨z', old, new, k1, k2, k3, k4, k5, k6⟩ := g3 hn hvv
              obtain ⟨e1, e2⟩ := i1 hvv
              exact ⟨z', old, new, k1, k2, k3, k4, by omega, (rooms_cons h hty h2 hsz).mpr ⟨by omega, k6⟩⟩
            · intro ⟨g1, g2, g3⟩
              refine ⟨g1, fun hn => ⟨by simp, (g2 hn).2⟩, fun hn hvv => ?_⟩
              obtain ⟨z', old, new, k1, k2, k3, k4, k5, k6⟩ := g3 hn hvv
              obtain ⟨e1, e2⟩ := i1 hvv
              obtain ⟨f1, f2⟩ := (rooms_cons h hty h2 hsz).mp k6
              exact ⟨z', old, new, k1, k2, k3, k4, by omega, f2⟩
      · have hge : i ≥ cs.length := by omega
        have hnone : vs[i]? = none := List.getElem?_eq_none (by rw [hv.1]; exact hge)
        refine ⟨false, ?_, ?_⟩
        · cases pa <;> simp [canSetElem, canSetCont, hc, getCount_eq h hc r, hge]
        · simp [SetCond, Val.has, hnone]

end Dti
end TS
