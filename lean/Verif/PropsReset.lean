import Verif.PropsSize
import Verif.HashProof
import Verif.Lookup
import Verif.PropsExpand
/-
Property theorems C94: which tuples a single set can reach, taking a set back, and sets in either
order.
-/
namespace TS
namespace Val

theorem upd_upd (v : Val) (pa : List Nat) (x y : Val) (h : v.has pa) : (v.upd pa x).upd pa y = v.upd pa y := by
  induction pa generalizing v with
  | nil => rfl
  | cons i pa ih =>
    cases v with
    | node vs =>
      simp only [has] at h
      cases hi : vs[i]? with
      | none => rw [hi] at h; exact absurd h id
      | some z =>
        rw [hi] at h
        have hlt := (List.getElem?_eq_some_iff.mp hi).1
        simp only [upd, hi, List.getElem?_set, if_true, hlt, List.set_set]
        rw [ih z h]
    | _ => simp [has] at h

theorem upd_at (v : Val) (pa : List Nat) (y : Val) (h : v.has pa) (ha : v.at' pa = some y) : v.upd pa y = v := by
  induction pa generalizing v with
  | nil => simp only [at', Option.some.injEq] at ha; subst ha; rfl
  | cons i pa ih =>
    cases v with
    | node vs =>
      simp only [has] at h
      cases hi : vs[i]? with
      | none => rw [hi] at h; exact absurd h id
      | some z =>
        rw [hi] at h
        simp only [at', hi] at ha
        simp only [upd, hi]
        rw [ih z h ha]
        obtain ⟨hlt, he⟩ := List.getElem?_eq_some_iff.mp hi
        rw [← he, List.set_getElem_self]
    | _ => simp [has] at h

theorem has_upd (v : Val) (pa : List Nat) (x : Val) (h : v.has pa) : (v.upd pa x).has pa := by
  induction pa generalizing v with
  | nil => simp [has]
  | cons i pa ih =>
    cases v with
    | node vs =>
      simp only [has] at h
      cases hi : vs[i]? with
      | none => rw [hi] at h; exact absurd h id
      | some z =>
        rw [hi] at h
        have hlt := (List.getElem?_eq_some_iff.mp hi).1
        simp only [upd, hi, has, List.getElem?_set, if_true, hlt]
        exact ih z h
    | _ => simp [has] at h

theorem upd_comm (v : Val) (pa pb : List Nat) (x y : Val) (h1 : ¬ pa <+: pb) (h2 : ¬ pb <+: pa) :
    (v.upd pa x).upd pb y = (v.upd pb y).upd pa x := by
  induction pa generalizing v pb with
  | nil => exact absurd List.nil_prefix h1
  | cons i pa ih =>
    cases pb with
    | nil => exact absurd List.nil_prefix h2
    | cons j pb =>
      cases v with
      | node vs =>
        by_cases hij : i = j
        · subst hij
          cases hi : vs[i]? with
          | none => simp only [upd, hi]
          | some z =>
            have hlt := (List.getElem?_eq_some_iff.mp hi).1
            simp only [upd, hi, List.getElem?_set, if_true, hlt, List.set_set]
            rw [ih]
            · intro hh; exact h1 (List.cons_prefix_cons.mpr ⟨rfl, hh⟩)
            · intro hh; exact h2 (List.cons_prefix_cons.mpr ⟨rfl, hh⟩)
        · cases hi : vs[i]? with
          | none =>
            cases hj : vs[j]? with
            | none => simp only [upd, hi, hj]
            | some z => simp only [upd, hi, hj, List.getElem?_set, Ne.symm hij, if_false]
          | some z =>
            cases hj : vs[j]? with
            | none => simp only [upd, hi, hj, List.getElem?_set, hij, if_false]
            | some w =>
              simp only [upd, hi, hj, List.getElem?_set, hij, Ne.symm hij, if_false]
              rw [List.set_comm _ _ hij]
      | _ => simp only [upd]

theorem at_upd_prefix (v : Val) (q r : List Nat) (x : Val) {z : Val} (hz : v.at' q = some z) (h : v.has (q ++ r)) :
    (v.upd (q ++ r) x).at' q = some (z.upd r x) ∧ z.has r := by
  induction q generalizing v with
  | nil => simp only [at', Option.some.injEq] at hz; subst hz; exact ⟨rfl, h⟩
  | cons i q ih =>
    cases v with
    | node vs =>
      simp only [List.cons_append, has] at h
      cases hi : vs[i]? with
      | none => rw [hi] at h; exact absurd h id
      | some y =>
        rw [hi] at h
        simp only [at', hi] at hz
        have hlt := (List.getElem?_eq_some_iff.mp hi).1
        simp only [List.cons_append, upd, hi, at', List.getElem?_set, if_true, hlt]
        exact ih y hz h
    | _ => simp [has] at h

end Val

namespace Val

theorem has_upd_other (v : Val) (pa pb : List Nat) (x : Val) (h1 : ¬ pa <+: pb) (h : v.has pb) : (v.upd pa x).has pb := by
  induction pa generalizing v pb with
  | nil => exact absurd List.nil_prefix h1
  | cons i pa ih =>
    cases pb with
    | nil => simp [has]
    | cons j pb =>
      cases v with
      | node vs =>
        cases hi : vs[i]? with
        | none => simp only [upd, hi]; exact h
        | some z =>
          by_cases hij : i = j
          · subst hij
            simp only [has, hi] at h
            have hlt := (List.getElem?_eq_some_iff.mp hi).1
            simp only [upd, hi, has, List.getElem?_set, if_true, hlt]
            exact ih z pb (fun hh => h1 (List.cons_prefix_cons.mpr ⟨rfl, hh⟩)) h
          · simp only [has] at h
            simp only [upd, hi, has, List.getElem?_set, hij, if_false]
            exact h
      | _ => simp [has] at h

theorem at_of_has (pb : List Nat) {r : List Nat} (hr : r ≠ []) : ∀ {w : Val}, w.has (pb ++ r) → ∃ vs, w.at' pb = some (.node vs) := by
  induction pb with
  | nil =>
    intro w hw
    cases r with
    | nil => exact absurd rfl hr
    | cons i r => cases w <;> simp [has] at hw; exact ⟨_, rfl⟩
  | cons j pb ih =>
    intro w hw
    cases w with
    | node ws =>
      simp only [List.cons_append, has] at hw
      cases hj : ws[j]? with
      | none => rw [hj] at hw; exact absurd hw id
      | some z =>
        rw [hj] at hw
        simp only [at', hj]
        exact ih hw
    | _ => simp [has] at hw

/-- Two values that look the same everywhere but below one position differ by what is there. -/
theorem upd_of_looks {v v' : Val} {pa : List Nat} {y : Val} (h : v.has pa) (h' : v'.has pa) (hy : v'.at' pa = some y)
    (hl : ∀ pb, ¬ pa <+: pb → Dti.LooksAs (v.at' pb) (v'.at' pb)) : v.upd pa y = v' := by
  have refl : ∀ z, Dti.LooksAs z z := by
    intro z
    cases z with
    | none => trivial
    | some z => cases z <;> simp [Dti.LooksAs]
  refine Dti.val_ext_at _ _ _ (Nat.le_refl _) fun pb => ?_
  by_cases h1 : pa <+: pb
  · obtain ⟨r, rfl⟩ := h1
    rw [Dti.at_append' _ pa r hy, Dti.at_append' _ pa r (at_upd_same v pa y h)]
    exact refl _
  · by_cases h2 : pb <+: pa
    · obtain ⟨r, rfl⟩ := h2
      have hr : r ≠ [] := by rintro rfl; simp at h1
      have node : ∀ {w : Val}, w.has (pb ++ r) → ∃ vs, w.at' pb = some (.node vs) := fun hw => at_of_has pb hr hw
      obtain ⟨vs, e1⟩ := node (has_upd v _ y h)
      obtain ⟨vs', e2⟩ := node h'
      rw [e1, e2]
      trivial
    · rw [at_upd_other v pa pb y h1 h2]
      exact hl pb h1

end Val

namespace Dti

/-- An element that is NULL may be NULL. -/
theorem null_nullable (pa : List Nat) : ∀ {d t : Dti} {b : Bytes} {val : Val}, TyOk d → Enc d b val → val.has pa →
    val.at' pa = some .null → d.typeAt pa = some t → pa ≠ [] ∧ t.isNullable = true := by
  induction pa with
  | nil =>
    intro d t b val _ e _ ha _
    simp only [Val.at', Option.some.injEq] at ha
    subst ha
    exact absurd e enc_not_null
  | cons i pa ih =>
    intro d t b val hd e hh ha ht
    refine ⟨by simp, ?_⟩
    cases hc : d.isCont with
    | false => rw [notCont_typeAt hc] at ht; cases ht
    | true =>
      obtain ⟨cs, o, vs, rfl, r, hv⟩ := enc_cont hc e
      simp only [Val.at', Val.has] at ha hh
      cases hx : vs[i]? with
      | none => rw [hx] at ha; simp at ha
      | some x =>
        rw [hx] at ha hh
        have hlt : i < cs.length := by rw [← hv.1]; exact (List.getElem?_eq_some_iff.mp hx).1
        have hty := tyAtNoData_pos hd hc r.countOk hlt
        simp only [typeAt, hty, Option.bind_eq_bind, Option.bind_some] at ht
        have hok := posOf_ok hd hc r.countOk hlt
        have hev := hv.2 i _ _ (List.getElem?_eq_getElem hlt) hx
        have he := r.elt i _ (List.getElem?_eq_getElem hlt)
        generalize cs[i] = c at hev he
        cases c with
        | null =>
          have : x = .null := hev
          subst this
          cases pa with
          | cons => simp [Val.has] at hh
          | nil =>
            simp only [typeAt, Option.some.injEq] at ht
            subst ht
            rcases he with ⟨he, _⟩ | ⟨he, _⟩
            · simp only [needsValid, Bool.and_eq_true] at he
              simp [isNullable, he.2]
            · simp [isNullable, he]
        | bits v =>
          have : x = .bits v := hev
          subst this
          cases pa <;> simp [Val.at'] at ha
        | fixd x' => exact (ih hok hev hh ha ht).2
        | var x' => exact (ih hok hev hh ha ht).2

/-- What a value given for a variable sized element needs is what it takes. -/
theorem needs_enc {t : Dti} {v : Datum} {y : Val} {b : Bytes} (ht : TyOk t) (hv : t.isVar = true) (hd : Den t v y)
    (e : Enc t b y) : Needs t v b.length := by
  obtain ⟨n, -, n2, n3⟩ := newSize_needs ht hv hd
  have hmx : b.length ≤ t.hdr.maxSize := ((enc_size ht e).2.2.2.2.1 hv).2
  suffices n = b.length by rw [← this]; exact n2
  cases t with
  | prim k h => exact absurd hv (by cases ht; simp_all [isVar, hdr])
  | str bin h =>
    obtain ⟨b0, c, x, h1, h2, h3, h4, h5, h6⟩ := hd
    have hxc := h5 hv
    subst hxc
    rw [h4] at e
    rw [Props.enc_chars_len ht hv e]
    obtain ⟨b1, k1, k2⟩ := n2
    have : b1 = b0 := by
      rcases k1 with rfl | ⟨rfl, rfl⟩ <;> simpa [Datum.asBytes] using h1
    subst this
    rw [k2, h3, strn_takeWhile]
  | tup h fs =>
    refine Sz.unique ht ?_ (.inr ⟨b, e, rfl⟩)
    rcases hd with ⟨src, s, h1, h2, h3, h4⟩ | ⟨h1, h2⟩
    · subst h1
      have : Needs (.tup h fs) (.ptr src) s := .inl ⟨src, rfl, h3, y, h4⟩
      rw [Needs.unique ht n2 this]
      exact .inr ⟨_, h4, by simp; omega⟩
    · subst h1
      have : Needs (.tup h fs) .empty h.size := .inr ⟨rfl, rfl⟩
      rw [Needs.unique ht n2 this]
      exact .inr ⟨_, h2, minB_length ht rfl⟩
  | arr h c =>
    refine Sz.unique ht ?_ (.inr ⟨b, e, rfl⟩)
    rcases hd with ⟨src, s, h1, h2, h3, h4⟩ | ⟨h1, h2⟩
    · subst h1
      have : Needs (.arr h c) (.ptr src) s := .inl ⟨src, rfl, h3, y, h4⟩
      rw [Needs.unique ht n2 this]
      exact .inr ⟨_, h4, by simp; omega⟩
    · subst h1
      have : Needs (.arr h c) .empty h.size := .inr ⟨rfl, rfl⟩
      rw [Needs.unique ht n2 this]
      exact .inr ⟨_, h2, minB_length ht rfl⟩

/-- An element of variable size is NULL or takes some bytes. -/
theorem held_sz {t : Dti} {y : Val} (ht : TyOk t) (hv : t.isVar = true) (hh : Held t y) : ∃ n, Sz t y n := by
  rcases hh with rfl | ⟨v, rfl, hb, -⟩ | ⟨b, e⟩
  · exact ⟨0, .inl ⟨rfl, rfl⟩⟩
  · rw [isVar_not_bit ht hv] at hb; cases hb
  · exact ⟨_, .inr ⟨b, e, rfl⟩⟩

/-- If the tree with one value replaced is that of some tuple of the type, the value can be set. -/
theorem setCond_target {d t : Dti} {b b2 : Bytes} {val y : Val} {v : Datum} {inc : Nat} {pa : List Nat} (hd : TyOk d)
    (e : Enc d b val) (e2 : Enc d b2 (val.upd pa y)) (hh : val.has pa) (ht : d.typeAt pa = some t) (hy : EDen t v y)
    (hinc : b2.length ≤ b.length + inc) : SetCond d t val inc v pa := by
  have htk := (typeAt_ok pa hd ht).1
  have hat := Val.at_upd_same val pa y hh
  refine ⟨hh, ?_, ?_⟩
  · intro hn
    simp only [EDen, hn, if_true] at hy
    subst hy
    exact null_nullable pa hd e2 (Val.has_upd val pa _ hh) hat ht
  · intro hn hv
    obtain ⟨y0, h0⟩ := Props.has_at hh
    obtain ⟨old, hold⟩ := held_sz htk hv (held_at pa hd (.inr (.inr ⟨_, e⟩)) h0 ht)
    simp only [EDen, hn, isVar_not_bit htk hv, Bool.false_eq_true, if_false] at hy
    have hyh := held_at pa hd (.inr (.inr ⟨_, e2⟩)) hat ht
    obtain ⟨c, hc⟩ : ∃ c, Enc t c y := by
      rcases hyh with rfl | ⟨w, rfl, hb, -⟩ | h
      · exfalso
        cases t with
        | prim k h => exact absurd hv (by cases htk; simp_all [isVar, hdr])
        | str bin h => obtain ⟨_, _, x, _, _, _, h4, _⟩ := hy; simp [chars] at h4
        | tup h fs => rcases hy with ⟨_, _, _, _, _, h⟩ | ⟨_, h⟩ <;> exact enc_not_null h
        | arr h c => rcases hy with ⟨_, _, _, _, _, h⟩ | ⟨_, h⟩ <;> exact enc_not_null h
      · rw [isVar_not_bit htk hv] at hb; cases hb
      · exact h
    have hsz : Sz t y c.length := .inr ⟨c, hc, rfl⟩
    have hmx : c.length ≤ t.hdr.maxSize := ((enc_size htk hc).2.2.2.2.1 hv).2
    have hlen := upd_len pa (old := old) (new := c.length) hd e e2 hh ht h0 (fun _ => ⟨hold, hsz⟩) (by rw [hv]; simp)
    refine ⟨y0, old, c.length, h0, hold, needs_enc htk hv hy hc, hmx, by omega, ?_⟩
    intro q u z n hq hne hu hz hn'
    obtain ⟨r, rfl⟩ := hq
    obtain ⟨a1, a2⟩ := Val.at_upd_prefix val q r y hz hh
    have huk := (typeAt_ok q hd hu).1
    have huv := Props.prefix_var hd ht hv ⟨r, rfl⟩ hu
    have hz1 := held_at q hd (.inr (.inr ⟨_, e⟩)) hz hu
    have hz2 := held_at q hd (.inr (.inr ⟨_, e2⟩)) a1 hu
    have hr : r ≠ [] := by rintro rfl; simp at hne
    have enc_of : ∀ {w : Val}, Held u w → w.has r → ∃ b, Enc u b w := by
      intro w hw hwr
      rcases hw with rfl | ⟨_, rfl, -⟩ | h
      · cases r with
        | nil => exact absurd rfl hr
        | cons => simp [Val.has] at hwr
      · cases r with
        | nil => exact absurd rfl hr
        | cons => simp [Val.has] at hwr
      · exact h
    obtain ⟨c1, e1⟩ := enc_of hz1 a2
    obtain ⟨c2, e2'⟩ := enc_of hz2 (Val.has_upd z r y a2)
    have htr : u.typeAt r = some t := by
      rw [Props.typeAt_append, hu] at ht; exact ht
    have hzr : z.at' r = some y0 := by rw [← at_append' val q r hz]; exact h0
    have hl2 := upd_len r (old := old) (new := c.length) huk e1 e2' a2 htr hzr (fun _ => ⟨hold, hsz⟩) (by rw [hv]; simp)
    have : n = c1.length := Sz.unique huk hn' (.inr ⟨c1, e1, rfl⟩)
    have hm2 : c2.length ≤ u.hdr.maxSize := ((enc_size huk e2').2.2.2.2.1 huv).2
    omega

/-- The datum says everything about a fixed size binary: it is not shorter. (A shorter one leaves the
rest of the bytes as they happen to be.) -/
def Full (t : Dti) (v : Datum) : Prop := ∀ h b, t = .str true h → h.isVar = false → v.asBytes = some b → h.size ≤ b.length

/-- Such a datum stands for one value only. -/
theorem eden_unique {t : Dti} {v : Datum} {y y' : Val} (ht : TyOk t) (hf : Full t v) (h : EDen t v y) (h' : EDen t v y') :
    y = y' := by
  unfold EDen at h h'
  split at h
  · rename_i hn; simp only [hn, if_true] at h'; rw [h, h']
  · rename_i hn
    simp only [hn, Bool.false_eq_true, if_false] at h'
    split at h
    · rename_i hb
      simp only [hb, if_true] at h'
      obtain ⟨n, h1, h2⟩ := h
      obtain ⟨n', h1', h2'⟩ := h'
      rw [h1] at h1'; cases h1'; rw [h2, h2']
    · rename_i hb
      simp only [hb, Bool.false_eq_true, if_false] at h'
      have sub : ∀ {u : Dti}, TyOk u →
          ((∃ src s, v = .ptr src ∧ u.getSize src = some s ∧ s ≤ src.length ∧ Enc u (src.take s) y) ∨ (v = .empty ∧ Enc u (minB u) y)) →
          ((∃ src s, v = .ptr src ∧ u.getSize src = some s ∧ s ≤ src.length ∧ Enc u (src.take s) y') ∨ (v = .empty ∧ Enc u (minB u) y')) →
          y = y' := by
        intro u hu a a'
        rcases a with ⟨src, s, rfl, a1, a2, a3⟩ | ⟨rfl, a⟩
        · rcases a' with ⟨src', s', e, b1, b2, b3⟩ | ⟨e, _⟩
          · cases e
            rw [a1] at b1; cases b1
            exact val_ext hu a2 a2 a3 b3 fun _ => .inl rfl
          · cases e
        · rcases a' with ⟨src', s', e, _⟩ | ⟨_, a'⟩
          · cases e
          · have hS : (minB u).length ≤ (minB u).length := Nat.le_refl _
            exact val_ext hu hS hS (by rw [List.take_length]; exact a) (by rw [List.take_length]; exact a') fun _ => .inl rfl
      cases t with
      | prim k hh =>
        cases k <;> simp only [Den] at h h' <;> first | exact h.elim | skip
        all_goals
          obtain ⟨n, h1, h2⟩ := h
          obtain ⟨n', h1', h2'⟩ := h'
          rw [h1] at h1'; cases h1'; rw [h2, h2']
      | str bin hh =>
        obtain ⟨b0, b, x, h1, h2, h3, h4, h5, h6⟩ := h
        obtain ⟨b0', b', x', h1', h2', h3', h4', h5', h6'⟩ := h'
        rw [h1] at h1'; cases h1'
        rw [← h3] at h3'; subst h3'
        rw [h4, h4']
        congr 1
        cases hv : hh.isVar with
        | true => rw [h5 hv, h5' hv]
        | false =>
          obtain ⟨a1, a2, a3⟩ := h6 hv
          obtain ⟨c1, c2, c3⟩ := h6' hv
          apply List.ext_getElem?
          intro i
          by_cases hi : i < hh.size
          · by_cases hb : i < b'.length
            · rw [a2 i hb hi, c2 i hb hi]
            · cases bin with
              | false => rw [a3 rfl i (by omega) hi, c3 rfl i (by omega) hi]
              | true =>
                have := hf hh b0 rfl hv h1
                simp only [if_true] at h3
                subst h3
                omega
          · rw [List.getElem?_eq_none (by omega), List.getElem?_eq_none (by omega)]
      | tup hh fs => exact sub ht h h'
      | arr hh c => exact sub ht h h'

/-- What is read is all of what is there: of a text string nothing but NULs follows the first NUL
if its size is fixed, and there is no NUL in it if its size varies. -/
def WholeVal (t : Dti) (y : Val) : Prop :=
  ∀ h x, t = .str false h → y = chars x → ∀ k c, x[k]? = some c → (strn x).length ≤ k → h.isVar = false ∧ c = 0

/-- What is read at an element stands for the value of the element. -/
theorem shows_eden {t : Dti} {y : Val} {dt : Datum} (ht : TyOk t) (hs : Shows t y dt) (hh : Held t y) (hw : WholeVal t y) :
    EDen t dt y ∧ Full t dt ∧ Props.Accepts t dt := by
  have hacc : Props.Accepts t dt := by
    rcases Props.shows_exact ht hs hh with rfl | ⟨h1, h2⟩ | ⟨m, S, h1, h2, h3, h4, h5⟩
    · exact .inl rfl
    · exact Props.exact_accepts h1 h2
    · right; right
      cases t with
      | prim k h => exact absurd rfl (h5 k h)
      | str b h => exact absurd rfl (h4 b h)
      | tup => exact ⟨m, S, h1, h2, y, h3⟩
      | arr => exact ⟨m, S, h1, h2, y, h3⟩
  have hx := Props.shows_exact ht hs hh
  cases y with
  | null => cases hs; exact ⟨rfl, by intro h b _ _ h; simp [Datum.asBytes] at h, hacc⟩
  | bits v =>
    obtain ⟨h1, rfl⟩ := hs
    refine ⟨?_, by intro h b _ _ h; simp [Datum.asBytes] at h, hacc⟩
    rcases hh with hh | ⟨v', hv, _, hlt⟩ | ⟨b, hh⟩
    · cases hh
    · cases hv
      simp only [EDen, Datum.isNull, Bool.false_eq_true, if_false, h1, if_true]
      exact ⟨v, rfl, by rw [Nat.mod_eq_of_lt hlt]⟩
    · cases hh
  | raw b =>
    rcases hh with hh | ⟨v', hv, _⟩ | ⟨b', hh⟩
    · cases hh
    · cases hv
    · cases t with
      | prim k h =>
        obtain ⟨hnb, hl, hb⟩ := enc_prim hh
        cases hb
        have hl : b.length = h.size := hl
        have hle := leEnc_leDec b
        have hie := intEnc_intDec b
        rw [hl] at hle hie
        refine ⟨?_, (fun _ _ e => by cases e), hacc⟩
        cases k <;> simp only [Shows] at hs <;> subst hs <;>
          simp only [EDen, Datum.isNull, Bool.false_eq_true, if_false, isBit, Den, Datum.asUint, Datum.asInt, Datum.asFlt,
            Option.some.injEq, exists_eq_left', hle, hie, hl, if_true]
      | _ => exact hs.elim
  | node vs =>
    rcases hh with hh | ⟨v', hv, _⟩ | ⟨b', hh⟩
    · cases hh
    · cases hv
    · cases t with
      | prim => exact hs.elim
      | str bin h =>
        obtain ⟨x, hxe, rfl⟩ := hs
        obtain ⟨cs, o, vs', e1, r, hv⟩ := enc_cont rfl hh
        cases e1
        obtain ⟨s1, s2⟩ := str_vals r hv
        have hx2 := hxe
        rw [s1] at hx2
        have hx2 := (chars_inj hx2).symm
        have hl : x.length = cs.length := by rw [hx2]; exact rd_length _ _ _ (by omega)
        have hcap : h.isVar = false → x.length = h.size := by
          intro hv
          have := r.cntF (by simp [isVarCount, hv])
          cases ht with
          | str _ _ a1 a2 a3 a4 => simp only [hdr] at this; have := (a3 hv).1; omega
        have hlim : (if bin then x else strn x).length < lim := by
          rcases hx with hx | ⟨_, hx⟩ | ⟨_, _, hx, _⟩
          · cases hx
          · exact hx _ rfl
          · cases hx
        refine ⟨?_, ?_, hacc⟩
        · simp only [EDen, Datum.isNull, Bool.false_eq_true, if_false, isBit]
          have hss : strn (strn x) = strn x := strn_self (Props.strn_cut (x := x)).1
          refine ⟨_, (if bin then x else strn x), x, rfl, hlim, ?_, hxe, ?_, ?_⟩
          · cases bin <;> simp [hss]
          · intro hvr
            cases bin with
            | true => rfl
            | false =>
              simp only [Bool.false_eq_true, if_false]
              refine (strn_self fun h0 => ?_).symm
              obtain ⟨k, hk, hk0⟩ := List.getElem_of_mem h0
              have hlen : (strn x).length ≤ k := by
                rcases Nat.lt_or_ge k (strn x).length with hlt | hge
                · exfalso
                  have hp : strn x <+: x := List.takeWhile_prefix _
                  have := hp.getElem hlt
                  rw [hk0] at this
                  exact (Props.strn_cut (x := x)).1 (this ▸ List.getElem_mem hlt)
                · exact hge
              have := (hw h x rfl hxe k 0 (by rw [List.getElem?_eq_getElem hk, hk0]) hlen).1
              rw [show h.isVar = true from hvr] at this; cases this
          · intro hfx
            refine ⟨hcap hfx, ?_, ?_⟩
            · intro i hi _
              cases bin with
              | true => rfl
              | false =>
                simp only [Bool.false_eq_true, if_false] at hi ⊢
                have hp : strn x <+: x := List.takeWhile_prefix _
                have hxi : i < x.length := Nat.lt_of_lt_of_le hi (strn_le x)
                rw [List.getElem?_eq_getElem hi, List.getElem?_eq_getElem hxi, hp.getElem hi]
            · intro hb i hi his
              subst hb
              simp only [Bool.false_eq_true, if_false] at hi
              have hxi : i < x.length := by rw [hcap hfx]; exact his
              have := (hw h x rfl hxe i _ (List.getElem?_eq_getElem hxi) hi).2
              rw [List.getElem?_eq_getElem hxi, this]
        · intro h' b e hv hb
          cases e
          simp only [Datum.asBytes, if_true, Option.some.injEq] at hb
          subst hb
          rw [hcap hv]; exact Nat.le_refl _
      | tup h fs =>
        obtain ⟨m, S, rfl, h2, h3⟩ := hs
        exact ⟨.inl ⟨m, S, rfl, (Props.IsTuple.size ht ⟨h2, _, h3⟩).1, h2, h3⟩, (fun _ _ e => by cases e), hacc⟩
      | arr h c =>
        obtain ⟨m, S, rfl, h2, h3⟩ := hs
        exact ⟨.inl ⟨m, S, rfl, (Props.IsTuple.size ht ⟨h2, _, h3⟩).1, h2, h3⟩, (fun _ _ e => by cases e), hacc⟩

end Dti
namespace Props
open Dti

/-- The datum `dt` read at `pa` tells all of what is there: a text string of variable size has no NUL in
it, and in one of fixed size only NULs follow the first. (`set_element_in_tuple` addressing a single
character can make other ones.) -/
def AllRead (d : Dti) (m : Bytes) (pa : List Nat) (t : Dti) (dt : Datum) : Prop :=
  ∀ h b, t = .str false h → dt = .bytes b → ∀ k c, d.getElem m (pa ++ [k]) = some (some c) → b.length ≤ k →
    h.isVar = false ∧ c = .uint 0

theorem whole_val {d t : Dti} {m : Bytes} {S : Nat} {val y : Val} {pa : List Nat} {dt : Datum} (hd : TyOk d) (hS : S ≤ m.length)
    (he : Enc d (m.take S) val) (ht : d.typeAt pa = some t) (ha : val.at' pa = some y) (hs : Shows t y dt)
    (hw : AllRead d m pa t dt) : WholeVal t y := by
  rintro h x rfl rfl k c hk hlen
  obtain ⟨x', h1, h2⟩ := hs
  have := chars_inj h1
  subst this
  have hak : val.at' (pa ++ [k]) = some (.raw [c]) := by
    rw [at_append' val pa [k] ha]
    simp [Val.at', chars, hk]
  have g := getElem_ok (pa ++ [k]) hd hS he
  simp only [GetOk, hak] at g
  rcases g with ⟨g, _⟩ | ⟨u, du, g1, g2, g3⟩
  · cases g
  · rw [typeAt_append, ht] at g1
    simp only [Option.bind_some, typeAt, tyAtNoData] at g1
    have hw' := hw h _ rfl h2 k du g2 (by simpa using hlen)
    refine ⟨hw'.1, ?_⟩
    rw [hw'.2] at g3
    cases u with
    | prim kk hh =>
      cases kk <;> simp only [Shows] at g3 <;> first | cases g3 | skip
      all_goals
        simp only [Datum.uint.injEq, leDec] at g3
        apply UInt8.toNat_inj.mp
        simp; omega
    | _ => exact g3.elim

/-- The two memories hold tuples of the type `d` that nothing tells apart: sizes, element counts and
reads at every position agree. -/
def ReadsLike (d : Dti) (m m' : Bytes) : Prop :=
  d.getSize m = d.getSize m' ∧ (∀ pa, Same (d.getElem m pa) (d.getElem m' pa)) ∧
  ∀ pa t, d.typeAt pa = some t → t.isCont = true → d.elemCount m pa = d.elemCount m' pa

theorem alike_of {d : Dti} {m m' : Bytes} {S S' : Nat} {val : Val} (hd : TyOk d) (hS : S ≤ m.length) (hS' : S' ≤ m'.length)
    (e : Enc d (m.take S) val) (e' : Enc d (m'.take S') val) : S = S' ∧ ReadsLike d m m' := by
  have hl := enc_len e hd e'
  simp only [List.length_take] at hl
  have hl : S = S' := by omega
  refine ⟨hl, ?_, fun pa => getElem_same hd hd hS e hS' e' rfl rfl, fun pa t ht hc => ?_⟩
  · rw [(IsTuple.size hd ⟨hS, _, e⟩).1, (IsTuple.size hd ⟨hS', _, e'⟩).1, hl]
  · rw [elemCount_ok pa hd hS e ht hc, elemCount_ok pa hd hS' e' ht hc]

/-- One set towards a value some tuple of the type holds. -/
theorem set_towards {d t : Dti} {m m2 : Bytes} {S S2 inc : Nat} {v : Datum} {pa : List Nat} {val y : Val} (hu : Usable d)
    (hS : S ≤ m.length) (he : Enc d (m.take S) val) (hh : val.has pa) (ht : d.typeAt pa = some t) (hS2 : S2 ≤ m2.length)
    (he2 : Enc d (m2.take S2) (val.upd pa y)) (hy : EDen t v y) (hf : Full t v) (hv : Accepts t v)
    (hroom : d.isVar = true → min (S + inc) d.hdr.maxSize ≤ m.length) :
    SetArgs d m S pa v inc ∧ ((∃ m', d.setElem m pa v inc = some (m', true)) ↔ (t.isVar = true → v ≠ .null → S2 ≤ S + inc)) ∧
      ∀ m', d.setElem m pa v inc = some (m', true) → m'.length = m.length ∧ IsTuple d m' S2 ∧ ReadsLike d m' m2 ∧
        (∀ x, S ≤ x → S2 ≤ x → m'[x]? = m[x]?) ∧ Enc d (m'.take S2) (val.upd pa y) := by
  have hd := hu.ok
  have htk := (typeAt_ok pa hd ht).1
  have ha : SetArgs d m S pa v inc := ⟨hu, ⟨hS, val, he⟩, fun u hu' => by rw [ht] at hu'; cases hu'; exact hv, hroom⟩
  have hl : (m.take S).length = S := by simp; omega
  have hl2 : (m2.take S2).length = S2 := by simp; omega
  have fwd : ∀ m', d.setElem m pa v inc = some (m', true) → m'.length = m.length ∧ IsTuple d m' S2 ∧ ReadsLike d m' m2 ∧
      (∀ x, S ≤ x → S2 ≤ x → m'[x]? = m[x]?) ∧ Enc d (m'.take S2) (val.upd pa y) ∧ S2 ≤ S + inc := by
    intro m' hset
    obtain ⟨m3, q, S', val', k1, k2, k3, k4, k5, k6, k7, k8, k9⟩ := setElem_main hd hS he ha.datum ha.room
    rw [hset] at k1
    cases k1
    obtain ⟨g1, t', y', g2, g3, g4⟩ := k9 rfl
    rw [ht] at g2
    cases g2
    rw [eden_unique htk hf g3 hy] at g4
    subst g4
    obtain ⟨e1, e2⟩ := alike_of hd (by rw [k3]; exact k4) hS2 k5 he2
    subst e1
    exact ⟨k3, ⟨by rw [k3]; exact k4, _, k5⟩, e2, k7, k5, k6⟩
  refine ⟨ha, ⟨fun ⟨m', h⟩ _ _ => (fwd m' h).2.2.2.2.2, fun h => ?_⟩, fun m' h => ?_⟩
  · obtain ⟨m', q, h1, -⟩ := C36_can_set_predicts ha
    refine ⟨m', ?_⟩
    rw [h1, (set_can ha he h1).mpr ⟨t, ht, ?_⟩]
    by_cases hc : t.isVar = true ∧ v ≠ .null
    · exact setCond_target hd he he2 hh ht hy (by rw [hl, hl2]; exact h hc.1 hc.2)
    · have := setCond_target (inc := S2) hd he he2 hh ht hy (by omega)
      refine ⟨this.1, this.2.1, fun g1 g2 => absurd ⟨g2, ?_⟩ hc⟩
      rintro rfl; simp [Datum.isNull] at g1
  · obtain ⟨a1, a2, a3, a4, a5, -⟩ := fwd m' h
    exact ⟨a1, a2, a3, a4, a5⟩

/-- C94. Two tuples of a type that are read alike but at one position and below it: setting what is read
there in the second makes the first like the second. It succeeds exactly if the increment allows for
the size of the second (if the element is of variable size and not set to NULL). What is
read of a tuple or array is a pointer; it has to point to memory that the call leaves alone. -/
theorem C94_towards {d t : Dti} {m m2 : Bytes} {S S2 inc : Nat} {dt : Datum} {pa : List Nat} (hu : Usable d)
    (h : IsTuple d m S) (h2 : IsTuple d m2 S2) (ht : d.typeAt pa = some t) (hp : Present d m pa) (hp2 : Present d m2 pa)
    (hr : ∀ pb, ¬ pa <+: pb → Same (d.getElem m pb) (d.getElem m2 pb)) (hg : d.getElem m2 pa = some (some dt))
    (hw : AllRead d m2 pa t dt) (hroom : d.isVar = true → min (S + inc) d.hdr.maxSize ≤ m.length) :
    SetArgs d m S pa dt inc ∧
      ((∃ m', d.setElem m pa dt inc = some (m', true)) ↔ (t.isVar = true → dt ≠ .null → S2 ≤ S + inc)) ∧
      ∀ m', d.setElem m pa dt inc = some (m', true) → m'.length = m.length ∧ IsTuple d m' S2 ∧ ReadsLike d m' m2 ∧
        ∀ x, S ≤ x → S2 ≤ x → m'[x]? = m[x]? := by
  have hd := hu.ok
  obtain ⟨hS, val, he⟩ := h
  obtain ⟨hS2, val2, he2⟩ := h2
  obtain ⟨y, y1, y2, y3⟩ := read_at hd hS2 he2 ht hg
  obtain ⟨w1, w2, w3⟩ := shows_eden (typeAt_ok pa hd ht).1 y2 y3 (whole_val hd hS2 he2 ht y1 y2 hw)
  have hh := (present_iff hd hS he ht).mpr hp
  have heq := Val.upd_of_looks hh ((present_iff hd hS2 he2 ht).mpr hp2) y1 fun pb hb => looks_at hd hS hS2 he he2 (hr pb hb)
  obtain ⟨a1, a2, a3⟩ := set_towards hu hS he hh ht hS2 (by rw [heq]; exact he2) w1 w2 w3 hroom
  refine ⟨a1, a2, fun m' hm => ?_⟩
  obtain ⟨b1, b2, b3, b4, -⟩ := a3 m' hm
  exact ⟨b1, b2, b3, b4⟩

/-- C94. A successful set is undone by setting what was read before: the tuple has its former size,
counts and reads again. The undoing call succeeds exactly if its increment allows for the former size (if
the element is of variable size and was not NULL). -/
theorem C94_undo {d t : Dti} {m m' : Bytes} {S inc : Nat} {v dt : Datum} {pa : List Nat} (ha : SetArgs d m S pa v inc)
    (ht : d.typeAt pa = some t) (hg : d.getElem m pa = some (some dt)) (hw : AllRead d m pa t dt)
    (hset : d.setElem m pa v inc = some (m', true)) :
    ∃ S', IsTuple d m' S' ∧ d.getSize m' = some S' ∧ ∀ back, (d.isVar = true → min (S' + back) d.hdr.maxSize ≤ m'.length) →
      SetArgs d m' S' pa dt back ∧
      ((∃ m2, d.setElem m' pa dt back = some (m2, true)) ↔ (t.isVar = true → dt ≠ .null → S ≤ S' + back)) ∧
      (∀ m2, d.setElem m' pa dt back = some (m2, true) → m2.length = m.length ∧ IsTuple d m2 S ∧ ReadsLike d m2 m ∧
        ∀ x, S ≤ x → S' ≤ x → m2[x]? = m[x]?) := by
  have hd := ha.usable.ok
  obtain ⟨hS, val, he⟩ := ha.tuple
  obtain ⟨y, y1, y2, y3⟩ := read_at hd hS he ht hg
  obtain ⟨w1, w2, w3⟩ := shows_eden (typeAt_ok pa hd ht).1 y2 y3 (whole_val hd hS he ht y1 y2 hw)
  obtain ⟨m3, q, S', val', k1, k2, k3, k4, k5, k6, k7, k8, k9⟩ := setElem_main hd hS he ha.datum ha.room
  rw [hset] at k1
  cases k1
  obtain ⟨g1, t', y', g2, g3, g4⟩ := k9 rfl
  subst g4
  have hS' : S' ≤ m'.length := by rw [k3]; exact k4
  have hb : (val.upd pa y').upd pa y = val := by rw [Val.upd_upd val pa y' y g1, Val.upd_at val pa y g1 y1]
  refine ⟨S', ⟨hS', _, k5⟩, (IsTuple.size hd ⟨hS', _, k5⟩).1, fun back hroom => ?_⟩
  obtain ⟨a1, a2, a3⟩ := set_towards ha.usable hS' k5 (Val.has_upd val pa y' g1) ht hS (by rw [hb]; exact he) w1 w2 w3 hroom
  refine ⟨a1, a2, fun m2 hm => ?_⟩
  obtain ⟨b1, b2, b3, b4, -⟩ := a3 m2 hm
  exact ⟨by rw [b1, k3], b2, b3, fun x h1 h2 => by rw [b4 x h2 h1, k7 x h1 h2]⟩

/-- C94. The memory the tuple was in is enough to undo the set: allowed to grow by what the tuple shrank,
the undoing call succeeds. -/
theorem C94_undo_there {d t : Dti} {m m' : Bytes} {S inc : Nat} {v dt : Datum} {pa : List Nat} (ha : SetArgs d m S pa v inc)
    (ht : d.typeAt pa = some t) (hg : d.getElem m pa = some (some dt)) (hw : AllRead d m pa t dt)
    (hset : d.setElem m pa v inc = some (m', true)) :
    ∃ S' m2, d.getSize m' = some S' ∧ d.setElem m' pa dt (S - S') = some (m2, true) ∧ IsTuple d m2 S ∧ ReadsLike d m2 m := by
  obtain ⟨S', h1, h2, h3⟩ := C94_undo ha ht hg hw hset
  obtain ⟨m3, q, S3, val', k1, k2, k3, -⟩ := setElem_main ha.usable.ok ha.tuple.1 ha.tuple.2.choose_spec ha.datum ha.room
  rw [hset] at k1
  cases k1
  have hS := ha.tuple.1
  have hS' := h1.1
  obtain ⟨-, a2, a3⟩ := h3 (S - S') fun _ => by omega
  obtain ⟨m2, hm⟩ := a2.mpr fun _ _ => by omega
  obtain ⟨-, b2, b3, -⟩ := a3 m2 hm
  exact ⟨S', m2, h2, hm, b2, b3⟩

/-- C94. Setting what is there already succeeds, even if no increment is allowed, and changes nothing that can be read. -/
theorem C94_same {d t : Dti} {m : Bytes} {S inc : Nat} {dt : Datum} {pa : List Nat} (hu : Usable d) (h : IsTuple d m S)
    (ht : d.typeAt pa = some t) (hp : Present d m pa) (hg : d.getElem m pa = some (some dt)) (hw : AllRead d m pa t dt)
    (hroom : d.isVar = true → min (S + inc) d.hdr.maxSize ≤ m.length) :
    ∃ m', d.setElem m pa dt inc = some (m', true) ∧ IsTuple d m' S ∧ ReadsLike d m' m ∧ ∀ x, S ≤ x → m'[x]? = m[x]? := by
  obtain ⟨-, a2, a3⟩ := C94_towards hu h h ht hp hp (fun _ _ => .inl rfl) hg hw hroom
  obtain ⟨m', hm⟩ := a2.mpr fun _ _ => by omega
  obtain ⟨-, b2, b3, b4⟩ := a3 m' hm
  exact ⟨m', hm, b2, b3, fun x hx => b4 x hx hx⟩

/-- C94. Sets at two positions neither of which lies within the other can be done in either order: if one
order succeeded, and the first call of the other order did, then its second call succeeds if and only if
the increment allows for the final size (or the element is of fixed size or set to NULL), and the two
results are alike. The data are such that all of the element is given (a fixed size binary is not given
short). -/
theorem C94_either_order {d ta tb : Dti} {m ma mab mb : Bytes} {S Sa Sb Sab ia ib ib' : Nat} {va vb : Datum} {pa pb : List Nat}
    (hab : ¬ pa <+: pb) (hba : ¬ pb <+: pa) (hta : d.typeAt pa = some ta) (htb : d.typeAt pb = some tb)
    (fa : Full ta va) (fb : Full tb vb)
    (h1 : SetArgs d m S pa va ia) (e1 : d.setElem m pa va ia = some (ma, true)) (hsa : d.getSize ma = some Sa)
    (h2 : SetArgs d ma Sa pb vb ib) (e2 : d.setElem ma pb vb ib = some (mab, true)) (hsab : d.getSize mab = some Sab)
    (h3 : SetArgs d m S pb vb ib') (e3 : d.setElem m pb vb ib' = some (mb, true)) (hsb : d.getSize mb = some Sb)
    (inc : Nat) (hroom : d.isVar = true → min (Sb + inc) d.hdr.maxSize ≤ mb.length) :
    SetArgs d mb Sb pa va inc ∧
      ((∃ mba, d.setElem mb pa va inc = some (mba, true)) ↔ (ta.isVar = true → va ≠ .null → Sab ≤ Sb + inc)) ∧
      ∀ mba, d.setElem mb pa va inc = some (mba, true) → IsTuple d mba Sab ∧ ReadsLike d mba mab := by
  have hd := h1.usable.ok
  have one : ∀ {m m' : Bytes} {S S' i : Nat} {v : Datum} {p : List Nat} {t : Dti} {val : Val}, SetArgs d m S p v i →
      Enc d (m.take S) val → d.typeAt p = some t → d.setElem m p v i = some (m', true) → d.getSize m' = some S' →
      S' ≤ m'.length ∧ val.has p ∧ ∃ y, EDen t v y ∧ Enc d (m'.take S') (val.upd p y) := by
    intro m m' S S' i v p t val ha he ht hset hs
    obtain ⟨m3, q, S3, val', k1, k2, k3, k4, k5, k6, k7, k8, k9⟩ := setElem_main hd ha.tuple.1 he ha.datum ha.room
    rw [hset] at k1
    cases k1
    obtain ⟨g1, t', y', g2, g3, g4⟩ := k9 rfl
    rw [ht] at g2
    cases g2
    subst g4
    have hS' : S3 ≤ m'.length := by rw [k3]; exact k4
    have := (IsTuple.size hd ⟨hS', _, k5⟩).1
    rw [hs] at this
    cases this
    exact ⟨hS', g1, y', g3, k5⟩
  obtain ⟨hS, val, he⟩ := h1.tuple
  obtain ⟨sa, ha, ya, da, ea⟩ := one h1 he hta e1 hsa
  obtain ⟨sab, hb', yb, db, eab⟩ := one h2 ea htb e2 hsab
  obtain ⟨sb, hb, yb', db', eb⟩ := one h3 he htb e3 hsb
  rw [eden_unique (typeAt_ok pb hd htb).1 fb db' db] at eb
  rw [Val.upd_comm val pa pb ya yb hab hba] at eab
  obtain ⟨a1, a2, a3⟩ := set_towards (inc := inc) h1.usable sb eb (Val.has_upd_other val pb pa yb hba ha) hta sab eab da fa
    (h1.datum ta hta) hroom
  refine ⟨a1, a2, fun mba hm => ?_⟩
  obtain ⟨-, b2, b3, -, -⟩ := a3 mba hm
  exact ⟨b2, b3⟩

/-- All of a text is read if it has no more characters than the text read has. -/
theorem allRead_short {d t : Dti} {m b : Bytes} {S n : Nat} {pa : List Nat} (hu : Usable d) (h : IsTuple d m S)
    (ht : d.typeAt pa = some t) (hg : d.getElem m pa = some (some (.bytes b))) (hc : d.elemCount m pa = some n)
    (hn : n ≤ b.length) : AllRead d m pa t (.bytes b) := by
  rintro h0 b' rfl hb k c hk hl
  cases hb
  exfalso
  have hd := hu.ok
  obtain ⟨hS, val, he⟩ := h
  rw [elemCount_ok pa hd hS he ht rfl] at hc
  obtain ⟨y, y1, y2, -⟩ := read_at hd hS he ht hg
  cases y with
  | node vs =>
    rw [y1] at hc
    simp only [valCount, Option.some.injEq] at hc
    have g := getElem_ok (pa ++ [k]) hd hS he
    have : vs[k]? = none := List.getElem?_eq_none (by omega)
    simp only [GetOk, at_append' val pa [k] y1, Val.at', this] at g
    rw [g] at hk; cases hk
  | null => cases y2
  | bits => cases y2.2
  | raw => exact y2.elim

/-- The tuple of the examples with its string set to "ab". -/
def exMemAb : Bytes := [14, 0, 0, 0, 0, 0, 0, 11, 0, 0, 0, 2, 97, 98] ++ List.replicate 27 255

theorem exMemAb_tuple : IsTuple exFinal exMemAb 14 := by
  have hset : exFinal.setElem exMem [2] (.bytes [97, 98]) 20 = some (exMemAb, true) := by decide +kernel
  obtain ⟨S', h1, h2, _⟩ := C37_growth ⟨exFinal_usable, exMem_tuple, fun t ht => by
    cases ht; exact .inr (.inr ⟨_, rfl, by decide⟩), by decide⟩ hset
  exact tuple_of_size h1 h2 (by decide +kernel)

/-- The type of that string. -/
def exText : Dti := .str false { isFinal := true, isVar := true, varCount := true, maxSize := 200, size := 1 }

/-- The hypotheses of C94 are met: "ab" is replaced by "xyzw" and by "x". The former is taken back without
any increment, the latter with an increment of 1 and no less. -/
example : SetArgs exFinal exMemAb 14 [2] (.bytes [120, 121, 122, 119]) 2 ∧ SetArgs exFinal exMemAb 14 [2] (.bytes [120]) 0 ∧
    exFinal.typeAt [2] = some exText ∧ exFinal.getElem exMemAb [2] = some (some (.bytes [97, 98])) ∧
    AllRead exFinal exMemAb [2] exText (.bytes [97, 98]) ∧ Present exFinal exMemAb [2] ∧
    ((exFinal.setElem exMemAb [2] (.bytes [120, 121, 122, 119]) 2).bind fun r =>
      (exFinal.setElem r.1 [2] (.bytes [97, 98]) 0).map fun q => (r.2, q.2, exFinal.getSize r.1, exFinal.getSize q.1)) =
        some (true, true, some 16, some 14) ∧
    ((exFinal.setElem exMemAb [2] (.bytes [120]) 0).bind fun r => (exFinal.setElem r.1 [2] (.bytes [97, 98]) 0).map Prod.snd) =
      some false ∧
    ((exFinal.setElem exMemAb [2] (.bytes [120]) 0).bind fun r => (exFinal.setElem r.1 [2] (.bytes [97, 98]) 1).map Prod.snd) =
      some true := by
  refine ⟨⟨exFinal_usable, exMemAb_tuple, ?_, by decide⟩, ⟨exFinal_usable, exMemAb_tuple, ?_, by decide⟩, rfl, by decide +kernel,
    allRead_short exFinal_usable exMemAb_tuple rfl (by decide +kernel) (show _ = some 2 by decide +kernel) (by decide),
    .inr ⟨[], 2, 4, rfl, by decide +kernel, by decide +kernel, by decide +kernel, by decide⟩, by decide +kernel, by decide +kernel,
    by decide +kernel⟩ <;>
  · intro t ht
    cases ht
    exact .inr (.inr ⟨_, rfl, by decide⟩)

/-- The condition on texts is needed: if the first character of "ab" is overwritten by NUL, the string reads
as empty though it has two characters; setting the empty string does not bring these back. -/
example : ((exFinal.setElem exMemAb [2, 0] (.uint 0) 0).bind fun r =>
      some (exFinal.getElem r.1 [2], exFinal.elemCount r.1 [2])) = some (some (some (.bytes [])), some 2) ∧
    ((exFinal.setElem exMemAb [2, 0] (.uint 0) 0).bind fun r => (exFinal.setElem r.1 [2] (.bytes [120]) 20).bind fun q =>
      (exFinal.setElem q.1 [2] (.bytes []) 20).bind fun z => some (exFinal.getElem z.1 [2], exFinal.elemCount z.1 [2])) =
        some (some (some (.bytes [])), some 0) := by
  refine ⟨by decide +kernel, by decide +kernel⟩

/-- An integer and the string of the example set in the one and in the other order. -/
example : ¬ [0] <+: [2] ∧ ¬ [2] <+: [0] ∧ Full exText (.bytes [120]) ∧
    ((exFinal.setElem exMemAb [0] (.uint 7) 0).bind fun r => exFinal.setElem r.1 [2] (.bytes [120]) 0) =
      ((exFinal.setElem exMemAb [2] (.bytes [120]) 0).bind fun r => exFinal.setElem r.1 [0] (.uint 7) 0) ∧
    ((exFinal.setElem exMemAb [0] (.uint 7) 0).bind fun r => (exFinal.setElem r.1 [2] (.bytes [120]) 0).map fun q => (r.2, q.2)) =
      some (true, true) := by
  refine ⟨by decide, by decide, (fun h b e => by cases e), by decide +kernel, by decide +kernel⟩

end Props
end TS
