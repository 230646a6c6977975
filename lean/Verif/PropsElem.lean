import Verif.ContGet
import Verif.PropsType
/-
Properties C34-C37 and C41: reading and setting elements of tuples, minimal tuples.
-/
namespace TS
namespace Props
open Dti

/-- `d` is the result of finalising a freshly initialised type, within the size limits of
/repo/README.md:14-23. -/
def Usable (d : Dti) : Prop := ∃ d0, Fresh d0 ∧ finalize d0 = some d ∧ Small d

theorem Usable.ok {d : Dti} (h : Usable d) : TyOk d := by
  obtain ⟨d0, h1, h2, h3⟩ := h
  exact finalize_ok d0 d h1 h2 h3

/-- The first `S` bytes of `m` are a well formed datum of type `d`. -/
def IsTuple (d : Dti) (m : Bytes) (S : Nat) : Prop := S ≤ m.length ∧ ∃ v, Enc d (m.take S) v

/-- The size of a well formed datum is the one `get_size_for_type_info` computes. -/
theorem IsTuple.size {d : Dti} {m : Bytes} {S : Nat} (hd : TyOk d) (h : IsTuple d m S) :
    d.getSize m = some S ∧ 1 ≤ S ∧ (d.isVar = true → d.hdr.size ≤ S ∧ S ≤ d.hdr.maxSize) ∧
      (d.isVar = false → S = d.hdr.size) := by
  obtain ⟨hS, v, e⟩ := h
  have hl : (m.take S).length = S := by simp; omega
  obtain ⟨z1, z2, z3, z4, z5, z6⟩ := enc_size hd e
  rw [hl] at z1 z2 z5 z6
  refine ⟨?_, z2, z5, z6⟩
  have := getSize_at (d := d) (m := m) (b := m.take S) (o := 0) (by rw [hl]; exact z1)
    (by rw [hl, rd_zero_eq_take])
  rw [List.drop_zero, hl] at this; exact this

/-- The datum `v` may be given for an element of type `t`: it is NULL, or the zero datum, or the
member of the union that belongs to the type is set; strings obey the 2GB limit; tuples and arrays
are well formed. -/
def Accepts (t : Dti) (v : Datum) : Prop :=
  v = .null ∨ v = .empty ∨
  match t with
  | .prim .bitField _ | .prim .uint _ | .prim .largeUint _ => ∃ n, v = .uint n
  | .prim .int _ | .prim .largeInt _ => ∃ z, v = .int z
  | .prim .float h => ∃ b, v = .flt b ∧ b.length = h.size
  | .str _ _ => ∃ b, v = .bytes b ∧ b.length < lim
  | t => ∃ src s, v = .ptr src ∧ IsTuple t src s

theorem Accepts.den {t : Dti} {v : Datum} (ht : TyOk t) (h : Accepts t v) : ∃ y, EDen t v y := by
  unfold EDen
  cases hn : v.isNull with
  | true => exact ⟨_, rfl⟩
  | false =>
    simp only [Bool.false_eq_true, if_false]
    have hnn : v ≠ .null := by intro hh; subst hh; simp [Datum.isNull] at hn
    cases t with
    | prim k hh =>
      have hu : (∃ n, v = .uint n) ∨ v = .empty → ∃ n, v.asUint = some n := by
        rintro (⟨n, rfl⟩ | rfl) <;> exact ⟨_, rfl⟩
      have hi : (∃ n, v = .int n) ∨ v = .empty → ∃ n, v.asInt = some n := by
        rintro (⟨n, rfl⟩ | rfl) <;> exact ⟨_, rfl⟩
      have hx := h.resolve_left hnn
      cases k with
      | bitField =>
        obtain ⟨n, hn⟩ := hu hx.symm
        exact ⟨_, n, hn, rfl⟩
      | uint =>
        obtain ⟨n, hn⟩ := hu hx.symm
        exact ⟨_, n, hn, rfl⟩
      | largeUint =>
        obtain ⟨n, hn⟩ := hu hx.symm
        exact ⟨_, n, hn, rfl⟩
      | int =>
        obtain ⟨n, hn⟩ := hi hx.symm
        exact ⟨_, n, hn, rfl⟩
      | largeInt =>
        obtain ⟨n, hn⟩ := hi hx.symm
        exact ⟨_, n, hn, rfl⟩
      | float =>
        rcases hx with rfl | ⟨b, rfl, hb⟩
        · exact ⟨_, _, rfl, rfl⟩
        · exact ⟨_, b, by simp [Datum.asFlt, hb], rfl⟩
    | str bin hh =>
      have hb : ∃ b0, v.asBytes = some b0 ∧ b0.length < lim := by
        rcases h.resolve_left hnn with rfl | ⟨b, rfl, hb⟩
        · exact ⟨[], rfl, by decide⟩
        · exact ⟨b, rfl, hb⟩
      obtain ⟨b0, h1, h2⟩ := hb
      cases hv : hh.isVar with
      | true =>
        exact ⟨_, b0, _, _, h1, h2, rfl, rfl, fun _ => rfl, fun hf => by rw [hv] at hf; cases hf⟩
      | false =>
        refine ⟨_, b0, _, ((if bin then b0 else strn b0).take hh.size ++
          List.replicate (hh.size - (if bin then b0 else strn b0).length) 0), h1, h2, rfl, rfl,
          (fun hf => by rw [hv] at hf; cases hf), fun _ => ⟨?_, ?_, ?_⟩⟩
        · simp; omega
        · intro i h3 h4
          rw [List.getElem?_append_left (by simp; omega), List.getElem?_take_of_lt h4]
        · intro _ i h3 h4
          rw [List.getElem?_append_right (by simp; omega), List.getElem?_replicate, if_pos (by simp; omega)]
    | tup hh fs =>
      rcases h.resolve_left hnn with rfl | ⟨src, s, rfl, hs⟩
      · obtain ⟨y, hy⟩ := min_enc ht rfl
        exact ⟨y, Or.inr ⟨rfl, hy⟩⟩
      · obtain ⟨y, hy⟩ := hs.2
        exact ⟨y, Or.inl ⟨src, s, rfl, (hs.size ht).1, hs.1, hy⟩⟩
    | arr hh c =>
      rcases h.resolve_left hnn with rfl | ⟨src, s, rfl, hs⟩
      · obtain ⟨y, hy⟩ := min_enc ht rfl
        exact ⟨y, Or.inr ⟨rfl, hy⟩⟩
      · obtain ⟨y, hy⟩ := hs.2
        exact ⟨y, Or.inl ⟨src, s, rfl, (hs.size ht).1, hs.1, hy⟩⟩

/-- What reading an element of type `t` gives after the datum `v` was stored in it: numbers modulo
the width of the type, text up to its first NUL, cut to the capacity of a fixed size type. For a
fixed size binary only as many bytes as were given are determined. -/
def ReadsAs (t : Dti) (v dt : Datum) : Prop :=
  (v = .null ∧ dt = .null) ∨
  (v ≠ .null ∧ match t with
  | .prim .bitField h => ∃ n, v.asUint = some n ∧ dt = .uint (n % 2 ^ h.size)
  | .prim .uint h | .prim .largeUint h => ∃ n, v.asUint = some n ∧ dt = .uint (n % 256 ^ h.size)
  | .prim .int h | .prim .largeInt h => ∃ z z', v.asInt = some z ∧ dt = .int z' ∧
      ((256 ^ h.size : Nat) : Int) ∣ z' - z ∧ - ((256 ^ h.size : Nat) : Int) ≤ 2 * z' ∧ 2 * z' < (256 ^ h.size : Nat)
  | .prim .float h => ∃ b, v.asFlt h.size = some b ∧ dt = .flt b
  | .str false h => ∃ b, v.asBytes = some b ∧
      dt = .bytes (if h.isVar then strn b else (strn b).take h.size)
  | .str true h => ∃ b x, v.asBytes = some b ∧ dt = .bytes x ∧
      if h.isVar then x = b else x.length = h.size ∧ x.take b.length = b.take h.size
  | _ => ∃ m, dt = .ptr m)

theorem intDec_intEnc (w : Nat) (z : Int) : ((256 ^ w : Nat) : Int) ∣ intDec (intEnc w z) - z ∧
    - ((256 ^ w : Nat) : Int) ≤ 2 * intDec (intEnc w z) ∧ 2 * intDec (intEnc w z) < (256 ^ w : Nat) := by
  have hpos : 0 < 256 ^ w := Nat.pow_pos (by decide)
  have hne : ((256 ^ w : Nat) : Int) ≠ 0 := by omega
  have h0 := Int.emod_nonneg z hne
  have h1 := Int.emod_lt_of_pos z (show (0 : Int) < (256 ^ w : Nat) by omega)
  have h2 : (z % ((256 ^ w : Nat) : Int)).toNat < 256 ^ w := by omega
  unfold intDec intEnc
  rw [leEnc_length, leDec_leEnc, Nat.mod_eq_of_lt h2]
  have hdvd : ((256 ^ w : Nat) : Int) ∣ z % ((256 ^ w : Nat) : Int) - z := by
    refine ⟨-(z / ((256 ^ w : Nat) : Int)), ?_⟩
    have := Int.mul_ediv_add_emod z ((256 ^ w : Nat) : Int)
    rw [Int.mul_neg]; omega
  rw [Int.toNat_of_nonneg h0]
  generalize 256 ^ w = N at *
  split
  · exact ⟨hdvd, by omega, by omega⟩
  · refine ⟨?_, by omega, by omega⟩
    have : z % (N : Int) - N - z = (z % (N : Int) - z) - N := by omega
    rw [this]
    exact Int.dvd_sub hdvd (Int.dvd_refl _)

theorem strn_idem (b : Bytes) : strn (strn b) = strn b := by
  unfold strn
  induction b with
  | nil => rfl
  | cons a b ih =>
    simp only [List.takeWhile_cons]
    split
    · rename_i h; simp only [List.takeWhile_cons, h, if_true, ih]
    · rfl

theorem strn_pad (b : Bytes) (k : Nat) : strn (b ++ List.replicate k 0) = strn b := by
  unfold strn
  induction b with
  | nil => cases k <;> simp [List.replicate_succ]
  | cons a b ih =>
    simp only [List.cons_append, List.takeWhile_cons]
    split
    · rw [ih]
    · rfl

theorem strn_take (b : Bytes) (k : Nat) : strn (b.take k) = (strn b).take k := by
  unfold strn
  induction b generalizing k with
  | nil => simp
  | cons a b ih =>
    cases k with
    | zero => simp
    | succ k =>
      simp only [List.take_succ_cons, List.takeWhile_cons]
      split
      · rw [List.take_succ_cons, ih]
      · simp

theorem reads_of_den {t : Dti} {v dt : Datum} {y : Val} (ht : TyOk t) (h : EDen t v y) (hs : Shows t y dt) :
    ReadsAs t v dt := by
  unfold EDen at h
  cases hn : v.isNull with
  | true =>
    rw [hn] at h
    simp only [if_true] at h
    subst h
    have : v = .null := by cases v <;> first | rfl | simp [Datum.isNull] at hn
    exact Or.inl ⟨this, hs⟩
  | false =>
    rw [hn] at h
    simp only [Bool.false_eq_true, if_false] at h
    refine Or.inr ⟨by intro hh; subst hh; simp [Datum.isNull] at hn, ?_⟩
    cases t with
    | prim k hh =>
      cases k with
      | bitField =>
        simp only [isBit, if_true] at h
        obtain ⟨n, h1, rfl⟩ := h
        exact ⟨n, h1, hs.2⟩
      | uint =>
        obtain ⟨n, h1, rfl⟩ := h
        simp only [Shows] at hs
        exact ⟨n, h1, by rw [hs, leDec_leEnc]⟩
      | largeUint =>
        obtain ⟨n, h1, rfl⟩ := h
        simp only [Shows] at hs
        exact ⟨n, h1, by rw [hs, leDec_leEnc]⟩
      | int =>
        obtain ⟨z, h1, rfl⟩ := h
        simp only [Shows] at hs
        exact ⟨z, _, h1, hs, intDec_intEnc _ z⟩
      | largeInt =>
        obtain ⟨z, h1, rfl⟩ := h
        simp only [Shows] at hs
        exact ⟨z, _, h1, hs, intDec_intEnc _ z⟩
      | float =>
        obtain ⟨b, h1, rfl⟩ := h
        simp only [Shows] at hs
        exact ⟨b, h1, hs⟩
    | str bin hh =>
      obtain ⟨b0, b, x, h1, h2, h3, h4, h5, h6⟩ := h
      subst h4
      obtain ⟨x', h7, h8⟩ := hs
      have := chars_inj h7
      subst this
      cases bin with
      | false =>
        simp only [Bool.false_eq_true, if_false] at h3 h8
        refine ⟨b0, h1, ?_⟩
        rw [h8]
        cases hv : hh.isVar with
        | true => rw [h5 hv, h3, strn_idem]; rfl
        | false =>
          obtain ⟨g1, g2, g3⟩ := h6 hv
          have hx : x = b.take hh.size ++ List.replicate (hh.size - b.length) 0 := by
            apply List.ext_getElem?
            intro i
            by_cases hi : i < hh.size
            · by_cases hib : i < b.length
              · rw [g2 i hib hi, List.getElem?_append_left (by simp; omega), List.getElem?_take_of_lt hi]
              · rw [g3 rfl i (by omega) hi, List.getElem?_append_right (by simp; omega), List.getElem?_replicate,
                  if_pos (by simp; omega)]
            · rw [List.getElem?_eq_none (by omega), List.getElem?_eq_none (by simp; omega)]
          rw [hx, strn_pad, strn_take, h3, strn_idem]; rfl
      | true =>
        simp only [if_true] at h3 h8
        refine ⟨b0, x, h1, h8, ?_⟩
        cases hv : hh.isVar with
        | true => rw [h5 hv, h3]; rfl
        | false =>
          obtain ⟨g1, g2, _⟩ := h6 hv
          refine ⟨g1, ?_⟩
          subst h3
          apply List.ext_getElem?
          intro i
          rw [List.getElem?_take, List.getElem?_take]
          by_cases hi : i < hh.size
          · by_cases hib : i < b.length
            · rw [if_pos hib, if_pos hi]; exact g2 i hib hi
            · rw [if_neg hib, if_pos hi, List.getElem?_eq_none (by omega)]
          · rw [if_neg hi]; split
            · exact List.getElem?_eq_none (by omega)
            · rfl
    | tup hh fs =>
      obtain ⟨src, s, e1, e2⟩ | ⟨e1, e2⟩ := h
      · obtain ⟨_, _, vs, rfl, _⟩ := enc_cont rfl e2.2.2
        obtain ⟨m, _, h1, _⟩ := hs
        exact ⟨m, h1⟩
      · obtain ⟨_, _, vs, rfl, _⟩ := enc_cont rfl e2
        obtain ⟨m, _, h1, _⟩ := hs
        exact ⟨m, h1⟩
    | arr hh c =>
      obtain ⟨src, s, e1, e2⟩ | ⟨e1, e2⟩ := h
      · obtain ⟨_, _, vs, rfl, _⟩ := enc_cont rfl e2.2.2
        obtain ⟨m, _, h1, _⟩ := hs
        exact ⟨m, h1⟩
      · obtain ⟨_, _, vs, rfl, _⟩ := enc_cont rfl e2
        obtain ⟨m, _, h1, _⟩ := hs
        exact ⟨m, h1⟩

theorem at_upd_append (val : Val) (pa pb : List Nat) (y : Val) (h : val.has pa) :
    (val.upd pa y).at' (pa ++ pb) = y.at' pb := by
  induction pa generalizing val with
  | nil => simp [Val.upd]
  | cons i pa ih =>
    cases val with
    | node vs =>
      simp only [Val.has] at h
      cases hi : vs[i]? with
      | none => rw [hi] at h; exact absurd h id
      | some z =>
        rw [hi] at h
        have hlt := (List.getElem?_eq_some_iff.mp hi).1
        simp only [Val.upd, hi, List.cons_append, Val.at', List.getElem?_set, if_true, hlt]
        exact ih z h
    | _ => simp [Val.has] at h

theorem typeAt_append (d : Dti) (pa pb : List Nat) : d.typeAt (pa ++ pb) = (d.typeAt pa).bind (·.typeAt pb) := by
  induction pa generalizing d with
  | nil => simp [typeAt]
  | cons i pa ih =>
    simp only [List.cons_append, typeAt, Option.bind_eq_bind]
    cases d.tyAtNoData i with
    | none => rfl
    | some c => simp [ih]

theorem canSet_noType (pa : List Nat) : ∀ {d : Dti} {m : Bytes} {S : Nat} {val : Val} {inc : Nat} {v : Datum},
    TyOk d → S ≤ m.length → Enc d (m.take S) val → d.typeAt pa = none → d.canSetElem m inc v pa = some false := by
  induction pa with
  | nil => intro d m S val inc v _ _ _ ht; simp [typeAt] at ht
  | cons i pa ih =>
    intro d m S val inc v h hS e ht
    cases hc : d.isCont with
    | false => cases pa <;> simp [canSetElem, canSetCont, hc]
    | true =>
      obtain ⟨cs, o, vs, h1, r, hv⟩ := crep_of_enc h hc hS e
      subst h1
      have hcnt := getCount_eq h hc r
      by_cases hlt : i < cs.length
      · have hty := tyAtNoData_pos h hc r.countOk hlt
        have hok := posOf_ok h hc r.countOk hlt
        simp only [typeAt, hty, Option.bind_eq_bind, Option.bind_some] at ht
        cases pa with
        | nil => simp [typeAt] at ht
        | cons j pa =>
          have hci := List.getElem?_eq_getElem hlt
          have hvi := List.getElem?_eq_getElem (l := vs) (i := i) (by rw [hv.1]; exact hlt)
          have hx := hv.2 i _ _ hci hvi
          have hel := r.elt i _ hci
          have hp := ptrAt_eq h hc r hci
          have hpi := posInfo_eq h hc r hlt
          generalize cs[i] = c at hx hel hp hci
          generalize vs[i]'_ = y at hx hvi
          have hmain : ∀ inc', (match eltPtr d (posOf d cs.length i) (o i) c with
              | none => some false
              | some o => canSetElem (posOf d cs.length i).ty (m.drop o) inc' v (j :: pa)) = some false := by
            intro inc'
            cases c with
            | null => rfl
            | bits w =>
              simp only [eltPtr]
              have e1 := hel.1
              have : (posOf d cs.length i).ty.isCont = false := by
                cases hcc : (posOf d cs.length i).ty with
                | prim => rfl
                | _ => rw [hcc] at e1; simp [isBit] at e1
              cases pa <;> simp [canSetElem, canSetCont, this]
            | fixd b =>
              obtain ⟨e1, e2, e3, e4⟩ := hel
              have hs := slot_ok h hc r hlt e1
              simp only [slot, e2, Bool.false_eq_true, if_false] at hs
              have hsz := (enc_size hok hx).2.2.2.2.2 e2
              refine ih (S := b.length) (val := y) hok (by simp; omega) ?_ ht
              rw [hsz]
              have : (m.drop (posOf d cs.length i).off).take (posOf d cs.length i).ty.hdr.size = b := e4
              rw [this]; exact hx
            | var b =>
              obtain ⟨e1, e2, e3, e4, e5, e6, e7⟩ := hel
              have := r.le
              refine ih (S := b.length) (val := y) hok (by simp; omega) ?_ ht
              have : (m.drop (o i)).take b.length = b := e5
              rw [this]; exact hx
          simp only [canSetElem, hc, hcnt, Bool.not_true, Bool.false_eq_true, if_false,
            Option.bind_eq_bind, Option.bind_some, ge_iff_le, Nat.not_le.mpr hlt, Option.pure_def]
          cases hdv : d.isVar with
          | false =>
            simp only [Bool.false_eq_true, if_false, hpi, Option.bind_some, hp]
            exact hmain _
          | true =>
            simp only [if_true, getSize_eq h hc r, Option.bind_some, sub32_eq (r.mx hdv), hpi, hp]
            exact hmain _
      · have hge : i ≥ cs.length := by omega
        cases pa with
        | nil => simp [canSetElem, canSetCont, hc, hcnt, hge]
        | cons j pa => simp [canSetElem, hc, hcnt, hge]

/-- Everything about one call of `set_element_in_tuple`. -/
theorem setElem_main {d : Dti} {m : Bytes} {S inc : Nat} {v : Datum} {pa : List Nat} {val : Val} (hd : TyOk d)
    (hS : S ≤ m.length) (he : Enc d (m.take S) val) (hv : ∀ t, d.typeAt pa = some t → Accepts t v)
    (hroom : d.isVar = true → min (S + inc) d.hdr.maxSize ≤ m.length) :
    ∃ m' q S' val', d.setElem m pa v inc = some (m', q) ∧ d.canSetElem m inc v pa = some q ∧
      m'.length = m.length ∧ S' ≤ m.length ∧ Enc d (m'.take S') val' ∧ S' ≤ S + inc ∧
      (∀ x, S ≤ x → S' ≤ x → m'[x]? = m[x]?) ∧ (q = false → S' = S ∧ val' = val) ∧
      (q = true → val.has pa ∧ ∃ t y, d.typeAt pa = some t ∧ EDen t v y ∧ val' = val.upd pa y) := by
  unfold setElem
  cases ht : d.typeAt pa with
  | none =>
    exact ⟨m, false, S, val, rfl, canSet_noType pa hd hS he ht, rfl, hS, he, by omega, fun _ _ _ => rfl,
      fun _ => ⟨rfl, rfl⟩, by simp⟩
  | some t =>
    obtain ⟨ht1, ht2⟩ := typeAt_ok pa hd ht
    obtain ⟨m', q, S', val', k1, k2, k3, k4, k5, k6, k7, k8, k9, k10⟩ :=
      setElemI_ok pa (inc := inc) (v := v) hd hS he ht ((hv t ht).den ht1) (fun hh => hroom (ht2 hh))
    refine ⟨m', q, S', val', k1, k2 m hS rfl, k3, k4, k5, k6, k7, k8, fun hq => ?_⟩
    obtain ⟨g1, y, g2, g3⟩ := k10 hq
    exact ⟨g1, t, y, rfl, g2, g3⟩

/-- The hypotheses of the following theorems: `d` is a finalised type, `m` starts with a tuple of it
of size `S`, the datum suits the type of the element addressed, and behind the tuple there is memory
for the growth allowed. -/
structure SetArgs (d : Dti) (m : Bytes) (S : Nat) (pa : List Nat) (v : Datum) (inc : Nat) : Prop where
  usable : Usable d
  tuple : IsTuple d m S
  datum : ∀ t, d.typeAt pa = some t → Accepts t v
  room : d.isVar = true → min (S + inc) d.hdr.maxSize ≤ m.length

/-- Memory used in the examples: the minimal tuple of `exFinal` and some room behind it. -/
def exMem : Bytes := [11, 0, 0, 0, 0, 0, 0, 0, 0, 0, 0] ++ List.replicate 30 255

theorem exFinal_usable : Usable exFinal := ⟨exType, exType_fresh, exType_finalize, exFinal_small⟩

theorem exMem_tuple : IsTuple exFinal exMem 11 := by
  refine ⟨by decide, ?_⟩
  exact min_enc exFinal_usable.ok rfl

/-- Setting the string to "ab", and an integer that is out of range to be stored modulo 2^32. -/
example : SetArgs exFinal exMem 11 [2] (.bytes [97, 98]) 20 ∧
    (exFinal.setElem exMem [2] (.bytes [97, 98]) 20).map Prod.snd = some true ∧
    (exFinal.setElem exMem [2] (.bytes [97, 98]) 2).map Prod.snd = some false ∧
    SetArgs exFinal exMem 11 [1] (.int (-7)) 0 ∧
    (exFinal.setElem exMem [1] (.int (-7)) 0).map Prod.snd = some true := by
  refine ⟨⟨exFinal_usable, exMem_tuple, ?_, by decide⟩, by decide +kernel, by decide +kernel,
    ⟨exFinal_usable, exMem_tuple, ?_, by decide⟩, by decide +kernel⟩
  · intro t ht
    cases ht
    exact Or.inr (Or.inr ⟨_, rfl, by decide⟩)
  · intro t ht
    cases ht
    exact Or.inr (Or.inr ⟨_, rfl⟩)

/-- C34. If `set_element_in_tuple` succeeds, reading the same element gives the value set. -/
theorem C34_set_then_get {d t : Dti} {m m' : Bytes} {S inc : Nat} {v : Datum} {pa : List Nat}
    (ha : SetArgs d m S pa v inc) (ht : d.typeAt pa = some t) (hset : d.setElem m pa v inc = some (m', true)) :
    ∃ dt, d.getElem m' pa = some (some dt) ∧ ReadsAs t v dt := by
  have hd := ha.usable.ok
  obtain ⟨hS, val, he⟩ := ha.tuple
  obtain ⟨m2, q, S', val', k1, k2, k3, k4, k5, k6, k7, k8, k9⟩ := setElem_main hd hS he ha.datum ha.room
  rw [hset] at k1
  cases k1
  obtain ⟨g1, t', y, g2, g3, g4⟩ := k9 rfl
  rw [ht] at g2
  cases g2
  have hg := getElem_ok pa hd (by rw [k3]; exact k4) k5
  unfold GetOk at hg
  rw [g4, Val.at_upd_same val pa y g1] at hg
  rcases hg with ⟨h1, h2⟩ | ⟨t', dt, h1, h2, h3⟩
  · exact ⟨_, h2, reads_of_den (typeAt_ok pa hd ht).1 g3 (by subst h1; rfl)⟩
  · rw [ht] at h1
    cases h1
    exact ⟨dt, h2, reads_of_den (typeAt_ok pa hd ht).1 g3 h3⟩

/-- The datum is a value of the type: numbers in range, text without NUL that fits, a fixed size
binary of exactly the right length. -/
def Exact (t : Dti) (v : Datum) : Prop :=
  v = .null ∨
  match t, v with
  | .prim .bitField h, .uint n => n < 2 ^ h.size
  | .prim .uint h, .uint n | .prim .largeUint h, .uint n => n < 256 ^ h.size
  | .prim .int h, .int z | .prim .largeInt h, .int z =>
      - ((256 ^ h.size : Nat) : Int) ≤ 2 * z ∧ 2 * z < (256 ^ h.size : Nat)
  | .prim .float h, .flt b => b.length = h.size
  | .str false h, .bytes b => 0 ∉ b ∧ (h.isVar = false → b.length ≤ h.size)
  | .str true h, .bytes b => h.isVar = false → b.length = h.size
  | _, _ => False

theorem int_unique {P z z' : Int} (hd : P ∣ z' - z) (h1 : -P ≤ 2 * z) (h2 : 2 * z < P) (h3 : -P ≤ 2 * z')
    (h4 : 2 * z' < P) : z' = z := by
  obtain ⟨k, hk⟩ := hd
  have hP : 0 < P := by omega
  have hk0 : k = 0 := by
    rcases Int.lt_trichotomy k 0 with h | h | h
    · have : P * k ≤ P * (-1) := Int.mul_le_mul_of_nonneg_left (by omega) (by omega)
      omega
    · exact h
    · have : P * 1 ≤ P * k := Int.mul_le_mul_of_nonneg_left (by omega) (by omega)
      omega
  subst hk0
  omega

theorem strn_eq {b : Bytes} (h : (0 : UInt8) ∉ b) : strn b = b := by
  unfold strn
  induction b with
  | nil => rfl
  | cons a b ih =>
    simp only [List.mem_cons, not_or] at h
    rw [List.takeWhile_cons, if_pos (by simp; exact fun hh => h.1 hh.symm), ih h.2]

/-- C34, for the tuple as a whole: it cannot be set to NULL, and if its type is a bit field it can
neither be set nor read (bit fields live in the bitmap of a container). The check says so, and
the memory is left alone. -/
theorem C34_self_refused {d : Dti} (m : Bytes) (inc : Nat) (v : Datum) (h : v.isNull = true ∨ d.isBit = true) :
    d.canSetElem m inc v [] = some false ∧ d.setElem m [] v inc = some (m, false) ∧
    (d.isBit = true → d.getElem m [] = some none) := by
  refine ⟨?_, ?_, ?_⟩
  · rcases h with h | h <;> simp [canSetElem, canSetDatum, h]
  · rcases h with h | h <;> cases hn : v.isNull <;> simp_all [setElem, typeAt, setElemI, setDatum]
  · intro hb
    cases d with
    | prim k h => cases k <;> simp_all [isBit, Dti.getElem, getDatum]
    | _ => simp [isBit] at hb
example : Usable (.prim .bitField { size := 5, isFinal := true }) := by
  exact ⟨.prim .bitField { size := 5 }, .prim _ _ rfl, rfl, .prim _ _⟩

/-- C34, for values in the range of the type: what is read is what was set. -/
theorem C34_exact {d t : Dti} {m m' : Bytes} {S inc : Nat} {v : Datum} {pa : List Nat}
    (ha : SetArgs d m S pa v inc) (ht : d.typeAt pa = some t) (hx : Exact t v)
    (hset : d.setElem m pa v inc = some (m', true)) : d.getElem m' pa = some (some v) := by
  obtain ⟨dt, h1, h2⟩ := C34_set_then_get ha ht hset
  rw [h1]
  suffices dt = v by rw [this]
  rcases h2 with ⟨h2, h3⟩ | ⟨hn, h2⟩
  · rw [h2, h3]
  · have hx := hx.resolve_left hn
    cases t with
    | prim k h =>
      cases k with
      | float =>
        cases v with
        | flt b =>
          obtain ⟨b', g1, g2⟩ := h2
          simp only [Datum.asFlt] at g1
          rw [if_pos hx] at g1
          cases g1; exact g2
        | _ => exact hx.elim
      | int =>
        cases v with
        | int z =>
          obtain ⟨z', z2, g1, g2, g3, g4, g5⟩ := h2
          cases g1
          rw [g2, int_unique g3 hx.1 hx.2 g4 g5]
        | _ => exact hx.elim
      | largeInt =>
        cases v with
        | int z =>
          obtain ⟨z', z2, g1, g2, g3, g4, g5⟩ := h2
          cases g1
          rw [g2, int_unique g3 hx.1 hx.2 g4 g5]
        | _ => exact hx.elim
      | _ =>
        cases v with
        | uint n =>
          obtain ⟨n', g1, g2⟩ := h2
          cases g1
          rw [g2, Nat.mod_eq_of_lt hx]
        | _ => exact hx.elim
    | str bin h =>
      cases bin with
      | false =>
        cases v with
        | bytes b =>
          obtain ⟨b', g1, g2⟩ := h2
          cases g1
          rw [g2, strn_eq hx.1]
          split
          · rfl
          · rename_i hv
            rw [List.take_of_length_le (hx.2 (by simpa using hv))]
        | _ => exact hx.elim
      | true =>
        cases v with
        | bytes b =>
          obtain ⟨b', x, g1, g2, g3⟩ := h2
          cases g1
          rw [g2]
          split at g3
          · rw [g3]
          · rename_i hv
            have hl := hx (by simpa using hv)
            rw [List.take_of_length_le (by omega), List.take_of_length_le (by omega)] at g3
            rw [g3.2]
        | _ => exact hx.elim
    | tup h fs => cases v <;> exact hx.elim
    | arr h c => cases v <;> exact hx.elim

/-- C34, for tuples and arrays: everything inside of the element reads as it does inside of the
tuple or array it was set to; set to the empty datum it reads like minimal data. -/
theorem C34_nested {d t : Dti} {m m' : Bytes} {S inc : Nat} {v : Datum} {pa : List Nat}
    (ha : SetArgs d m S pa v inc) (ht : d.typeAt pa = some t) (hset : d.setElem m pa v inc = some (m', true))
    (pb : List Nat) :
    (∀ src, v = .ptr src → Same (d.getElem m' (pa ++ pb)) (t.getElem src pb)) ∧
    (∀ m0 m1 s, v = .empty → t.isCont = true → (∀ b h, t ≠ .str b h) → t.hdr.size ≤ m0.length →
      t.initMin m0 = some (m1, s) → Same (d.getElem m' (pa ++ pb)) (t.getElem m1 pb)) := by
  have hd := ha.usable.ok
  have htk := (typeAt_ok pa hd ht).1
  obtain ⟨hS, val, he⟩ := ha.tuple
  obtain ⟨m2, q, S', val', k1, k2, k3, k4, k5, k6, k7, k8, k9⟩ := setElem_main hd hS he ha.datum ha.room
  rw [hset] at k1
  cases k1
  obtain ⟨g1, t', y, g2, g3, g4⟩ := k9 rfl
  rw [ht] at g2
  cases g2
  have hta : d.typeAt (pa ++ pb) = t.typeAt pb := by rw [typeAt_append, ht]; rfl
  have hat : val'.at' (pa ++ pb) = y.at' pb := by rw [g4]; exact at_upd_append val pa pb y g1
  constructor
  · intro src hv
    subst hv
    have : ∃ s, s ≤ src.length ∧ Enc t (src.take s) y := by
      cases t with
      | prim k h => cases k <;> simp [EDen, Datum.isNull, isBit, Datum.asUint, Datum.asInt, Datum.asFlt, Den] at g3
      | str b h => simp [EDen, Datum.isNull, isBit, Datum.asBytes, Den] at g3
      | tup h fs =>
        obtain ⟨src', s, e1, e2, e3, e4⟩ | ⟨e1, _⟩ := g3
        · cases e1; exact ⟨s, e3, e4⟩
        · cases e1
      | arr h c =>
        obtain ⟨src', s, e1, e2, e3, e4⟩ | ⟨e1, _⟩ := g3
        · cases e1; exact ⟨s, e3, e4⟩
        · cases e1
    obtain ⟨s, s1, s2⟩ := this
    exact getElem_same hd htk (by rw [k3]; exact k4) k5 s1 s2 hta hat
  · intro m0 m1 s hv hc hns hl hini
    subst hv
    rw [initMin_eq htk hc hl] at hini
    cases hini
    have hml := minB_length htk hc
    have : Enc t (minB t) y := by
      cases t with
      | prim => simp [isCont] at hc
      | str b h => exact absurd rfl (hns b h)
      | tup h fs =>
        obtain ⟨src', s, e1, _⟩ | ⟨_, e1⟩ := g3
        · cases e1
        · exact e1
      | arr h c =>
        obtain ⟨src', s, e1, _⟩ | ⟨_, e1⟩ := g3
        · cases e1
        · exact e1
    refine getElem_same (S' := t.hdr.size) hd htk (by rw [k3]; exact k4) k5 (by rw [wr_length]; exact hl) ?_ hta hat
    have h0 : (wr m0 0 (minB t)).take t.hdr.size = minB t := by
      have := rd_wr_same m0 0 (minB t) (by omega)
      rw [rd_zero_eq_take, hml] at this
      exact this
    rw [h0]; exact this

/-- Setting the array to an array of the two elements 5 and NULL. -/
def exArr : Bytes := [2, 0, 1, 5, 0, 0, 0]

example : (exFinal.setElem exMem [3] (.ptr exArr) 20).bind (fun x => (exFinal.getElem x.1 [3, 0]).bind
    (fun a => (exFinal.getElem x.1 [3, 1]).map (fun b => (x.2, a, b)))) =
      some (true, some (.uint 5), some .null) := by decide +kernel

/-- C35. Whether `set_element_in_tuple` succeeds or not, every element that is not the one
addressed, inside of it, or a container of it, reads as before; and if it fails every element
does. -/
theorem C35_others_unchanged {d : Dti} {m m' : Bytes} {S inc : Nat} {v : Datum} {pa pb : List Nat} {q : Bool}
    (ha : SetArgs d m S pa v inc) (hset : d.setElem m pa v inc = some (m', q))
    (hp : q = false ∨ (¬ pa <+: pb ∧ ¬ pb <+: pa)) : Same (d.getElem m' pb) (d.getElem m pb) := by
  have hd := ha.usable.ok
  obtain ⟨hS, val, he⟩ := ha.tuple
  obtain ⟨m2, q2, S', val', k1, k2, k3, k4, k5, k6, k7, k8, k9⟩ := setElem_main hd hS he ha.datum ha.room
  rw [hset] at k1
  cases k1
  refine getElem_same hd hd (by rw [k3]; exact k4) k5 hS he rfl ?_
  cases q with
  | false => rw [(k8 rfl).2]
  | true =>
    obtain ⟨g1, t', y, g2, g3, g4⟩ := k9 rfl
    obtain ⟨h1, h2⟩ := hp.resolve_left (by simp)
    rw [g4]; exact Val.at_upd_other val pa pb y h1 h2

/-- Setting the string moves the array; the array reads the same. -/
example : (exFinal.setElem exMem [2] (.bytes [97]) 20).bind (fun x =>
    (exFinal.setElem x.1 [3] (.ptr exArr) 20).bind (fun y =>
    (exFinal.setElem y.1 [2] (.bytes [97, 98, 99]) 20).bind (fun z =>
    (exFinal.getElem z.1 [3, 0]).map (fun a => (z.2, a))))) = some (true, some (.uint 5)) ∧
    ¬ [2] <+: [3, 0] ∧ ¬ [3, 0] <+: [2] := by
  refine ⟨by decide +kernel, by decide, by decide⟩

/-- C36. `can_set_element_in_tuple` and `set_element_in_tuple` give the same answer, and neither
reads or writes outside of the memory. -/
theorem C36_can_set_predicts {d : Dti} {m : Bytes} {S inc : Nat} {v : Datum} {pa : List Nat}
    (ha : SetArgs d m S pa v inc) :
    ∃ m' q, d.setElem m pa v inc = some (m', q) ∧ d.canSetElem m inc v pa = some q := by
  obtain ⟨hS, val, he⟩ := ha.tuple
  obtain ⟨m2, q2, S', val', k1, k2, _⟩ := setElem_main ha.usable.ok hS he ha.datum ha.room
  exact ⟨m2, q2, k1, k2⟩

/-- C37. After `set_element_in_tuple` the memory starts with a tuple again, of a size that is at
most the maximum size of the type and at most the increment allowed above the size before;
what is behind the tuple was not touched. -/
theorem C37_growth {d : Dti} {m m' : Bytes} {S inc : Nat} {v : Datum} {pa : List Nat} {q : Bool}
    (ha : SetArgs d m S pa v inc) (hset : d.setElem m pa v inc = some (m', q)) :
    ∃ S', d.getSize m' = some S' ∧ IsTuple d m' S' ∧ S' ≤ S + inc ∧ (d.isVar = true → S' ≤ d.hdr.maxSize) ∧
      (d.isVar = false → S' = S) ∧ (q = false → S' = S) ∧
      m'.length = m.length ∧ ∀ x, S ≤ x → S' ≤ x → m'[x]? = m[x]? := by
  have hd := ha.usable.ok
  obtain ⟨hS, val, he⟩ := ha.tuple
  obtain ⟨m2, q2, S', val', k1, k2, k3, k4, k5, k6, k7, k8, k9⟩ := setElem_main hd hS he ha.datum ha.room
  rw [hset] at k1
  cases k1
  have ht : IsTuple d m' S' := ⟨by rw [k3]; exact k4, _, k5⟩
  obtain ⟨z1, z2, z3, z4⟩ := ht.size hd
  obtain ⟨_, _, _, z5⟩ := ha.tuple.size hd
  exact ⟨S', z1, ht, k6, fun hh => (z3 hh).2, fun hh => by rw [z4 hh, z5 hh], fun hh => (k8 hh).1, k3, k7⟩

end Props
end TS
