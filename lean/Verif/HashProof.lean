import Verif.PropsCopy
import Verif.Compare
/-
What the two hash functions feed to the hasher.
-/
namespace TS
namespace Dti

mutual
/-- The bytes that a value is hashed by: nothing for NULL, one byte for each bit of a bit field, the
stored bytes of other numerals, the bytes of a binary, those of a string up to its first NUL, and
for tuples and arrays what is inside of them, in order. -/
def feed : Dti → Val → Bytes
  | _, .null => []
  | t, .bits n => bitBytes n t.hdr.size
  | .prim _ _, .raw b => b
  | .str bin _, .node vs => if bin then vs.map byteOf else strn (vs.map byteOf)
  | .tup _ fs, .node vs => feeds fs vs
  | .arr _ c, .node vs => (vs.map (fun v => feed c v)).flatten
  | _, _ => []
def feeds : List (Fld × Dti) → List Val → Bytes
  | (_, t) :: r, v :: vs => feed t v ++ feeds r vs
  | _, _ => []
end

section
variable {σ : Type} {upd : σ → UInt8 → σ}

theorem hashBytes_append (h : σ) (a b : Bytes) : hashBytes upd h (a ++ b) = hashBytes upd (hashBytes upd h a) b := by
  simp [hashBytes]

theorem feed_null (t : Dti) : feed t .null = [] := by cases t <;> simp [feed]
theorem feed_bits (t : Dti) (n : Nat) : feed t (.bits n) = bitBytes n t.hdr.size := by cases t <;> simp [feed]

theorem byteOf_chars (x : Bytes) : ∀ {vs}, Val.node vs = chars x → vs.map byteOf = x := by
  intro vs h1
  unfold chars at h1
  injection h1 with h1
  rw [h1, List.map_map]
  have : (byteOf ∘ fun b => Val.raw [b]) = (id : UInt8 → UInt8) := by funext b; rfl
  rw [this]; simp

/-- What is inside of a tuple or array that a datum points to. -/
theorem kids_ptr {d : Dti} (hd : TyOk d) (hc : d.isCont = true) (hs : ∀ b h, d ≠ .str b h) {m : Bytes} {S : Nat} {vs : List Val}
    (hS : S ≤ m.length) (he : Enc d (m.take S) (.node vs)) :
    countOf (.ptr m) d = some vs.length ∧ (d.isVarCount = false → vs.length = d.hdr.count) ∧
      ∀ (i : Nat) y, vs[i]? = some y → ∃ c t, contOf (.ptr m) d i = some (some (c, some t)) ∧ d.tyAt i = some t ∧
        TyOk t ∧ Shows t y c ∧ Held t y := by
  obtain ⟨cs, o, vs', h1, r, hv⟩ := crep_of_enc hd hc hS he
  cases h1
  have hcnt := getCount_eq hd hc r
  have hco : countOf (.ptr m) d = some vs.length := by
    unfold countOf
    rw [hc]
    simp only [Bool.not_true, Bool.false_eq_true, if_false, Datum.isNull]
    rw [hv.1, ← hcnt]
  refine ⟨hco, fun hf => by rw [hv.1]; exact r.cntF hf, ?_⟩
  intro i y hy
  have hlt : i < cs.length := by rw [← hv.1]; exact (List.getElem?_eq_some_iff.mp hy).1
  have hty := tyAtNoData_pos hd hc r.countOk hlt
  have htA : d.tyAt i = some (posOf d cs.length i).ty := by
    unfold tyAtNoData at hty
    rw [hc] at hty
    simp only [Bool.not_true, Bool.false_eq_true, if_false] at hty
    split at hty
    · cases hty
    · exact hty
  have hpi := posInfo_eq hd hc r hlt
  have hok := posOf_ok hd hc r.countOk hlt
  have hg := getElem_ok [i] hd hS he
  have hat : (Val.node vs).at' [i] = some y := by simp [Val.at', hy]
  have hta : d.typeAt [i] = some (posOf d cs.length i).ty := by
    simp only [typeAt, hty, Option.bind_eq_bind, Option.bind_some]
  unfold GetOk at hg
  rw [hat, hta] at hg
  simp only at hg
  have hcont : ∀ dt, d.getElem m [i] = some (some dt) →
      contOf (.ptr m) d i = some (some (dt, some (posOf d cs.length i).ty)) := by
    intro dt hdt
    have hdt : d.getCont m i = some (some dt) := hdt
    unfold contOf
    rw [hc, hco]
    simp only [Bool.not_true, Bool.false_eq_true, if_false, Datum.isNull, Option.bind_eq_bind, Option.bind_some]
    rw [if_neg (by rw [hv.1]; omega)]
    cases d with
    | str b h => exact absurd rfl (hs b h)
    | prim => cases hc
    | tup => simp only [hdt, hpi, Option.bind_some]; rfl
    | arr => simp only [hdt, hpi, Option.bind_some]; rfl
  have hh := held_at [i] hd (.inr (.inr ⟨_, he⟩)) hat hta
  rcases hg with ⟨rfl, hg⟩ | ⟨t, dt, h1, h2, h3⟩
  · exact ⟨.null, _, hcont _ hg, htA, hok, rfl, hh⟩
  · cases h1
    exact ⟨dt, _, hcont _ h2, htA, hok, h3, hh⟩

/-- A numeral is hashed by its stored bytes. -/
theorem hashNum {k : PKind} {hd : Hdr} {v : Datum} {b : Bytes} (hk : k ≠ .bitField) (ho : TyOk (.prim k hd)) (hl : b.length = hd.size)
    (hn : v.isNull = false) (hs : ∀ m, hd.size ≤ m.length → setDatum (.prim k hd) m false 0 v = some (wr m 0 b, true)) (h : σ) :
    hashDatum upd h (.prim k hd) v = some (hashBytes upd h b) := by
  have hz : hd.size ≤ 32 := by cases ho with | prim _ _ _ _ _ _ a5 _ _ => exact a5 hk
  have hsz : getSize (.prim k hd) (wr (List.replicate 33 0) 0 b) = some hd.size := by
    have hb : (Dti.prim k hd).isBit = false := by cases k <;> first | rfl | exact absurd rfl hk
    cases ho with | prim _ _ _ a _ _ _ _ _ => simp [getSize, isVar, hdr, a, hb]
  have hrd : rd (wr (List.replicate 33 0) 0 b) 0 hd.size = b := by
    rw [← hl]; exact rd_wr_same _ _ _ (by simp; omega)
  cases k <;> first
    | exact absurd rfl hk
    | (simp only [hashDatum, hn, Bool.false_eq_true, if_false, hs (List.replicate 33 0) (by simp; omega), Option.bind_eq_bind,
        Option.bind_some, hsz]
       rw [load_eq (by simp; omega), hrd]
       rfl)

theorem intEnc_intDec (b : Bytes) : intEnc b.length (intDec b) = b := by
  have hlt := leDec_lt b
  have key : ∀ P n : Nat, n < P → ((if 2 * n < P then (n : Int) else (n : Int) - P) % (P : Int)).toNat = n := by
    intro P n h
    split
    · rw [Int.emod_eq_of_lt (by omega) (by omega)]; omega
    · rw [show (n : Int) - P = n + P * (-1) by omega, Int.add_mul_emod_self_left, Int.emod_eq_of_lt (by omega) (by omega)]; omega
  have := key (256 ^ b.length) (leDec b) hlt
  unfold intEnc intDec
  rw [this]
  exact leEnc_leDec b

/-- `hash_datum` on a value read from a tuple. -/
theorem hashDatum_feed : ∀ {t : Dti}, TyOk t → ∀ {y : Val} {dt : Datum}, Shows t y dt → Held t y → ∀ h : σ,
    hashDatum upd h t dt = some (hashBytes upd h (feed t y)) := by
  intro t
  have hnull : ∀ (t : Dti) (h : σ), hashDatum upd h t .null = some h := by
    intro t h
    cases t with
    | prim k hd => cases k <;> simp [hashDatum, Datum.isNull]
    | _ => simp [hashDatum, Datum.isNull]
  induction t using Dti.ind with
  | hp k hd =>
    intro ho y dt hs hh h
    cases y with
    | null => cases hs; rw [hnull, feed_null]; rfl
    | bits v =>
      obtain ⟨h1, rfl⟩ := hs
      rw [feed_bits]
      cases k <;> first | (simp [isBit] at h1; done) | (simp only [hashDatum, Datum.isNull, Datum.asUint]; rfl)
    | node => exact hs.elim
    | raw b =>
      rcases hh with hh | ⟨v, hh, _⟩ | ⟨b', hh⟩
      · cases hh
      · cases hh
      · obtain ⟨hk, hl, hb⟩ := enc_prim hh
        cases hb
        have hv : hd.isVar = false := by cases ho; assumption
        have hsu : ∀ {m : Bytes}, hd.size ≤ m.length → store m 0 b = some (wr m 0 b) := by
          intro m hm; exact store_eq (by omega)
        have e1 : leEnc hd.size (leDec b) = b := by rw [← hl]; exact leEnc_leDec b
        have e2 : intEnc hd.size (intDec b) = b := by rw [← hl]; exact intEnc_intDec b
        simp only [feed]
        cases k <;> simp only [Shows] at hs <;> subst hs
        all_goals
          refine hashNum hk ho hl rfl ?_ h
          intro m hm
          simp only [setDatum, Datum.isNull, isBit, isVar, hdr, hv, Bool.not_false, if_true, Bool.false_eq_true, if_false,
            Datum.asUint, Datum.asInt, Datum.asFlt, hl, e1, e2, Option.bind_eq_bind, Option.bind_some, hsu hm]
          rfl
  | hs bin hd =>
    intro ho y dt hs hh h
    cases y with
    | null => cases hs; rw [hnull, feed_null]; rfl
    | bits v => simp [Shows, isBit] at hs
    | raw b => exact hs.elim
    | node vs =>
      obtain ⟨x, h1, rfl⟩ := hs
      simp only [feed, byteOf_chars x h1, hashDatum, Datum.isNull, Datum.asBytes]
      rfl
  | ht hd fs ih =>
    intro ho y dt hs hh h
    cases y with
    | null => cases hs; rw [hnull, feed_null]; rfl
    | bits v => simp [Shows, isBit] at hs
    | raw b => exact hs.elim
    | node vs =>
      obtain ⟨m, S, rfl, hS, he⟩ := hs
      obtain ⟨k1, k2, k3⟩ := kids_ptr ho rfl nofun hS he
      have hlen : vs.length = fs.length := by
        rw [k2 rfl]; cases ho with | tup _ _ _ _ _ a => exact a.symm
      simp only [hashDatum, Datum.isNull, Bool.false_eq_true, if_false, k1, Option.bind_eq_bind, Option.bind_some, feed]
      suffices hloop : ∀ (r : List (Fld × Dti)) (i : Nat) (h : σ), i + r.length = fs.length → (∀ j, r[j]? = fs[i + j]?) →
          hashFlds upd h r (.tup hd fs) (.ptr m) vs.length i = some (hashBytes upd h (feeds r (vs.drop i))) by
        have := hloop fs 0 h (by simp) (by simp)
        simpa using this
      intro r
      induction r with
      | nil =>
        intro i h hi _
        simp only [List.length_nil] at hi
        simp only [hashFlds, feeds]
        rw [if_neg (by omega)]
        rfl
      | cons f r ihr =>
        intro i h hi hr
        obtain ⟨f, t⟩ := f
        simp only [List.length_cons] at hi
        have hlt : i < vs.length := by omega
        have hfi : fs[i]? = some (f, t) := by have := hr 0; simpa using this.symm
        obtain ⟨c, t', q1, q2, q3, q4, q5⟩ := k3 i _ (List.getElem?_eq_getElem hlt)
        have : t' = t := by simp [tyAt, hfi] at q2; exact q2.symm
        subst this
        have hrec := ih f t' (List.mem_of_getElem? hfi) q3 q4 q5 h
        have hnext := ihr (i + 1) (hashBytes upd h (feed t' vs[i])) (by omega) (fun j => by
          have := hr (j + 1); simp only [List.getElem?_cons_succ] at this; rw [this]; congr 1; omega)
        rw [List.drop_eq_getElem_cons hlt]
        simp only [hashFlds, if_pos hlt, q1, Option.bind_eq_bind, Option.bind_some, feeds]
        rw [hashBytes_append, ← hnext]
        cases hn : c.isNull with
        | false => simp only [Bool.false_eq_true, if_false, hrec, Option.bind_some]
        | true =>
          have hc : c = .null := by cases c <;> first | rfl | cases hn
          subst hc
          rw [hnull] at hrec
          simp only [if_true]
          injection hrec with hrec
          rw [← hrec]
  | ha hd c ih =>
    intro ho y dt hs hh h
    cases y with
    | null => cases hs; rw [hnull, feed_null]; rfl
    | bits v => simp [Shows, isBit] at hs
    | raw b => exact hs.elim
    | node vs =>
      obtain ⟨m, S, rfl, hS, he⟩ := hs
      obtain ⟨k1, k2, k3⟩ := kids_ptr ho rfl nofun hS he
      simp only [hashDatum, Datum.isNull, Bool.false_eq_true, if_false, k1, Option.bind_eq_bind, Option.bind_some, feed]
      suffices hloop : ∀ (k i : Nat) (h : σ), i + k = vs.length →
          hashLoop (fun h _ x => hashDatum upd h c x) (.arr hd c) (.ptr m) k i h =
            some (hashBytes upd h ((vs.drop i).map (fun v => feed c v)).flatten) by
        have := hloop vs.length 0 h (by simp)
        simpa using this
      intro k
      induction k with
      | zero =>
        intro i h hi
        simp only [hashLoop]
        rw [List.drop_eq_nil_of_le (by omega)]
        rfl
      | succ k ihr =>
        intro i h hi
        have hlt : i < vs.length := by omega
        obtain ⟨x, t', q1, q2, q3, q4, q5⟩ := k3 i _ (List.getElem?_eq_getElem hlt)
        have : t' = c := by simp [tyAt] at q2; exact q2.symm
        subst this
        have hrec := ih q3 q4 q5 h
        have hnext := ihr (i + 1) (hashBytes upd h (feed t' vs[i])) (by omega)
        rw [List.drop_eq_getElem_cons hlt]
        simp only [hashLoop, q1, Option.bind_eq_bind, Option.bind_some, List.map_cons, List.flatten_cons]
        rw [hashBytes_append, ← hnext]
        cases hn : x.isNull with
        | false => simp only [Bool.false_eq_true, if_false, hrec, Option.bind_some]
        | true =>
          have hc : x = .null := by cases x <;> first | rfl | cases hn
          subst hc
          rw [hnull] at hrec
          simp only [if_true]
          injection hrec with hrec
          rw [← hrec]

/-- What `hash_containee_in_container` does on an element that exists. -/
theorem hashCont_elt {d : Dti} (hd : TyOk d) (hc : d.isCont = true) {m : Bytes} {S : Nat} {vs : List Val}
    (hS : S ≤ m.length) (he : Enc d (m.take S) (.node vs)) {i : Nat} {y : Val} (hy : vs[i]? = some y)
    (f : σ → Dti → Bytes → Option σ) (h : σ) :
    ∃ t, d.tyAt i = some t ∧ TyOk t ∧
      ((y = .null ∧ hashCont upd f h d m i = some h) ∨
       (∃ v, y = .bits v ∧ hashCont upd f h d m i = some (hashBytes upd h (bitBytes v t.hdr.size))) ∨
       (∃ p s, s ≤ (m.drop p).length ∧ Enc t ((m.drop p).take s) y ∧ hashCont upd f h d m i = f h t (m.drop p))) := by
  obtain ⟨cs, o, vs', h1, r, hv⟩ := crep_of_enc hd hc hS he
  cases h1
  have hcnt := getCount_eq hd hc r
  have hlt : i < cs.length := by rw [← hv.1]; exact (List.getElem?_eq_some_iff.mp hy).1
  have hci := List.getElem?_eq_getElem hlt
  have hx := hv.2 i _ _ hci hy
  have hel := r.elt i _ hci
  have hp := ptrAt_eq hd hc r hci
  have hnl := (isNullAt_eq hd hc r hci).1
  have hpi := posInfo_eq hd hc r hlt
  have hok := posOf_ok hd hc r.countOk hlt
  have hty := tyAtNoData_pos hd hc r.countOk hlt
  have htA : d.tyAt i = some (posOf d cs.length i).ty := by
    unfold tyAtNoData at hty
    rw [hc] at hty
    simp only [Bool.not_true, Bool.false_eq_true, if_false] at hty
    split at hty
    · cases hty
    · exact hty
  refine ⟨_, htA, hok, ?_⟩
  have hge : ¬ i ≥ cs.length := by omega
  have hun : hashCont upd f h d m i =
      if decide (cs[i] = Elt.null) then some h
      else (eltPtr d (posOf d cs.length i) (o i) cs[i]).bind fun q =>
        if (posOf d cs.length i).ty.isBit then
          (getBits m d.offBitmap (posOf d cs.length i).off (posOf d cs.length i).ty.hdr.size).bind fun n =>
            some (hashBytes upd h (bitBytes n (posOf d cs.length i).ty.hdr.size))
        else f h (posOf d cs.length i).ty (m.drop q) := by
    simp only [hashCont, hc, Bool.not_true, Bool.false_eq_true, if_false, hcnt, Option.bind_eq_bind, Option.bind_some,
      if_neg hge, hpi, hnl, hp, Option.pure_def]
  rw [hun]
  clear hun
  generalize cs[i] = c at hx hel hp hci hnl
  cases c with
  | null => exact .inl ⟨hx, by simp⟩
  | bits v =>
    right; left
    simp only [EVal] at hx
    subst hx
    obtain ⟨e1, e2, e3⟩ := hel
    refine ⟨v, rfl, ?_⟩
    have hb := (lay_of hd hc r.countOk).bf i hlt e1
    have hbm := bitmap_le_fixedEnd hd hc r.countOk
    have hfe := fixedEnd_le r
    have := r.le
    simp only [eltPtr, e1, if_true]
    unfold getBits
    rw [if_pos (hok.bit_le e1), getBitsN_eq _ _ (by unfold bitmapBytes at hbm ⊢; omega), e3]
    simp
  | fixd b =>
    right; right
    obtain ⟨e1, e2, e3, e4⟩ := hel
    have hs := slot_ok hd hc r hlt e1
    simp only [slot, e2, Bool.false_eq_true, if_false] at hs
    have hsz := (enc_size hok hx).2.2.2.2.2 e2
    refine ⟨(posOf d cs.length i).off, b.length, by simp; omega, ?_, ?_⟩
    · have : (m.drop (posOf d cs.length i).off).take b.length = b := by rw [hsz]; exact e4
      rw [this]; exact hx
    · simp [eltPtr, e1]
  | var b =>
    right; right
    obtain ⟨e1, e2, e3, e4, e5, e6, e7⟩ := hel
    have := r.le
    refine ⟨o i, b.length, by simp; omega, ?_, ?_⟩
    · have : (m.drop (o i)).take b.length = b := e5
      rw [this]; exact hx
    · simp [eltPtr, isVar_not_bit hok e1]

theorem strn_drop_cons {x : Bytes} {i : Nat} (h : i < x.length) (hz : x[i] ≠ 0) : strn (x.drop i) = x[i] :: strn (x.drop (i + 1)) := by
  rw [List.drop_eq_getElem_cons h]
  unfold strn
  rw [List.takeWhile_cons, if_pos (by simpa using hz)]

/-- `hash_data_for_type_info` on stored data. -/
theorem hashData_feed : ∀ {d : Dti}, TyOk d → ∀ {m : Bytes} {S : Nat} {y : Val}, S ≤ m.length → Enc d (m.take S) y →
    ∀ h : σ, hashData upd h d m = some (hashBytes upd h (feed d y)) := by
  intro d
  induction d using Dti.ind with
  | hp k hd =>
    intro ho m S y hS he h
    obtain ⟨hk, hl, hb⟩ := enc_prim he
    have hl' : (m.take S).length = S := by simp; omega
    rw [hl'] at hl
    subst hl
    subst hb
    have hb : (Dti.prim k hd).isBit = false := by cases k <;> first | rfl | exact absurd rfl hk
    simp only [hashData, hashPrim, hb, Bool.false_eq_true, if_false, hdr, feed]
    rw [load_eq (by omega), rd_zero_eq_take]
    rfl
  | hs bin hd =>
    intro ho m S y hS he h
    obtain ⟨cs, o, vs, h1, r, hv⟩ := crep_of_enc ho rfl hS he
    subst h1
    obtain ⟨s1, s2⟩ := str_vals r hv
    have hcnt := getCount_eq ho rfl r
    have hxl : (rd m (offBitmap (.str bin hd)) cs.length).length = cs.length := rd_length _ _ _ s2
    have hxv := byteOf_chars _ s1
    simp only [hashData, hcnt, Option.bind_eq_bind, Option.bind_some, feed, hxv]
    generalize hx : rd m (offBitmap (.str bin hd)) cs.length = x at *
    -- one character
    have hone : ∀ i (hi : i < x.length), (∀ h : σ, hashCont upd (fun h t c => hashPrim upd h t c) h (.str bin hd) m i = some (upd h x[i])) ∧
        (Dti.str bin hd).getContUnsafe m i = some (some (.uint x[i].toNat)) := by
      intro i hi
      have hlt : i < cs.length := by omega
      have hvi : vs[i]? = some (.raw [x[i]]) := by
        unfold chars at s1
        injection s1 with s1
        rw [s1, List.getElem?_map, List.getElem?_eq_getElem hi]; rfl
      constructor
      · intro h
        obtain ⟨t, q1, q2, q3⟩ := hashCont_elt (upd := upd) ho rfl hS he hvi (fun h t c => hashPrim upd h t c) h
        have : t = u8 := by simp [tyAt] at q1; exact q1.symm
        subst this
        rcases q3 with ⟨q3, _⟩ | ⟨v, q3, _⟩ | ⟨p, s, q3, q4, q5⟩
        · cases q3
        · cases q3
        · rw [q5]
          obtain ⟨_, hl, hb⟩ := enc_prim q4
          have hl' : ((m.drop p).take s).length = s := by rw [List.length_take]; omega
          rw [hl'] at hl
          have hl : s = 1 := hl
          subst hl
          injection hb with hb
          have : load (m.drop p) 0 1 = some [x[i]] := by
            rw [load_eq (by omega), rd_zero_eq_take, hb]
          simp only [hashPrim, u8, isBit, Bool.false_eq_true, if_false, hdr, this]
          rfl
      · have hg := getElem_ok [i] ho hS he
        unfold GetOk at hg
        have hat : (Val.node vs).at' [i] = some (.raw [x[i]]) := by simp [Val.at', hvi]
        rw [hat] at hg
        rcases hg with ⟨h1, _⟩ | ⟨t, dt, h1, h2, h3⟩
        · cases h1
        · have hty := tyAtNoData_pos ho rfl r.countOk hlt
          simp only [typeAt, hty, Option.bind_eq_bind, Option.bind_some, Option.some.injEq] at h1
          have : t = u8 := h1.symm
          subst this
          have h3 : dt = .uint (leDec [x[i]]) := h3
          have hge : ¬ cs.length ≤ i := by omega
          simp only [getElem, getCont, isCont, hcnt, Bool.not_true, Bool.false_eq_true, if_false, Option.bind_eq_bind,
            Option.bind_some, ge_iff_le, hge] at h2
          rw [h2, h3]
          simp [leDec]
    suffices hloop : ∀ (k i : Nat) (h : σ), i + k = x.length →
        hashDataLoop upd (fun h t c => hashPrim upd h t c) (!bin) (.str bin hd) m k i h =
          some (hashBytes upd h (if bin then x.drop i else strn (x.drop i))) by
      have := hloop cs.length 0 h (by omega)
      simpa using this
    intro k
    induction k with
    | zero =>
      intro i h hi
      rw [List.drop_eq_nil_of_le (by omega)]
      simp [hashDataLoop, hashBytes, strn]
    | succ k ih =>
      intro i h hi
      have hlt : i < x.length := by omega
      obtain ⟨g1, g2⟩ := hone i hlt
      have hnext := ih (i + 1) (upd h x[i]) (by omega)
      simp only [hashDataLoop, g1, g2, Option.bind_eq_bind, Option.bind_some]
      cases bin with
      | true =>
        simp only [Bool.not_true, Bool.false_eq_true, if_false, if_true] at hnext ⊢
        rw [hnext, List.drop_eq_getElem_cons hlt]
        rfl
      | false =>
        simp only [Bool.not_false, Bool.false_eq_true, if_false, Option.bind_some, if_true, Datum.asUint, Option.pure_def,
          decide_eq_true_eq] at hnext ⊢
        by_cases hz : x[i] = 0
        · rw [if_pos (by rw [hz]; rfl), List.drop_eq_getElem_cons hlt]
          simp [strn, hz, hashBytes]
        · rw [if_neg (show ¬ x[i].toNat = 0 from fun h0 => hz (UInt8.toNat_inj.mp h0)), hnext, strn_drop_cons hlt hz]
          rfl
  | ht hd fs ih =>
    intro ho m S y hS he h
    obtain ⟨cs, o, vs, h1, r, hv⟩ := crep_of_enc ho rfl hS he
    subst h1
    have hcnt := getCount_eq ho rfl r
    have hlen : cs.length = fs.length := by
      rw [r.cntF rfl]; cases ho with | tup _ _ _ _ _ a => exact a.symm
    simp only [hashData, hcnt, Option.bind_eq_bind, Option.bind_some, feed]
    suffices hloop : ∀ (rs : List (Fld × Dti)) (i : Nat) (h : σ), i + rs.length = fs.length → (∀ j, rs[j]? = fs[i + j]?) →
        hashDataFlds upd h rs (.tup hd fs) m cs.length i = some (hashBytes upd h (feeds rs (vs.drop i))) by
      have := hloop fs 0 h (by simp) (by simp)
      simpa using this
    intro rs
    induction rs with
    | nil =>
      intro i h hi _
      simp only [List.length_nil] at hi
      simp only [hashDataFlds, feeds]
      rw [if_neg (by omega)]
      rfl
    | cons f rs ihr =>
      intro i h hi hr
      obtain ⟨f, t⟩ := f
      simp only [List.length_cons] at hi
      have hlt : i < vs.length := by rw [hv.1]; omega
      have hfi : fs[i]? = some (f, t) := by have := hr 0; simpa using this.symm
      obtain ⟨t', q1, q2, q3⟩ := hashCont_elt (upd := upd) ho rfl hS he (List.getElem?_eq_getElem hlt) (fun h _ x => hashData upd h t x) h
      have : t' = t := by simp [tyAt, hfi] at q1; exact q1.symm
      subst this
      have hnext := ihr (i + 1) (hashBytes upd h (feed t' vs[i])) (by omega) (fun j => by
        have := hr (j + 1); simp only [List.getElem?_cons_succ] at this; rw [this]; congr 1; omega)
      have hstep : hashCont upd (fun h _ x => hashData upd h t' x) h (.tup hd fs) m i = some (hashBytes upd h (feed t' vs[i])) := by
        rcases q3 with ⟨q3, q4⟩ | ⟨v, q3, q4⟩ | ⟨p, s, q3, q4, q5⟩
        · rw [q4, q3, feed_null]; rfl
        · rw [q4, q3, feed_bits]
        · rw [q5]; exact ih f t' (List.mem_of_getElem? hfi) q2 q3 q4 h
      rw [List.drop_eq_getElem_cons hlt]
      simp only [hashDataFlds, if_pos (show i < cs.length by omega), hstep, Option.bind_eq_bind, Option.bind_some, feeds]
      rw [hashBytes_append, ← hnext]
  | ha hd c ih =>
    intro ho m S y hS he h
    obtain ⟨cs, o, vs, h1, r, hv⟩ := crep_of_enc ho rfl hS he
    subst h1
    have hcnt := getCount_eq ho rfl r
    simp only [hashData, hcnt, Option.bind_eq_bind, Option.bind_some, feed]
    suffices hloop : ∀ (k i : Nat) (h : σ), i + k = vs.length →
        hashDataLoop upd (fun h _ x => hashData upd h c x) false (.arr hd c) m k i h =
          some (hashBytes upd h ((vs.drop i).map (fun v => feed c v)).flatten) by
      have := hloop cs.length 0 h (by rw [hv.1]; omega)
      simpa using this
    intro k
    induction k with
    | zero =>
      intro i h hi
      simp only [hashDataLoop]
      rw [List.drop_eq_nil_of_le (by omega)]
      rfl
    | succ k ihr =>
      intro i h hi
      have hlt : i < vs.length := by omega
      obtain ⟨t', q1, q2, q3⟩ := hashCont_elt (upd := upd) ho rfl hS he (List.getElem?_eq_getElem hlt) (fun h _ x => hashData upd h c x) h
      have : t' = c := by simp [tyAt] at q1; exact q1.symm
      subst this
      have hnext := ihr (i + 1) (hashBytes upd h (feed t' vs[i])) (by omega)
      have hstep : hashCont upd (fun h _ x => hashData upd h t' x) h (.arr hd t') m i = some (hashBytes upd h (feed t' vs[i])) := by
        rcases q3 with ⟨q3, q4⟩ | ⟨v, q3, q4⟩ | ⟨p, s, q3, q4, q5⟩
        · rw [q4, q3, feed_null]; rfl
        · rw [q4, q3, feed_bits]
        · rw [q5]; exact ih q2 q3 q4 h
      rw [List.drop_eq_getElem_cons hlt]
      simp only [hashDataLoop, Bool.false_eq_true, if_false, hstep, Option.bind_eq_bind, Option.bind_some, List.map_cons, List.flatten_cons]
      rw [hashBytes_append, ← hnext]

end
end Dti
end TS
