import Verif.ContUpd
/-
Writing a datum over one datum of a type.
-/
namespace TS
namespace Dti

/-- The value of a string or binary: its characters. -/
def chars (x : Bytes) : Val := .node (x.map (fun b => .raw [b]))

/-- The bytes `initialize_minimal_data_for_type_info` writes. -/
def minB (d : Dti) : Bytes :=
  if d.hasSizeP then leEnc d.w d.hdr.size ++ List.replicate (d.hdr.size - d.w) 0
  else List.replicate d.hdr.size 0

/-- Datum `v`, written to an element of type `t`, stands for the value `y`. Numbers are taken
modulo the width of the type, strings end at their first NUL; a fixed size string holds the first
characters and is filled up with NULs, a fixed size binary is not filled up: the characters beyond
the given ones are arbitrary. A tuple or array is given by well formed memory or as the minimal
one. Strings and binaries obey the 2GB limit (/repo/README.md:14-18). -/
def Den (t : Dti) (v : Datum) (y : Val) : Prop :=
  match t with
  | .prim .bitField _ => False
  | .prim .uint h | .prim .largeUint h => ∃ n, v.asUint = some n ∧ y = .raw (leEnc h.size n)
  | .prim .int h | .prim .largeInt h => ∃ z, v.asInt = some z ∧ y = .raw (intEnc h.size z)
  | .prim .float h => ∃ b, v.asFlt h.size = some b ∧ y = .raw b
  | .str bin h => ∃ b0 b x, v.asBytes = some b0 ∧ b0.length < lim ∧ b = (if bin then b0 else strn b0) ∧
      y = chars x ∧
      (h.isVar = true → x = b) ∧
      (h.isVar = false → x.length = h.size ∧ (∀ i, i < b.length → i < h.size → x[i]? = b[i]?) ∧
        (bin = false → ∀ i, b.length ≤ i → i < h.size → x[i]? = some 0))
  | t => (∃ src s, v = .ptr src ∧ t.getSize src = some s ∧ s ≤ src.length ∧ Enc t (src.take s) y) ∨
      (v = .empty ∧ Enc t (minB t) y)

theorem strn_le (b : Bytes) : (strn b).length ≤ b.length := by
  unfold strn
  exact (List.takeWhile_sublist _).length_le

/-- Elements of a container of no variable sized element, as soon as there is a value for each. -/
theorem enc_noVar {d : Dti} {m : Bytes} {n : Nat} (hc : d.isCont = true)
    (hl : fixedEnd d n = m.length)
    (hmx : d.isVar = true → fixedEnd d n ≤ d.hdr.maxSize) (hn : CountOk d n)
    (hcv : d.isVarCount = true → d.word m d.offCountP = n)
    (hsp : d.hasSizeP = true → d.word m 0 = fixedEnd d n % 256 ^ d.w)
    (hw : ∀ i, i < n → (posOf d n i).ty.isVar = true → d.word m (posOf d n i).off = 0)
    {vs : List Val} (hvl : vs.length = n)
    (hv : ∀ (i : Nat) y, vs[i]? = some y → EVal (posOf d n i).ty (eltOf d m (posOf d n i)) y) :
    Enc d m (.node vs) := by
  have r := crep_noVar (by omega) hmx hn hcv hsp hw
  rw [hl] at r
  refine enc_node hc r ⟨by simp [hvl], ?_⟩
  intro i c y hi hy
  obtain ⟨_, h2⟩ := eltsOf_get hi
  subst h2
  simp only [eltsOf_length]
  exact hv i y hy

theorem chars_eval {b : Bool} {h : Hdr} {m x : Bytes} (hx : rd m (offBitmap (.str b h)) x.length = x)
    (i : Nat) (y : Val) (hy : (x.map (fun b => Val.raw [b]))[i]? = some y) :
    EVal (posOf (.str b h) x.length i).ty (eltOf (.str b h) m (posOf (.str b h) x.length i)) y := by
  rw [List.getElem?_map] at hy
  obtain ⟨a, ha, hay⟩ := Option.map_eq_some_iff.mp hy
  subst hay
  have hi := (List.getElem?_eq_some_iff.mp ha).1
  have : eltOf (.str b h) m (posOf (.str b h) x.length i) = .fixd (rd m (offBitmap (.str b h) + i) 1) := rfl
  rw [this]
  have hr : rd m (offBitmap (.str b h) + i) 1 = [a] := by
    apply List.ext_getElem?
    intro j
    rw [rd_getElem?]
    by_cases hj : j < 1
    · rw [if_pos hj]
      have : j = 0 := by omega
      subst this
      have h2 := congrArg (·[i]?) hx
      simp only [rd_getElem?, if_pos hi] at h2
      simp only [Nat.add_zero]
      rw [h2, ha]; rfl
    · rw [if_neg hj]
      have : [a].length ≤ j := by simp; omega
      rw [List.getElem?_eq_none this]
  rw [hr]
  exact Enc.prim (by decide) rfl

theorem str_enc_var {b : Bool} {h : Hdr} {x : Bytes} (hok : TyOk (.str b h)) (hv : h.isVar = true)
    (hle : vsz h.maxSize + x.length ≤ h.maxSize) :
    Enc (.str b h) (leEnc (vsz h.maxSize) x.length ++ x) (chars x) := by
  have hvc : isVarCount (.str b h) = true := by simp [isVarCount, hv]
  have ho : offBitmap (.str b h) = vsz h.maxSize := by
    simp [offBitmap, offCountP, hasSizeP, hasCountP, hvc, w, hdr]
  have hoc : offCountP (.str b h) = 0 := by simp [offCountP, hasSizeP]
  have hlim := (hok.maxSize hv).2
  have hpow : h.maxSize ≤ 256 ^ vsz h.maxSize := le_pow_vsz (by simp only [hdr] at hlim; unfold lim at hlim; omega)
  have hvp := vsz_pos h.maxSize
  refine enc_noVar (n := x.length) rfl (by simp [fixedEnd, ho]) (fun _ => by simpa [fixedEnd, ho, hdr] using hle)
    (by intro hh; rw [hvc] at hh; cases hh) ?_ (by intro hh; cases hh) (by intro i hi hh; cases hh) (by simp) ?_
  · intro _
    rw [hoc]
    unfold word
    have : w (.str b h) = vsz h.maxSize := rfl
    rw [this]
    have hr : rd (leEnc (vsz h.maxSize) x.length ++ x) 0 (vsz h.maxSize) = leEnc (vsz h.maxSize) x.length := by
      rw [rd_zero_eq_take, List.take_append_of_le_length (by simp)]
      exact List.take_of_length_le (by simp)
    rw [hr, leDec_leEnc, Nat.mod_eq_of_lt (by omega)]
  · exact chars_eval (by
      rw [ho]
      simp [rd])

theorem str_enc_fix {b : Bool} {h : Hdr} {x : Bytes} (hok : TyOk (.str b h)) (hv : h.isVar = false)
    (hle : x.length = h.size) : Enc (.str b h) x (chars x) := by
  have hvc : isVarCount (.str b h) = false := by simp [isVarCount, hv]
  have ho : offBitmap (.str b h) = 0 := by
    simp [offBitmap, offCountP, hasSizeP, hasCountP, hvc]
  have hcnt : h.size = h.count := by cases hok with | str _ _ a1 a2 a3 a4 => exact (a3 hv).1
  refine enc_noVar (n := x.length) rfl (by simp [fixedEnd, ho]) (by intro hh; simp [isVar, hdr, hv] at hh)
    (fun _ => by simp only [hdr]; omega) (by intro hh; rw [hvc] at hh; cases hh) (by intro hh; cases hh)
    (by intro i hi hh; cases hh) (by simp) ?_
  exact chars_eval (by rw [ho]; simp [rd])

/-! ### The minimal datum -/

/-- Elements of the minimal datum of a container. -/
def minCount (d : Dti) : Nat := if d.isVarCount then 0 else d.hdr.count

theorem fixedEnd_min {d : Dti} (h : TyOk d) : fixedEnd d (minCount d) = d.hdr.size := by
  unfold minCount
  cases hvc : d.isVarCount with
  | false => simpa using fixedEnd_count h hvc
  | true =>
    cases h with
    | prim => rfl
    | str bb h a1 a2 a3 a4 =>
      simp [isVarCount] at hvc
      have := (a4 hvc).1
      simp [fixedEnd, offBitmap, offCountP, hasSizeP, hasCountP, isVarCount, hvc, hdr, this, w]
    | tup => simp [isVarCount] at hvc
    | arr h c a1 a2 a3 a4 a5 => simp [isVarCount] at hvc; exact (a5 hvc.2).symm

theorem minCount_ok (d : Dti) : CountOk d (minCount d) := by
  intro h; simp [minCount, h]

theorem w_le_size {d : Dti} (h : TyOk d) (hc : d.isCont = true) (hs : d.hasSizeP = true) :
    d.w ≤ d.hdr.size := by
  have h1 := fixedEnd_min h
  have h2 := bitmap_le_fixedEnd h hc (minCount_ok d)
  have h3 : d.w ≤ d.offBitmap := by simp [offBitmap, offCountP, hs]
  omega

theorem minB_length {d : Dti} (h : TyOk d) (hc : d.isCont = true) : (minB d).length = d.hdr.size := by
  unfold minB
  split
  · rename_i hs
    have := w_le_size h hc hs
    simp; omega
  · simp

theorem rd_replicate (n a l : Nat) (v : UInt8) (h : a + l ≤ n) :
    rd (List.replicate n v) a l = List.replicate l v := by
  simp [rd]; omega

/-- Behind the size prefix the minimal datum is zero. -/
theorem minB_zero {d : Dti} {a l : Nat} (ha : d.offCountP ≤ a)
    (hl : a + l ≤ d.hdr.size) : rd (minB d) a l = List.replicate l 0 := by
  unfold minB
  cases hs : d.hasSizeP with
  | false => simp only [Bool.false_eq_true, if_false]; exact rd_replicate _ _ _ _ hl
  | true =>
    simp only [if_true]
    have : d.w ≤ a := by simpa [offCountP, hs] using ha
    simp [rd, List.drop_append, List.drop_eq_nil_of_le, this]
    omega

theorem offCountP_le (d : Dti) : d.offCountP ≤ d.offBitmap := by simp [offBitmap]

theorem min_enc {d : Dti} (h : TyOk d) (hc : d.isCont = true) : ∃ y, Enc d (minB d) y := by
  have hlen := minB_length h hc
  cases hv : d.isVar with
  | false => exact fixed_enc d _ h hv (isCont_not_bit hc) hlen
  | true =>
    have hfe := fixedEnd_min h
    have hmax := h.maxSize hv
    have hlay := lay_of h hc (minCount_ok d)
    have hbm := bitmap_le_fixedEnd h hc (minCount_ok d)
    have hoc := offCountP_le d
    have hpow : d.hdr.maxSize ≤ 256 ^ d.w := le_pow_vsz (by have := hmax.2; unfold lim at this; omega)
    have hzw : ∀ a, d.offCountP ≤ a → a + d.w ≤ d.hdr.size → d.word (minB d) a = 0 := by
      intro a h1 h2
      unfold word
      rw [minB_zero h1 h2, leDec_replicate_zero]
    obtain ⟨vs, g1, g2⟩ := exists_list (P := fun i y => EVal (posOf d (minCount d) i).ty
        (eltOf d (minB d) (posOf d (minCount d) i)) y) (minCount d) (by
      intro i hi
      unfold eltOf
      split
      · exact ⟨_, rfl⟩
      · split
        · exact ⟨_, rfl⟩
        · rename_i hb
          split
          · exact ⟨_, rfl⟩
          · rename_i hvv
            have hb : (posOf d (minCount d) i).ty.isBit = false := by simpa using hb
            have hvv : (posOf d (minCount d) i).ty.isVar = false := by simpa using hvv
            have hfx := hlay.fx i hi hb
            simp only [slot, hvv, Bool.false_eq_true, if_false] at hfx
            exact fixed_enc _ _ (posOf_ok h hc (minCount_ok d) hi) hvv hb (rd_length _ _ _ (by omega)))
    refine ⟨_, enc_noVar hc (by rw [hfe, hlen]) (fun _ => by rw [hfe]; exact hmax.1) (minCount_ok d) ?_ ?_ ?_ g1 g2⟩
    · intro hvc
      have : minCount d = 0 := by simp [minCount, hvc]
      rw [this]
      exact hzw _ (Nat.le_refl _) (by simp [offBitmap, hasCountP, hvc] at hbm; omega)
    · intro hs
      have hws := w_le_size h hc hs
      rw [hfe]
      have hw : d.word (minB d) 0 = d.hdr.size % 256 ^ d.w := by
        unfold word minB
        rw [if_pos hs, rd_zero_eq_take, List.take_append_of_le_length (by simp),
          List.take_of_length_le (by simp), leDec_leEnc]
      exact hw
    · intro i hi hvi
      have hbi := isVar_not_bit (posOf_ok h hc (minCount_ok d) hi) hvi
      have hfx := hlay.fx i hi hbi
      simp only [slot, hvi, if_true] at hfx
      exact hzw _ (by omega) (by omega)

theorem initMin_eq {d : Dti} {m : Bytes} (h : TyOk d) (hc : d.isCont = true) (hl : d.hdr.size ≤ m.length) :
    d.initMin m = some (wr m 0 (minB d), d.hdr.size) := by
  have hlen := minB_length h hc
  unfold initMin
  rw [isCont_not_bit hc]
  simp only [Bool.false_eq_true, if_false, zeroIn, storeVal]
  rw [store_eq (by simpa using hl)]
  simp only [Option.bind_eq_bind, Option.bind_some]
  have hmin : d.hasSizeP = false → minB d = List.replicate d.hdr.size 0 := by
    intro hh; simp [minB, hh]
  cases hv : d.isVar with
  | false =>
    simp only [Bool.not_false, if_true]
    rw [hmin (fixed_not_var hv).2]; rfl
  | true =>
    simp only [Bool.not_true, Bool.false_eq_true, if_false]
    cases hs : d.hasSizeP with
    | false => simp [hmin hs]
    | true =>
      have hws := w_le_size h hc hs
      simp only [if_true]
      have hww : vsz d.hdr.maxSize = d.w := rfl
      rw [hww, store_eq (by simp; omega)]
      simp only [Option.bind_some, Option.pure_def]
      congr 2
      apply List.ext_getElem?
      intro j
      simp only [wr_getElem?, wr_length, leEnc_length, List.length_replicate, hlen]
      unfold minB
      rw [if_pos hs]
      simp only [Nat.sub_zero, Nat.zero_le, true_and, Nat.zero_add]
      by_cases h1 : j < d.w
      · rw [if_pos ⟨h1, by omega⟩, if_pos ⟨by omega, by omega⟩, List.getElem?_append_left (by simpa using h1)]
      · rw [if_neg (by omega)]
        by_cases h2 : j < d.hdr.size
        · rw [if_pos ⟨h2, by omega⟩, if_pos ⟨h2, by omega⟩, List.getElem?_append_right (by simpa using h1)]
          rw [List.getElem?_replicate, List.getElem?_replicate, if_pos h2, if_pos (by simp; omega)]
        · rw [if_neg (by omega), if_neg (by omega)]

/-! ### Writing a datum -/

/-- What writing the datum `v` at the start of the memory `c` must do: bytes behind the written
datum do not change. -/
def Wrote (t : Dti) (v : Datum) (c c' b : Bytes) : Prop :=
  (∃ y, Enc t b y ∧ Den t v y) ∧ rd c' 0 b.length = b ∧ (∀ x, b.length ≤ x → c'[x]? = c[x]?)

theorem wrote_wr {t : Dti} {v : Datum} {c b : Bytes} {y : Val} (he : Enc t b y) (hd : Den t v y)
    (hl : b.length ≤ c.length) : Wrote t v c (wr c 0 b) b := by
  refine ⟨⟨y, he, hd⟩, rd_wr_same _ _ _ (by omega), ?_⟩
  intro x hx
  rw [wr_getElem?, if_neg (by omega)]

theorem setDatum_ok {t : Dti} {c : Bytes} {valid : Bool} {inc old : Nat} {v : Datum} (h : TyOk t)
    (hb : t.isBit = false) (hn : v.isNull = false) (hd : ∃ y, Den t v y)
    (hold : t.isVar = true → t.oldSize c valid = some old)
    (hroom : t.isVar = true → min (old + inc) t.hdr.maxSize ≤ c.length) (hroom' : t.isVar = false → t.hdr.size ≤ c.length) :
    ∃ c' q, t.setDatum c valid inc v = some (c', q) ∧ t.canSetDatum c valid inc v = some q ∧
      c'.length = c.length ∧ (q = false → c' = c) ∧ (t.isVar = false → q = true) ∧
      (q = true → ∃ b, Wrote t v c c' b ∧ (t.isVar = true → b.length ≤ old + inc)) := by
  obtain ⟨y, hy⟩ := hd
  unfold setDatum canSetDatum
  simp only [hn, hb, Bool.false_eq_true, if_false]
  cases hv : t.isVar with
  | false =>
    replace hroom' := hroom' hv
    simp only [Bool.not_false, if_true]
    have key : ∀ b : Bytes, b.length = t.hdr.size → (∃ y, Enc t b y ∧ Den t v y) →
        ∃ c' q, (some (wr c 0 b, true) : Option (Bytes × Bool)) = some (c', q) ∧ some true = some q ∧
          c'.length = c.length ∧ (q = false → c' = c) ∧ (True → q = true) ∧
          (q = true → ∃ b, Wrote t v c c' b ∧ (false = true → b.length ≤ old + inc)) := by
      intro b hl ⟨y, e1, e2⟩
      exact ⟨_, _, rfl, rfl, by simp, by simp, fun _ => rfl,
        fun _ => ⟨b, wrote_wr e1 e2 (by omega), by simp⟩⟩
    cases t with
    | prim k hh =>
      simp only [hdr] at hroom' key
      cases k with
      | bitField => simp [isBit] at hb
      | uint =>
        obtain ⟨n, h1, h2⟩ := hy
        simp only [h1, Option.bind_eq_bind, Option.bind_some]
        rw [store_eq (by simpa using hroom')]
        exact key _ (by simp) ⟨_, .prim (by decide) (by simp), n, h1, rfl⟩
      | largeUint =>
        obtain ⟨n, h1, h2⟩ := hy
        simp only [h1, Option.bind_eq_bind, Option.bind_some]
        rw [store_eq (by simpa using hroom')]
        exact key _ (by simp) ⟨_, .prim (by decide) (by simp), n, h1, rfl⟩
      | int =>
        obtain ⟨n, h1, h2⟩ := hy
        simp only [h1, Option.bind_eq_bind, Option.bind_some]
        rw [store_eq (by simpa [intEnc] using hroom')]
        exact key _ (by simp [intEnc]) ⟨_, .prim (by decide) (by simp [intEnc]), n, h1, rfl⟩
      | largeInt =>
        obtain ⟨n, h1, h2⟩ := hy
        simp only [h1, Option.bind_eq_bind, Option.bind_some]
        rw [store_eq (by simpa [intEnc] using hroom')]
        exact key _ (by simp [intEnc]) ⟨_, .prim (by decide) (by simp [intEnc]), n, h1, rfl⟩
      | float =>
        obtain ⟨b, h1, h2⟩ := hy
        have hbl : b.length = hh.size := by
          cases v <;> simp [Datum.asFlt] at h1
          · rw [← h1]; simp
          · rw [← h1.2]; exact h1.1
        simp only [h1, Option.bind_eq_bind, Option.bind_some]
        rw [store_eq (by omega)]
        exact key _ hbl ⟨_, .prim (by decide) hbl, b, h1, rfl⟩
    | str bin hh =>
      simp only [hdr] at hroom' key
      obtain ⟨b0, b, x, h1, h2, h3, h4, h5, h6⟩ := hy
      have hvh : hh.isVar = false := hv
      cases bin with
      | false =>
        simp only [Bool.false_eq_true, if_false] at h3
        simp only [h1, Option.bind_eq_bind, Option.bind_some, ← h3]
        have htl : (b.take hh.size).length ≤ hh.size := by simp; omega
        rw [store_eq (by omega)]
        simp only [Option.bind_some]
        have hden : ∀ x' : Bytes, x'.length = hh.size → (∀ i, i < b.length → i < hh.size → x'[i]? = b[i]?) →
            (∀ i, b.length ≤ i → i < hh.size → x'[i]? = some 0) → Den (.str false hh) v (chars x') := by
          intro x' k1 k2 k3
          exact ⟨b0, b, x', h1, h2, by simp [h3], rfl, (by intro hh2; rw [hvh] at hh2; cases hh2),
            fun _ => ⟨k1, k2, fun _ => k3⟩⟩
        split
        · rename_i hlt
          have hbl : b.length < hh.size := by simp at hlt; omega
          have htk : b.take hh.size = b := List.take_of_length_le (by omega)
          rw [htk]
          unfold zeroIn
          rw [store_eq (by simp; omega)]
          have heq : wr (wr c 0 b) b.length (List.replicate (hh.size - b.length) 0) =
              wr c 0 (b ++ List.replicate (hh.size - b.length) 0) := by
            apply List.ext_getElem?
            intro j
            simp only [wr_getElem?, wr_length, List.length_append, List.length_replicate, Nat.zero_le,
              true_and, Nat.zero_add, Nat.sub_zero]
            by_cases k1 : j < b.length
            · rw [if_neg (by omega), if_pos ⟨k1, by omega⟩, if_pos ⟨by omega, by omega⟩,
                List.getElem?_append_left k1]
            · by_cases k2 : j < hh.size
              · rw [if_pos (by omega), if_pos (by omega), List.getElem?_append_right (by omega)]
              · rw [if_neg (by omega), if_neg (by omega), if_neg (by omega)]
          simp only [Option.bind_some, Option.pure_def]
          rw [heq]
          have hl2 : (b ++ List.replicate (hh.size - b.length) (0 : UInt8)).length = hh.size := by simp; omega
          refine key _ hl2 ⟨_, str_enc_fix h hvh hl2, hden _ hl2 ?_ ?_⟩
          · intro i hi _; rw [List.getElem?_append_left hi]
          · intro i hi hi2; rw [List.getElem?_append_right hi, List.getElem?_replicate, if_pos (by omega)]
        · rename_i hlt
          have hbl : (b.take hh.size).length = hh.size := by omega
          simp at hlt
          simp only [Option.pure_def]
          refine key _ hbl ⟨_, str_enc_fix h hvh hbl, hden _ hbl ?_ ?_⟩
          · intro i hi hi2; rw [List.getElem?_take, if_pos hi2]
          · intro i hi hi2; omega
      | true =>
        simp only [if_true] at h3
        subst h3
        simp only [h1, Option.bind_eq_bind, Option.bind_some]
        have htl : (b.take hh.size).length ≤ hh.size := by simp; omega
        rw [store_eq (by omega)]
        refine ⟨_, _, rfl, rfl, by simp, by simp, fun _ => rfl, fun _ => ?_⟩
        have hl3 : (rd (wr c 0 (b.take hh.size)) 0 hh.size).length = hh.size := rd_length _ _ _ (by simp; omega)
        refine ⟨rd (wr c 0 (b.take hh.size)) 0 hh.size, ⟨⟨_, str_enc_fix h hvh hl3, ?_⟩, ?_, ?_⟩, by simp⟩
        · refine ⟨b, b, _, h1, h2, rfl, rfl, (by intro hh2; rw [hvh] at hh2; cases hh2), fun _ => ⟨hl3, ?_, by simp⟩⟩
          intro i hi hi2
          rw [rd_getElem?, if_pos hi2, Nat.zero_add, wr_getElem?, if_pos (by simp; omega), Nat.sub_zero,
            List.getElem?_take, if_pos hi2]
        · rw [hl3]
        · intro x hx
          rw [hl3] at hx
          rw [wr_getElem?, if_neg (by omega)]
    | tup hh fs =>
      rcases hy with ⟨src, s, h1, h2, h3, h4⟩ | ⟨h1, h2⟩
      · subst h1
        have hs : s = hh.size := by simpa [getSize, isBit, hv, hdr] using h2.symm
        subst hs
        simp only [hdr] at hroom' key ⊢
        rw [load_eq (by omega)]
        simp only [Option.bind_eq_bind, Option.bind_some]
        have hl4 : (rd src 0 hh.size).length = hh.size := rd_length _ _ _ (by omega)
        rw [store_eq (by omega)]
        refine key _ hl4 ⟨y, ?_, Or.inl ⟨src, _, rfl, h2, h3, h4⟩⟩
        rw [rd_zero_eq_take]; exact h4
      · subst h1
        simp only [initMin_eq h rfl hroom']
        exact key _ (minB_length h rfl) ⟨y, h2, Or.inr ⟨rfl, h2⟩⟩
    | arr hh cc =>
      rcases hy with ⟨src, s, h1, h2, h3, h4⟩ | ⟨h1, h2⟩
      · subst h1
        have hs : s = hh.size := by simpa [getSize, isBit, hv, hdr] using h2.symm
        subst hs
        simp only [hdr] at hroom' key ⊢
        rw [load_eq (by omega)]
        simp only [Option.bind_eq_bind, Option.bind_some]
        have hl4 : (rd src 0 hh.size).length = hh.size := rd_length _ _ _ (by omega)
        rw [store_eq (by omega)]
        refine key _ hl4 ⟨y, ?_, Or.inl ⟨src, _, rfl, h2, h3, h4⟩⟩
        rw [rd_zero_eq_take]; exact h4
      · subst h1
        simp only [initMin_eq h rfl hroom']
        exact key _ (minB_length h rfl) ⟨y, h2, Or.inr ⟨rfl, h2⟩⟩
  | true =>
    have hc := (h.prefix hv).1
    replace hold := hold hv
    replace hroom := hroom hv
    simp only [hc, Bool.not_true, Bool.false_eq_true, if_false]
    -- the shared size test
    have hfits : ∀ new, fits t.hdr.maxSize old new inc = true → new ≤ t.hdr.maxSize ∧ new ≤ old + inc := by
      intro new hf
      simp [fits] at hf
      omega
    cases t with
    | prim => simp [isCont] at hc
    | str bin hh =>
      obtain ⟨b0, b, x, h1, h2, h3, h4, h5, h6⟩ := hy
      have hvh : hh.isVar = true := hv
      have hxb := h5 hvh
      have hbl : b.length ≤ b0.length := by
        rw [h3]; split
        · exact Nat.le_refl _
        · exact strn_le _
      have hnew : newSize (.str bin hh) v = some (vsz hh.maxSize + b.length) := by
        have h4 := vsz_le hh.maxSize
        unfold lim at h2
        have : u32 (vsz hh.maxSize + b.length) = some (vsz hh.maxSize + b.length) := u32_eq (by omega)
        cases bin <;> simp [newSize, h1] at h3 ⊢
        · rw [← h3]; exact this
        · rw [← h3]; exact this
      simp only [hold, hnew, Option.bind_eq_bind, Option.bind_some]
      have hfits := hfits (vsz hh.maxSize + b.length)
      simp only [hdr] at hfits hroom ⊢
      cases hf : fits hh.maxSize old (vsz hh.maxSize + b.length) inc with
      | false =>
        exact ⟨c, false, by simp, by simp, rfl, fun _ => rfl, by simp, by simp⟩
      | true =>
        obtain ⟨f1, f2⟩ := hfits hf
        simp only [Bool.not_true, Bool.false_eq_true, if_false, h1, Option.bind_some, ← h3, storeVal]
        rw [store_eq (by simp; omega)]
        simp only [Option.bind_some]
        rw [store_eq (by simp; omega)]
        have heq : wr (wr c 0 (leEnc (vsz hh.maxSize) b.length)) (vsz hh.maxSize) b =
            wr c 0 (leEnc (vsz hh.maxSize) b.length ++ b) := by
          apply List.ext_getElem?
          intro j
          simp only [wr_getElem?, wr_length, List.length_append, leEnc_length, Nat.zero_le,
            true_and, Nat.zero_add, Nat.sub_zero]
          by_cases k1 : j < vsz hh.maxSize
          · rw [if_neg (by omega), if_pos ⟨k1, by omega⟩, if_pos ⟨by omega, by omega⟩,
              List.getElem?_append_left (by simpa using k1)]
          · by_cases k2 : j < vsz hh.maxSize + b.length
            · rw [if_pos (by omega), if_pos (by omega), List.getElem?_append_right (by simp; omega)]
              simp
            · rw [if_neg (by omega), if_neg (by omega), if_neg (by omega)]
        refine ⟨_, _, rfl, rfl, by simp, by simp, fun _ => rfl, fun _ => ?_⟩
        rw [heq]
        refine ⟨leEnc (vsz hh.maxSize) b.length ++ b, wrote_wr (str_enc_var h hvh f1)
          ⟨b0, b, b, h1, h2, h3, rfl, fun _ => rfl, ?_⟩ (by simp; omega), fun _ => by simp; omega⟩
        intro hh2; rw [hvh] at hh2; cases hh2
    | tup hh fs =>
      have hmin := minB_length h hc
      rcases hy with ⟨src, s, h1, h2, h3, h4⟩ | ⟨h1, h2⟩
      · subst h1
        simp only [newSize, h2, hold, Option.bind_eq_bind, Option.bind_some]
        cases hf : fits (hdr (.tup hh fs)).maxSize old s inc with
        | false => exact ⟨c, false, by simp, by simp, rfl, fun _ => rfl, by simp, by simp⟩
        | true =>
          obtain ⟨f1, f2⟩ := hfits s hf
          simp only [Bool.not_true, Bool.false_eq_true, if_false]
          rw [load_eq (by omega)]
          simp only [Option.bind_some]
          have hl4 : (rd src 0 s).length = s := rd_length _ _ _ (by omega)
          rw [store_eq (by omega)]
          refine ⟨_, _, rfl, rfl, by simp, by simp, fun _ => rfl, fun _ => ?_⟩
          exact ⟨_, wrote_wr (y := y) (by rw [rd_zero_eq_take]; exact h4) (Or.inl ⟨src, _, rfl, h2, h3, h4⟩) (by omega),
            fun _ => by omega⟩
      · subst h1
        simp only [newSize, hold, Option.bind_eq_bind, Option.bind_some]
        cases hf : fits (hdr (.tup hh fs)).maxSize old (hdr (.tup hh fs)).size inc with
        | false => exact ⟨c, false, by simp, by simp, rfl, fun _ => rfl, by simp, by simp⟩
        | true =>
          obtain ⟨f1, f2⟩ := hfits _ hf
          simp only [Bool.not_true, Bool.false_eq_true, if_false]
          rw [initMin_eq h rfl (by omega)]
          refine ⟨_, _, rfl, rfl, by simp, by simp, fun _ => rfl, fun _ => ?_⟩
          exact ⟨_, wrote_wr h2 (Or.inr ⟨rfl, h2⟩) (by omega), fun _ => by omega⟩
    | arr hh cc =>
      have hmin := minB_length h hc
      rcases hy with ⟨src, s, h1, h2, h3, h4⟩ | ⟨h1, h2⟩
      · subst h1
        simp only [newSize, h2, hold, Option.bind_eq_bind, Option.bind_some]
        cases hf : fits (hdr (.arr hh cc)).maxSize old s inc with
        | false => exact ⟨c, false, by simp, by simp, rfl, fun _ => rfl, by simp, by simp⟩
        | true =>
          obtain ⟨f1, f2⟩ := hfits s hf
          simp only [Bool.not_true, Bool.false_eq_true, if_false]
          rw [load_eq (by omega)]
          simp only [Option.bind_some]
          have hl4 : (rd src 0 s).length = s := rd_length _ _ _ (by omega)
          rw [store_eq (by omega)]
          refine ⟨_, _, rfl, rfl, by simp, by simp, fun _ => rfl, fun _ => ?_⟩
          exact ⟨_, wrote_wr (y := y) (by rw [rd_zero_eq_take]; exact h4) (Or.inl ⟨src, _, rfl, h2, h3, h4⟩) (by omega),
            fun _ => by omega⟩
      · subst h1
        simp only [newSize, hold, Option.bind_eq_bind, Option.bind_some]
        cases hf : fits (hdr (.arr hh cc)).maxSize old (hdr (.arr hh cc)).size inc with
        | false => exact ⟨c, false, by simp, by simp, rfl, fun _ => rfl, by simp, by simp⟩
        | true =>
          obtain ⟨f1, f2⟩ := hfits _ hf
          simp only [Bool.not_true, Bool.false_eq_true, if_false]
          rw [initMin_eq h rfl (by omega)]
          refine ⟨_, _, rfl, rfl, by simp, by simp, fun _ => rfl, fun _ => ?_⟩
          exact ⟨_, wrote_wr h2 (Or.inr ⟨rfl, h2⟩) (by omega), fun _ => by omega⟩

end Dti
end TS
