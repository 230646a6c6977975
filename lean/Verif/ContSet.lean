import Verif.ContDatum
/-
Setting one element of a container.
-/
namespace TS
namespace Dti

/-- What setting an element of type `t` to the datum `v` makes of it. -/
def EDen (t : Dti) (v : Datum) (y : Val) : Prop :=
  if v.isNull then y = .null
  else if t.isBit then ∃ n, v.asUint = some n ∧ y = .bits (n % 2 ^ t.hdr.size)
  else Den t v y

theorem TyOk.bit_le {t : Dti} (h : TyOk t) (hb : t.isBit = true) : t.hdr.size ≤ 64 := by
  cases h with
  | prim k hh a1 a2 a3 a4 => exact a4
  | _ => simp [isBit] at hb

theorem atOff_get {m c : Bytes} {o x : Nat} (ho : o ≤ m.length) :
    (m.take o ++ c)[x]? = if x < o then m[x]? else c[x - o]? := by
  have hl : (m.take o).length = o := by simp; omega
  by_cases hx : x < o
  · rw [if_pos hx, List.getElem?_append_left (by omega), List.getElem?_take, if_pos hx]
  · rw [if_neg hx, List.getElem?_append_right (by omega), hl]

theorem canSetDatum_congr {t : Dti} {m m' : Bytes} {valid : Bool} {inc : Nat} {v : Datum}
    (h : t.isVar = true → t.oldSize m' valid = t.oldSize m valid) :
    t.canSetDatum m' valid inc v = t.canSetDatum m valid inc v := by
  unfold canSetDatum
  cases hv : t.isVar with
  | false => simp
  | true => rw [h hv]

theorem list_set_same {cs : List Elt} {i : Nat} {c : Elt} (hi : cs[i]? = some c) : cs.set i c = cs := by
  have hlt : i < cs.length := (List.getElem?_eq_some_iff.mp hi).1
  apply List.ext_getElem?
  intro j
  rw [List.getElem?_set]
  split
  · rename_i hij; subst hij; rw [hi]
  · rfl

section
variable {d : Dti} {m : Bytes} {S : Nat} {cs : List Elt} {o : Nat → Nat}

/-- Bits that are set in the prefix bitmap do not change bytes elsewhere. -/
theorem withBit_get {off k bb x : Nat} {v : Bool} (hk : k < bb)
    (hx : x < off ∨ off + bitmapBytes bb ≤ x) : (withBit m off k v)[x]? = m[x]? := by
  unfold withBit
  rw [wr_getElem?, if_neg]
  unfold bitmapBytes at hx
  simp
  omega

theorem withBits_get {off a k bb x v : Nat} (hk : a + k ≤ bb)
    (hx : x < off ∨ off + bitmapBytes bb ≤ x) : (withBits off m a k v)[x]? = m[x]? := by
  have h1 : off + bitmapBytes (a + k) ≤ off + bitmapBytes bb := by unfold bitmapBytes; omega
  have := rd_withBits (off := off) k m a v (x := x) (l := 1) (by omega)
  have h2 := congrArg (·[0]?) this
  simpa [rd_getElem?] using h2

/-- Marking a fixed sized element as not NULL. -/
theorem mark_ok (h : TyOk d) (hc : d.isCont = true) (r : CRep d m S cs o) {i : Nat}
    (hlt : i < cs.length) :
    ∃ m1, (∀ {β : Type} (k : Bytes → Option β), (if (posOf d cs.length i).ty.needsValid then
        (setBit m d.offBitmap (posOf d cs.length i).vbit).bind k else k m) = k m1) ∧
      m1.length = m.length ∧
      (∀ k, ¬ ((posOf d cs.length i).ty.needsValid = true ∧ k = (posOf d cs.length i).vbit) →
        bit m1 d.offBitmap k = bit m d.offBitmap k) ∧
      ((posOf d cs.length i).ty.needsValid = true → bit m1 d.offBitmap (posOf d cs.length i).vbit = true) ∧
      (∀ x, x < d.offBitmap ∨ d.offBitmap + bitmapBytes (bitsOf d cs.length) ≤ x → m1[x]? = m[x]?) := by
  have hlay := lay_of h hc r.countOk
  cases hn : (posOf d cs.length i).ty.needsValid with
  | false => exact ⟨m, by simp, rfl, fun _ _ => rfl, by simp, fun _ _ => rfl⟩
  | true =>
    have hb := hlay.vb i hlt hn
    refine ⟨withBit m d.offBitmap (posOf d cs.length i).vbit true, ?_, by simp, ?_, ?_, ?_⟩
    · intro β k
      rw [setBit_eq (bit_ok h hc r hb)]; simp
    · intro k hk
      rw [bit_withBit (bit_ok h hc r hb), if_neg (by simpa using hk)]
    · intro _; rw [bit_withBit (bit_ok h hc r hb), if_pos rfl]
    · intro x hx; exact withBit_get hb hx

/-- Setting an element of a container. On success the element has the value the datum stands for
and every other element is what it was; on failure every element is what it was. Either way an
element of variable size is at the end afterwards, and those that were behind it are moved down. -/
theorem setContUnsafe_at (h : TyOk d) (hc : d.isCont = true) (r : CRep d m S cs o) {i inc : Nat}
    {c : Elt} {v : Datum} (hi : cs[i]? = some c) (hd : ∃ y, EDen (posOf d cs.length i).ty v y)
    (hroom : (posOf d cs.length i).ty.isVar = true → S + min inc (d.hdr.maxSize - S) ≤ m.length) :
    ∃ m' q S' c' o', d.setContUnsafe m i inc v = some (m', q) ∧
      (∀ m2 o2, CRep d m2 S cs o2 → d.canSetContUnsafe m2 i inc v = some q) ∧
      m'.length = m.length ∧ CRep d m' S' (cs.set i c') o' ∧ S' ≤ S + inc ∧
      (∀ x, S ≤ x → S' ≤ x → m'[x]? = m[x]?) ∧ (q = false → S' = S ∧ c' = c) ∧
      ((posOf d cs.length i).ty.isVar = false → S' = S) ∧
      (q = true → ∃ y, EVal (posOf d cs.length i).ty c' y ∧ EDen (posOf d cs.length i).ty v y) ∧
      Shift cs i c o o' ∧ ∀ b, c' = .var b → o' i + b.length = S' := by
  have hlt : i < cs.length := (List.getElem?_eq_some_iff.mp hi).1
  have hlay := lay_of h hc r.countOk
  have hok := posOf_ok h hc r.countOk hlt
  obtain ⟨y, hy⟩ := hd
  have same : c.hlen = 0 → Shift cs i c o o := fun hz j b _ _ => by rw [hz, Nat.sub_zero, ite_self]
  have hcan : ∀ m2 o2 (q : Bool), CRep d m2 S cs o2 →
      (if v.isNull then some (posOf d cs.length i).ty.isNullable
        else if !(posOf d cs.length i).ty.isVar then some true
        else (sub32 d.hdr.maxSize S).bind fun x =>
          match eltPtr d (posOf d cs.length i) (o2 i) c with
          | none => (posOf d cs.length i).ty.canSetDatum (m2.drop S) false (min inc x) v
          | some o => (posOf d cs.length i).ty.canSetDatum (m2.drop o) true (min inc x) v) = some q →
      d.canSetContUnsafe m2 i inc v = some q := by
    intro m2 o2 q r2 hq
    unfold canSetContUnsafe canSetAt
    rw [posInfo_eq h hc r2 hlt]
    simp only [Option.bind_eq_bind, Option.bind_some]
    rw [getSize_eq h hc r2, ptrAt_eq h hc r2 hi]
    exact hq
  unfold setContUnsafe setAt
  rw [posInfo_eq h hc r hlt]
  simp only [Option.bind_eq_bind, Option.bind_some]
  cases hn : v.isNull with
  | true =>
    simp only [if_true]
    have hfx : (posOf d cs.length i).ty.isNullable = false → c.hlen = 0 ∧ ∀ b, c ≠ .var b := by
      intro hh
      have hv : (posOf d cs.length i).ty.isVar = false := by simp [isNullable] at hh; exact hh.1
      exact ⟨(fix_elt r hi hv).1, (fix_elt r hi hv).2⟩
    obtain ⟨m', e1, e2, e3, e4, e5⟩ := setNull_at h hc r hi
    cases hnb : (posOf d cs.length i).ty.isNullable with
    | false =>
      rw [hnb] at e1
      have := e4 hnb; subst this
      exact ⟨m', false, S, c, o, e1, fun m2 o2 r2 => hcan m2 o2 _ r2 (by simp [hn, hnb]), rfl, by rw [list_set_same hi]; exact r, by omega, fun _ _ _ => rfl,
        fun _ => ⟨rfl, rfl⟩, fun _ => rfl, by simp, same (hfx hnb).1, fun b hb => absurd hb ((hfx hnb).2 b)⟩
    | true =>
      rw [hnb] at e1
      obtain ⟨o', r', hsh⟩ := e5 hnb
      refine ⟨m', true, S - c.hlen, .null, o', e1, fun m2 o2 r2 => hcan m2 o2 _ r2 (by simp [hn, hnb]), e2, r', by omega, fun x hx _ => e3 x hx,
        by simp, ?_, fun _ => ⟨.null, rfl, by simp [EDen, hn]⟩, hsh, fun b hb => by cases hb⟩
      intro hv; rw [(fix_elt r hi hv).1]; rfl
  | false =>
    simp only [Bool.false_eq_true, if_false]
    cases hv : (posOf d cs.length i).ty.isVar with
    | false =>
      simp only [Bool.not_false, if_true]
      obtain ⟨m1, f1, f2, f3, f4, f5⟩ := mark_ok h hc r hlt
      rw [f1]
      have hfe := fixedEnd_le r
      have hbm := bitmap_le_fixedEnd h hc r.countOk
      have hle := r.le
      cases hb : (posOf d cs.length i).ty.isBit with
      | true =>
        simp only [if_true]
        simp only [EDen, hn, hb, Bool.false_eq_true, if_false, if_true] at hy
        obtain ⟨n, hn1, hn2⟩ := hy
        have hbf := hlay.bf i hlt hb
        have h64 : (posOf d cs.length i).ty.hdr.size ≤ 64 := hok.bit_le hb
        have hin : d.offBitmap + bitmapBytes ((posOf d cs.length i).off + (posOf d cs.length i).ty.hdr.size) ≤ m1.length := by
          have : bitmapBytes ((posOf d cs.length i).off + (posOf d cs.length i).ty.hdr.size) ≤
            bitmapBytes (bitsOf d cs.length) := by unfold bitmapBytes; omega
          omega
        simp only [hn1, Option.bind_some, setBits, h64, if_true]
        rw [setBitsN_eq _ _ _ _ hin]
        refine ⟨_, true, S, .bits (n % 2 ^ (posOf d cs.length i).ty.hdr.size), o, rfl,
          fun m2 o2 r2 => hcan m2 o2 _ r2 (by simp [hn, hv]), by simp [f2],
          ?_, by omega, ?_, by simp, fun _ => rfl, fun _ => ⟨_, rfl, ?_⟩, same (fix_elt r hi hv).1, fun b hb => by cases hb⟩
        · refine r.updFixed h hc hi (fix_elt r hi hv).1 rfl (by intro b hb; cases hb) (by simp [f2]) ?_ ?_ ?_
          · intro k hk hm
            rw [bit_withBits _ _ _ _ _ hin, if_neg, f3]
            · intro hh; exact hm (Or.inl hh)
            · intro hh; exact hm (Or.inr ⟨hb, hh⟩)
          · intro x hx _
            rw [withBits_get hbf hx, f5 x hx]
          · refine ⟨hb, ?_, bitsVal_withBits _ _ _ _ hin⟩
            intro hnv
            have := hlay.own i hlt hb hnv
            rw [bit_withBits _ _ _ _ _ hin, if_neg (by omega)]
            exact f4 hnv
        · intro x hx _
          rw [withBits_get hbf (Or.inr (by omega)), f5 x (Or.inr (by omega))]
        · simp only [EDen, hn, hb, Bool.false_eq_true, if_false, if_true]
          exact ⟨n, hn1, rfl⟩
      | false =>
        simp only [Bool.false_eq_true, if_false]
        simp only [EDen, hn, hb, Bool.false_eq_true, if_false] at hy
        have hfx := hlay.fx i hlt hb
        simp only [slot, hv, Bool.false_eq_true, if_false] at hfx
        have hptr : d.ptrAt m1 (posOf d cs.length i) = some (some (posOf d cs.length i).off) := by
          unfold ptrAt
          cases hnv : (posOf d cs.length i).ty.needsValid with
          | false => simp [hb, hv]
          | true =>
            simp only [if_true]
            rw [getBit_eq (by rw [f2]; exact bit_ok h hc r (hlay.vb i hlt hnv)), f4 hnv]
            simp [hb, hv]
        rw [hptr]
        simp only [Option.bind_some, atOff]
        have hdl : (m1.drop (posOf d cs.length i).off).length = m.length - (posOf d cs.length i).off := by simp [f2]
        obtain ⟨c', q, s1, s2, s3, s4, s5, s6⟩ := setDatum_ok (t := (posOf d cs.length i).ty)
          (c := m1.drop (posOf d cs.length i).off) (valid := true) (inc := inc) (old := 0) (v := v) hok hb hn ⟨y, hy⟩
          (by rw [hv]; intro hh; cases hh) (by rw [hv]; intro hh; cases hh) (fun _ => by rw [hdl]; omega)
        have := s5 hv; subst this
        obtain ⟨b, ⟨⟨y', w1, w2⟩, w3, w4⟩, _⟩ := s6 rfl
        have hbl := (enc_size hok w1).2.2.2.2.2 hv
        rw [s1]
        have hget : ∀ x, (m1.take (posOf d cs.length i).off ++ c')[x]? =
            if x < (posOf d cs.length i).off then m1[x]? else c'[x - (posOf d cs.length i).off]? :=
          fun x => atOff_get (by rw [f2]; omega)
        have hout : ∀ x, x < (posOf d cs.length i).off ∨
            (posOf d cs.length i).off + (posOf d cs.length i).ty.hdr.size ≤ x →
            (m1.take (posOf d cs.length i).off ++ c')[x]? = m1[x]? := by
          intro x hx
          rw [hget]
          split
          · rfl
          · rw [w4 _ (by omega), List.getElem?_drop]; congr 1; omega
        have hlen : (m1.take (posOf d cs.length i).off ++ c').length = m.length := by
          simp only [List.length_append, List.length_take, s3, hdl, f2]; omega
        refine ⟨_, true, S, .fixd b, o, rfl, fun m2 o2 r2 => hcan m2 o2 _ r2 (by simp [hn, hv]), hlen, ?_, by omega, ?_, by simp, fun _ => rfl,
          fun _ => ⟨y', w1, ?_⟩, same (fix_elt r hi hv).1, fun b hb => by cases hb⟩
        · have hbits : ∀ k, k < bitsOf d cs.length →
              bit (m1.take (posOf d cs.length i).off ++ c') d.offBitmap k = bit m1 d.offBitmap k := by
            intro k hk
            apply bit_congr
            apply hout
            unfold bitmapBytes at hfx
            omega
          refine r.updFixed h hc hi (fix_elt r hi hv).1 rfl (by intro b hb; cases hb) hlen ?_ ?_ ?_
          · intro k hk hm
            rw [hbits k hk, f3]
            intro hh; exact hm (Or.inl hh)
          · intro x hx hnot
            simp only [slot, hv, hb, Bool.false_eq_true, if_false, true_and] at hnot
            rw [hout _ (by omega), f5 x hx]
          · refine ⟨hb, hv, ?_, ?_⟩
            · intro hnv; rw [hbits _ (hlay.vb i hlt hnv)]; exact f4 hnv
            · rw [← hbl, ← w3]
              apply List.ext_getElem?
              intro j
              rw [rd_getElem?, rd_getElem?, w3]
              split
              · rw [hget, if_neg (by omega)]; congr 1; omega
              · rfl
        · intro x hx _
          rw [hout x (Or.inr (by omega)), f5 x (Or.inr (by omega))]
        · simp only [EDen, hn, hb, Bool.false_eq_true, if_false]; exact w2
    | true =>
      simp only [Bool.not_true, Bool.false_eq_true, if_false]
      have hb := isVar_not_bit hok hv
      simp only [EDen, hn, hb, Bool.false_eq_true, if_false] at hy
      have hroom := hroom hv
      have hvs := var_hasSize h hc r.countOk hlt hv
      obtain ⟨m1, _, o1, e1, r1, e2, e3, e4, e5⟩ := moveEnd_any h hc r hi
      have hmxS := r.mx hvs.2
      have hpow : d.hdr.maxSize ≤ 256 ^ d.w :=
        le_pow_vsz (by have := (h.maxSize hvs.2).2; unfold lim at this; omega)
      have hlim := (h.maxSize hvs.2).2
      unfold lim at hlim
      rw [e1]
      simp only [Option.bind_some]
      rw [getSize_eq h hc r1]
      simp only [Option.bind_some]
      rw [sub32_eq hmxS, ptrAt_eq h hc r1 hi]
      simp only [Option.bind_some]
      have hsi := slot_ok h hc r1 hlt hb
      simp only [slot, hv, if_true] at hsi
      have hob : d.w ≤ d.offBitmap := by simp [offBitmap, offCountP, hvs.1]
      have hww : vsz d.hdr.maxSize = d.w := rfl
      have hfp := fixedEnd_pos h hc r.countOk hlt hv
      -- the common part: `T` is where the element will be
      have main : ∀ (T : Nat) (valid : Bool), T + c.hlen = S → fixedEnd d cs.length ≤ T →
          (∀ b, c = .var b → o1 i = T) →
          (posOf d cs.length i).ty.oldSize (m1.drop T) valid = some c.hlen →
          (valid = true → d.word m1 (posOf d cs.length i).off = T) →
          ∃ m' q S' c' o',
            ((atOff m1 T fun c => (posOf d cs.length i).ty.setDatum c valid (min inc (d.hdr.maxSize - S)) v).bind
              fun x => if (x.2 && !valid) = true then
                (storeVal x.1 d.hdr.maxSize (posOf d cs.length i).off S).bind fun m =>
                  if (x.2 && d.hasSizeP) = true then ((posOf d cs.length i).ty.getSize (m.drop T)).bind fun ns =>
                    (sub32 S c.hlen).bind fun t => (u32 (t + ns)).bind fun t =>
                    (storeVal m d.hdr.maxSize 0 t).bind fun m => some (m, x.2)
                  else some (m, x.2)
                else
                  if (x.2 && d.hasSizeP) = true then ((posOf d cs.length i).ty.getSize (x.1.drop T)).bind fun ns =>
                    (sub32 S c.hlen).bind fun t => (u32 (t + ns)).bind fun t =>
                    (storeVal x.1 d.hdr.maxSize 0 t).bind fun m => some (m, x.2)
                  else some (x.1, x.2)) = some (m', q) ∧
            (∀ mem, (posOf d cs.length i).ty.oldSize mem valid = some c.hlen →
              (posOf d cs.length i).ty.canSetDatum mem valid (min inc (d.hdr.maxSize - S)) v = some q) ∧
            m'.length = m.length ∧ CRep d m' S' (cs.set i c') o' ∧ S' ≤ S + inc ∧
            (∀ x, S ≤ x → S' ≤ x → m'[x]? = m[x]?) ∧ (q = false → S' = S ∧ c' = c) ∧
            (true = false → S' = S) ∧
            (q = true → ∃ y, EVal (posOf d cs.length i).ty c' y ∧ EDen (posOf d cs.length i).ty v y) ∧
            Shift cs i c o o' ∧ ∀ b, c' = .var b → o' i + b.length = S' := by
        intro T valid hT hfT hend hold hval
        have hdl : (m1.drop T).length = m.length - T := by simp [e3]
        obtain ⟨c', q, s1, s2, s3, s4, s5, s6⟩ := setDatum_ok (t := (posOf d cs.length i).ty)
          (c := m1.drop T) (valid := valid) (inc := min inc (d.hdr.maxSize - S)) (old := c.hlen) (v := v) hok hb hn
          ⟨y, hy⟩ (fun _ => hold) (fun _ => by rw [hdl]; omega) (by rw [hv]; intro hh; cases hh)
        have hcs : ∀ mem, (posOf d cs.length i).ty.oldSize mem valid = some c.hlen →
            (posOf d cs.length i).ty.canSetDatum mem valid (min inc (d.hdr.maxSize - S)) v = some q := by
          intro mem hm
          rw [canSetDatum_congr (m' := mem) (m := m1.drop T) (fun _ => by rw [hold, hm]), s2]
        simp only [atOff, s1, Option.bind_eq_bind, Option.bind_some, Option.pure_def]
        have hget : ∀ x, (m1.take T ++ c')[x]? = if x < T then m1[x]? else c'[x - T]? :=
          fun x => atOff_get (by rw [e3]; omega)
        have hlen2 : (m1.take T ++ c').length = m.length := by
          simp only [List.length_append, List.length_take, s3, hdl, e3]; omega
        cases q with
        | false =>
          simp only [Bool.false_and, Bool.false_eq_true, if_false]
          refine ⟨_, false, S, c, o1, rfl, hcs, hlen2, ?_, by omega, ?_, fun _ => ⟨rfl, rfl⟩, by simp, by simp, e5, e2⟩
          · rw [s4 rfl, List.take_append_drop, list_set_same hi]; exact r1
          · intro x hx _; rw [s4 rfl, List.take_append_drop]; exact e4 x hx
        | true =>
          obtain ⟨b, ⟨⟨y', w1, w2⟩, w3, w4⟩, w5⟩ := s6 rfl
          have w5 := w5 hv
          obtain ⟨z1, z2, z3, _, z4, _⟩ := enc_size hok w1
          simp only [Bool.true_and, hvs.1, if_true]
          -- memory with the offset written
          generalize hm2 : m1.take T ++ c' = m2 at hget hlen2 ⊢
          have hm3 : ∃ m3, (∀ {β : Type} (k : Bytes → Option β), (if (!valid) = true then
                (storeVal m2 d.hdr.maxSize (posOf d cs.length i).off S).bind k else k m2) = k m3) ∧
              m3.length = m.length ∧ d.word m3 (posOf d cs.length i).off = T ∧
              (∀ x, ¬ ((posOf d cs.length i).off ≤ x ∧ x < (posOf d cs.length i).off + d.w) →
                m3[x]? = m2[x]?) := by
            cases valid with
            | true =>
              refine ⟨m2, by simp, hlen2, ?_, fun _ _ => rfl⟩
              rw [← hval rfl]
              unfold word
              congr 1
              apply rd_ext
              intro x hx
              rw [hget, if_pos (by omega)]
            | false =>
              have hT' : S = T := by
                simp [oldSize] at hold; omega
              refine ⟨wr m2 (posOf d cs.length i).off (leEnc d.w S), ?_, by simp [hlen2], ?_, ?_⟩
              · intro β k
                simp only [Bool.not_false, if_true, storeVal, hww]
                rw [store_eq (by simp; omega)]; rfl
              · rw [word_wr_same (by omega) (by omega), hT']
              · intro x hx
                rw [wr_getElem?, if_neg (by simp; omega)]
          obtain ⟨m3, g1, g2, g3, g4⟩ := hm3
          rw [g1 (fun m => ((posOf d cs.length i).ty.getSize (m.drop T)).bind fun ns =>
                    (sub32 S c.hlen).bind fun t => (u32 (t + ns)).bind fun t =>
                    (storeVal m d.hdr.maxSize 0 t).bind fun m => some (m, true))]
          have hrd3 : rd m3 T b.length = b := by
            rw [← w3]
            apply List.ext_getElem?
            intro j
            rw [rd_getElem?, rd_getElem?, w3]
            split
            · rw [g4 _ (by omega), hget, if_neg (by omega)]; congr 1; omega
            · rfl
          rw [getSize_at z1 hrd3]
          have hST : S - c.hlen = T := by omega
          simp only [Option.bind_some, sub32_eq (show c.hlen ≤ S by omega), hST]
          rw [u32_eq (by omega)]
          simp only [Option.bind_some, storeVal, hww]
          rw [store_eq (by simp; omega)]
          have hin : T + b.length ≤ m.length := by omega
          have hg3 : ∀ x, d.w ≤ x → (wr m3 0 (leEnc d.w (T + b.length)))[x]? = m3[x]? := by
            intro x hx; rw [wr_getElem?, if_neg (by simp; omega)]
          refine ⟨_, true, T + b.length, .var b, fun j => if j = i then T else o1 j, rfl, hcs, by simp [g2], ?_,
            by omega, ?_, by simp, by simp, fun _ => ⟨y', w1, ?_⟩, fun j a hj ha => by simp only [if_neg hj]; exact e5 j a hj ha,
            fun b' hb' => by cases hb'; simp only [if_true]⟩
          · refine r1.updEnd h hc (c := c) (T := T) hi hv hT hend (by simp [Elt.hlen]) (by omega)
              (by simp [g2, e3]) (by omega) ?_ ?_ ?_
            · exact size_word (by omega)
            · intro x hx1 hx2 hx3
              rw [hg3 x hx2, g4 x hx3, hget, if_pos hx1]
            · refine ⟨hv, ?_, hfT, by omega, ?_, z2, z1⟩
              · have : d.word (wr m3 0 (leEnc d.w (T + b.length))) (posOf d cs.length i).off =
                    d.word m3 (posOf d cs.length i).off := by
                  unfold word; congr 1; apply rd_ext; intro x hx; exact hg3 _ (by omega)
                rw [this]; exact g3
              · conv => rhs; rw [← hrd3]
                apply rd_ext; intro x hx; exact hg3 _ (by omega)
          · intro x hx1 hx2
            rw [hg3 x (by omega), g4 x (by omega), hget, if_neg (by omega), w4 _ (by omega), List.getElem?_drop,
              show T + (x - T) = x by omega]
            exact e4 x hx1
          · simp only [EDen, hn, hb, Bool.false_eq_true, if_false]; exact w2
      rcases var_elt h hc r hi hv with hcn | ⟨b, hcb⟩
      · subst hcn
        simp only [eltPtr]
        obtain ⟨m', q, S', c', o', k1, k2, k3⟩ := main S false (by simp [Elt.hlen]) (by omega)
          (by intro b hb; cases hb) rfl (by intro hh; cases hh)
        refine ⟨m', q, S', c', o', k1, ?_, k3⟩
        intro m2 o2 r2
        refine hcan m2 o2 q r2 ?_
        simp only [hn, hv, Bool.false_eq_true, if_false, Bool.not_true, sub32_eq hmxS, Option.bind_some, eltPtr]
        exact k2 _ rfl
      · subst hcb
        simp only [eltPtr]
        rw [elt_size r1 hi]
        have k := r1.elt i _ hi
        obtain ⟨m', q, S', c', o', k1, k2, k3⟩ := main (o1 i) true (e2 b rfl) k.2.2.1 (fun _ _ => rfl) (by
          simp only [oldSize, if_true]; exact elt_size r1 hi) (fun _ => k.2.1)
        refine ⟨m', q, S', c', o', k1, ?_, k3⟩
        intro m2 o2 r2
        refine hcan m2 o2 q r2 ?_
        simp only [hn, hv, Bool.false_eq_true, if_false, Bool.not_true, sub32_eq hmxS, Option.bind_some, eltPtr]
        exact k2 _ (by simp only [oldSize, if_true]; exact elt_size r2 hi)

theorem setContUnsafe_ok (h : TyOk d) (hc : d.isCont = true) (r : CRep d m S cs o) {i inc : Nat}
    {c : Elt} {v : Datum} (hi : cs[i]? = some c) (hd : ∃ y, EDen (posOf d cs.length i).ty v y)
    (hroom : (posOf d cs.length i).ty.isVar = true → S + min inc (d.hdr.maxSize - S) ≤ m.length) :
    ∃ m' q S' c' o', d.setContUnsafe m i inc v = some (m', q) ∧
      (∀ m2 o2, CRep d m2 S cs o2 → d.canSetContUnsafe m2 i inc v = some q) ∧
      m'.length = m.length ∧ CRep d m' S' (cs.set i c') o' ∧ S' ≤ S + inc ∧
      (∀ x, S ≤ x → S' ≤ x → m'[x]? = m[x]?) ∧ (q = false → S' = S ∧ c' = c) ∧
      ((posOf d cs.length i).ty.isVar = false → S' = S) ∧
      (q = true → ∃ y, EVal (posOf d cs.length i).ty c' y ∧ EDen (posOf d cs.length i).ty v y) := by
  obtain ⟨m', q, S', c', o', k1, k2, k3, k4, k5, k6, k7, k8, k9, _⟩ := setContUnsafe_at (inc := inc) h hc r hi hd hroom
  exact ⟨m', q, S', c', o', k1, k2, k3, k4, k5, k6, k7, k8, k9⟩

end
end Dti
end TS
