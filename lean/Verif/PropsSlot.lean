import Verif.Slot
import Verif.PropsMin
import Verif.PropsStale
/-
Property C77: the bytes that setting an element of a fixed size writes, and those of the old content that
it leaves.
-/
namespace TS
namespace Dti

/-- Reading a BINARY of a fixed size reads its slot. -/
theorem binary_read {d : Dti} {m : Bytes} {S : Nat} {val : Val} {pp : List Nat} {i A q : Nat} {h : Hdr} (hd : TyOk d)
    (hS : S ≤ m.length) (he : Enc d (m.take S) val) (hs : Slot d m pp i (.str true h) A q) (hv : h.isVar = false) :
    A + 8 * h.size ≤ 8 * S ∧ A = 8 * (A / 8) ∧ d.offBitmap ≤ A / 8 ∧
    (d.getElem m (pp ++ [i]) = some (some .null) ∧ h.nullable = true ∨
      d.getElem m (pp ++ [i]) = some (some (.bytes (rd m (A / 8) h.size)))) ∧
    (h.nullable = true → ¬ (A ≤ q ∧ q < A + 8 * h.size)) := by
  obtain ⟨a, n, u, cs, o, h1, h2, h3, h4, r, h5, h6, h7, h8, h9⟩ := slot_cont hd hS he hs
  have hlay := lay_of h2 h3 r.countOk
  have hb : (posOf u cs.length i).ty.isBit = false := by rw [← h6]; rfl
  have hvt : (posOf u cs.length i).ty.isVar = false := by rw [← h6]; exact hv
  have hfx := hlay.fx i h5 hb
  have hfe := fixedEnd_le r
  have hle := r.le
  simp only [slot, hvt, Bool.false_eq_true, if_false] at hfx
  rw [← h6] at hfx
  have hsz : (Dti.str true h).hdr.size = h.size := rfl
  have hnb : (Dti.str true h).hdr.nullable = h.nullable := rfl
  rw [hsz] at hfx
  simp only [slotAt, hb, Bool.false_eq_true, if_false] at h7
  have hdl : (m.drop a).length = m.length - a := by simp
  have hA : A / 8 = a + (posOf u cs.length i).off := by omega
  have hoff : d.offBitmap ≤ a + (posOf u cs.length i).off := by
    cases pp with
    | nil => obtain ⟨rfl, rfl, _⟩ := h1; omega
    | cons j pp =>
      obtain ⟨hc, cs2, o2, vs2, b, c, l, g1, r2, g2, g3, g4, g5, g6, g7, g8⟩ := spot_step hd hS he h1
      obtain ⟨k', y, a1, a2, a3, a4, a5, a6, a7, a8⟩ := kid_of hd hc r2 g2 g3 g4 g5
      omega
  refine ⟨by omega, by omega, by omega, ?_, fun hn hh => ?_⟩
  · rw [get_path pp h1]
    unfold getCont
    simp only [h3, Bool.not_true, Bool.false_eq_true, if_false, getCount_eq h2 h3 r, Option.bind_eq_bind, Option.bind_some,
      ge_iff_le, Nat.not_le.mpr h5, getContUnsafe, posInfo_eq h2 h3 r h5, getAt]
    rw [ptrAt_eq h2 h3 r (List.getElem?_eq_getElem h5)]
    have hel := r.elt i _ (List.getElem?_eq_getElem h5)
    generalize cs[i] = c at hel
    cases c with
    | null =>
      left
      refine ⟨rfl, ?_⟩
      rcases hel with hel | hel
      · have := hel.1; rw [← h6] at this; simp [needsValid] at this; exact this.2
      · rw [hvt] at hel; cases hel.1
    | bits v => rw [hel.1] at hb; cases hb
    | var b => have := hel.1; rw [hvt] at this; cases this
    | fixd b =>
      right
      simp only [eltPtr, Option.bind_some, ← h6]
      have hvc : h.varCount = false ∧ h.size = h.count := by
        cases (typeAt_ok _ hd h9).1 with
        | str b h a1 a2 a3 a4 => exact ⟨by rw [← a2, hv], (a3 hv).1⟩
      have hob : offBitmap (.str true h) = 0 := by
        simp [offBitmap, offCountP, hasSizeP, hasCountP, isVarCount, hv]
      have hcn : ∀ c, getCount (.str true h) c = some h.size := by
        intro c; simp [getCount, isCont, isVarCount, hdr, hv, hvc.2]
      simp only [isBit, Bool.false_eq_true, if_false, getDatum, hcn, Option.bind_eq_bind, Option.bind_some, hob]
      rw [load_eq (by simp; omega), List.drop_drop, rd_drop, hA]
      rfl
  · have := hlay.vb i h5 (by rw [← h6]; simp [needsValid, isVar, hdr, hv, hn])
    have : bitmapBytes (bitsOf u cs.length) * 8 ≥ bitsOf u cs.length := by unfold bitmapBytes; omega
    omega

/-- The slot of an element that is there. -/
theorem slot_of_count {d t : Dti} {m : Bytes} {S : Nat} {val : Val} {pp : List Nat} {i k : Nat} (h : TyOk d) (hS : S ≤ m.length)
    (he : Enc d (m.take S) val) (hk : d.elemCount m pp = some k) (hi : i < k) (ht : d.typeAt (pp ++ [i]) = some t)
    (hv : t.isVar = false) :
    ∃ A q, Slot d m pp i t A q ∧ A + slotBits t ≤ 8 * S ∧
      (t.hdr.nullable = true → q < 8 * S ∧ ¬ (A ≤ q ∧ q < A + slotBits t)) := by
  obtain ⟨a, n, u, g1, g2, g3⟩ := spot_of_count pp h hS he hk (by omega)
  obtain ⟨b1, b2, b3, b4, b5, y, b6⟩ := spot_in pp h hS he g1
  obtain ⟨cs, o, vs, hv', r, hvs⟩ := crep_of_enc b1 g2 (by simp; omega) b6
  have hk2 := getCount_eq b1 g2 r
  rw [g3] at hk2
  have hk2 : k = cs.length := by simpa using hk2
  subst hk2
  have hty := typeAt_append pp (i := i) b4 (tyAtNoData_pos b1 g2 r.countOk hi)
  rw [ht] at hty
  cases hty
  have hlay := lay_of b1 g2 r.countOk
  have hfe := fixedEnd_le r
  have hbm := bitmap_le_fixedEnd b1 g2 r.countOk
  have h8 : bitsOf u cs.length ≤ 8 * bitmapBytes (bitsOf u cs.length) := by unfold bitmapBytes; omega
  refine ⟨_, _, ⟨a, n, u, cs.length, _, g1, g2, g3, hi, posInfo_eq b1 g2 r hi, rfl, rfl, rfl⟩, ?_, fun hn => ?_⟩
  · cases hb : (posOf u cs.length i).ty.isBit with
    | true =>
      have := hlay.bf i hi hb
      simp only [slotAt, slotBits, hb, if_true]; omega
    | false =>
      have := (hlay.fx i hi hb).2
      simp only [slot, hv, Bool.false_eq_true, if_false] at this
      simp only [slotAt, slotBits, hb, Bool.false_eq_true, if_false]; omega
  · have hnv : (posOf u cs.length i).ty.needsValid = true := by simp [needsValid, hv, hn]
    have h1 := hlay.vb i hi hnv
    refine ⟨by omega, fun hh => ?_⟩
    cases hb : (posOf u cs.length i).ty.isBit with
    | true =>
      have := hlay.own i hi hb hnv
      simp only [slotAt, slotBits, hb, if_true] at hh; omega
    | false =>
      have := (hlay.fx i hi hb).1
      simp only [slotAt, slotBits, hb, Bool.false_eq_true, if_false] at hh; omega

/-- What is read is there. -/
theorem count_of_get (pp : List Nat) : ∀ {d : Dti} {m : Bytes} {i : Nat} {dt : Datum},
    d.getElem m (pp ++ [i]) = some (some dt) → dt ≠ .null → ∃ k, d.elemCount m pp = some k ∧ i < k := by
  induction pp with
  | nil =>
    intro d m i dt h hn
    simp only [List.nil_append, Dti.getElem, getCont] at h
    cases hc : d.isCont with
    | false => simp [hc] at h
    | true =>
      simp only [hc, Bool.not_true, Bool.false_eq_true, if_false] at h
      cases hk : d.getCount m with
      | none => rw [hk] at h; cases h
      | some k =>
        simp only [hk, Option.bind_eq_bind, Option.bind_some] at h
        refine ⟨k, hk, ?_⟩
        by_cases hi : i ≥ k
        · rw [if_pos hi] at h; cases h
        · omega
  | cons j pp ih =>
    intro d m i dt h hn
    cases hq : pp ++ [i] with
    | nil => simp at hq
    | cons y l =>
      rw [List.cons_append, hq] at h
      simp only [Dti.getElem] at h
      cases hc : d.isCont with
      | false => simp [hc] at h
      | true =>
        simp only [hc, Bool.not_true, Bool.false_eq_true, if_false] at h
        cases hk : d.getCount m with
        | none => rw [hk] at h; cases h
        | some k =>
          simp only [hk, Option.bind_eq_bind, Option.bind_some] at h
          by_cases hi : j ≥ k
          · rw [if_pos hi] at h; cases h
          · rw [if_neg hi] at h
            cases hp : d.posInfo m j with
            | none => rw [hp] at h; cases h
            | some p =>
              simp only [hp, Option.bind_some] at h
              cases hb : d.ptrAt m p with
              | none => rw [hb] at h; cases h
              | some b =>
                simp only [hb, Option.bind_some] at h
                cases b with
                | none => simp at h; exact absurd h.symm hn
                | some b =>
                  simp only at h
                  rw [← hq] at h
                  obtain ⟨k', g1, g2⟩ := ih h hn
                  refine ⟨k', ?_, g2⟩
                  simp only [elemCount, hc, hk, hp, hb, Bool.not_true, Bool.false_eq_true, if_false, hi, Option.bind_eq_bind,
                    Option.bind_some]
                  exact g1

theorem rd_over (c b : Bytes) (k : Nat) (hb : b.length ≤ k) (hk : k ≤ c.length) :
    rd (wr c 0 b) 0 k = b ++ (rd c 0 k).drop b.length := by
  apply List.ext_getElem?
  intro x
  rw [rd_getElem?]
  by_cases hx : x < k
  · rw [if_pos hx, wr_getElem?]
    by_cases hxb : x < b.length
    · rw [if_pos (by omega), List.getElem?_append_left hxb]; congr 1; omega
    · rw [if_neg (by omega), List.getElem?_append_right (by omega), List.getElem?_drop, rd_getElem?, if_pos (by omega)]
      congr 1; omega
  · rw [if_neg hx, List.getElem?_append_right (by omega), List.getElem?_drop, rd_getElem?, if_neg (by omega)]

theorem spot_append (pp : List Nat) : ∀ {pb : List Nat} {d u t : Dti} {m : Bytes} {a n b k : Nat}, Spot d m pp a n u →
    Spot u (m.drop a) pb b k t → Spot d m (pp ++ pb) (a + b) k t := by
  induction pp with
  | nil => rintro pb d u t m a n b k ⟨rfl, rfl, _⟩ h; simpa using h
  | cons j pp ih =>
    rintro pb d u t m a n b k ⟨hc, k', p, o, c, h1, h2, h3, h4, h5, rfl, h7⟩ h
    rw [← List.drop_drop] at h
    exact ⟨hc, k', p, o, c + b, h1, h2, h3, h4, h5, by omega, ih h7 h⟩

/-- An element that has a slot and is not NULL is in it. -/
theorem slot_spot {d t : Dti} {m : Bytes} {S : Nat} {val : Val} {pp : List Nat} {i A q : Nat} {dt : Datum} (h : TyOk d) (hS : S ≤ m.length)
    (he : Enc d (m.take S) val) (hs : Slot d m pp i t A q) (hb : t.isBit = false) (hv : t.isVar = false)
    (hg : d.getElem m (pp ++ [i]) = some (some dt)) (hn : dt ≠ .null) : Spot d m (pp ++ [i]) (A / 8) t.hdr.size t := by
  obtain ⟨a, n, u, cs, o, h1, h2, h3, h4, r, h5, h6, h7, h8, h9⟩ := slot_cont h hS he hs
  obtain ⟨g1, g2, g3, g4, g5, y, g6⟩ := spot_in pp h hS he h1
  obtain ⟨cs', o', vs, _, r', hvs⟩ := crep_of_enc g1 h3 (by simp; omega) g6
  have hcl : cs'.length = cs.length := by
    have e1 := getCount_eq h2 h3 r
    have e2 := getCount_eq h2 h3 r'
    rw [e1] at e2; simpa using e2.symm
  rw [get_path pp h1] at hg
  subst h6
  have hA : A / 8 = a + (posOf u cs.length i).off := by rw [h7]; simp only [slotAt, hb, Bool.false_eq_true, if_false]; omega
  have hp : u.ptrAt (m.drop a) (posOf u cs.length i) = some (some (posOf u cs.length i).off) := by
    unfold getCont at hg
    simp only [h3, Bool.not_true, Bool.false_eq_true, if_false, getCount_eq h2 h3 r, Option.bind_eq_bind, Option.bind_some,
      ge_iff_le, Nat.not_le.mpr h5, getContUnsafe, posInfo_eq h2 h3 r h5, getAt] at hg
    rw [ptrAt_eq h2 h3 r (List.getElem?_eq_getElem h5)] at hg ⊢
    have hel := r.elt i _ (List.getElem?_eq_getElem h5)
    generalize cs[i] = c at hel hg
    cases c with
    | null => simp [eltPtr] at hg; exact absurd hg.symm hn
    | bits v => rw [hel.1] at hb; cases hb
    | var b => have := hel.1; rw [hv] at this; cases this
    | fixd b => rfl
  obtain ⟨k, y, a1, a2, a3, a4, a5, a6, a7, a8⟩ := kid_of h2 h3 r' hvs (by rw [hcl]; exact h5) (by rw [hcl]; exact hb) (by rw [hcl]; exact hp)
  rw [hcl] at a1 a8
  rcases a8 with ⟨_, _, _, c4, _⟩ | ⟨c1, _⟩
  · rw [hA]
    refine spot_append pp h1 ⟨h3, cs.length, _, _, 0, getCount_eq h2 h3 r, h5, posInfo_eq h2 h3 r h5, hb, hp, rfl, rfl, rfl, ?_⟩
    rw [← c4]; exact a1
  · rw [hv] at c1; cases c1

end Dti

namespace Props
open Dti

/-- The element at `pa` of a tuple of size `S` is set to the data `l`, one after the other. -/
inductive Sets (d : Dti) (S : Nat) (pa : List Nat) : Bytes → List Datum → Bytes → Prop
  | nil (m : Bytes) : Sets d S pa m [] m
  | cons {m m1 m2 : Bytes} {v : Datum} {l : List Datum} {inc : Nat} {r : Bool} (ha : SetArgs d m S pa v inc)
      (h : d.setElem m pa v inc = some (m1, r)) (hr : Sets d S pa m1 l m2) : Sets d S pa m (v :: l) m2

/-- What a datum leaves of the `k` bytes `x` of a BINARY of fixed size: what is behind its own bytes. -/
def over (k : Nat) (x : Bytes) (v : Datum) : Bytes :=
  match v.asBytes with
  | some b => b.take k ++ x.drop b.length
  | none => x

theorem sets_slot {d t : Dti} {S : Nat} {pp : List Nat} {i A q : Nat} {m m' : Bytes} {l : List Datum} (hv : t.isVar = false)
    (h : Sets d S (pp ++ [i]) m l m') (hs : Slot d m pp i t A q) :
    Slot d m' pp i t A q ∧ Ag (fun j => ¬ (t.hdr.nullable = true ∧ j = q) ∧
      ((∀ v ∈ l, v.isNull = true) ∨ ¬ (A ≤ j ∧ j < A + slotBits t))) m m' := by
  induction h with
  | nil m => exact ⟨hs, rfl, fun _ _ => rfl⟩
  | cons ha h hr ih =>
    obtain ⟨f1, f2, f3, f4⟩ := slot_set ha hs hv h
    obtain ⟨g1, g2⟩ := ih f4
    refine ⟨g1, f1.1.trans g2.1, fun j hj => ?_⟩
    rw [f1.2 j ⟨hj.1, hj.2.imp (fun hh => hh _ (by simp)) id⟩]
    exact g2.2 j ⟨hj.1, hj.2.imp (fun hh w hw => hh w (by simp [hw])) id⟩

/-- C77. An element of a fixed size has a place of its own in the tuple: setting it, to whatever and as often
as you like, changes no bit of the memory but those of its place and its is-valid bit, and setting it to NULL
changes its is-valid bit alone. -/
theorem C77_footprint {d t : Dti} {m : Bytes} {S : Nat} {pp : List Nat} {i k : Nat} (hu : Usable d) (hm : IsTuple d m S)
    (hk : d.elemCount m pp = some k) (hi : i < k) (ht : d.typeAt (pp ++ [i]) = some t) (hv : t.isVar = false) :
    ∃ A q, A + slotBits t ≤ 8 * S ∧ (t.hdr.nullable = true → q < 8 * S ∧ ¬ (A ≤ q ∧ q < A + slotBits t)) ∧
      ∀ l m', Sets d S (pp ++ [i]) m l m' → m'.length = m.length ∧
        ∀ j, ¬ (t.hdr.nullable = true ∧ j = q) → (∀ v ∈ l, v.isNull = true) ∨ ¬ (A ≤ j ∧ j < A + slotBits t) →
          bit m' 0 j = bit m 0 j := by
  obtain ⟨hS, val, he⟩ := hm
  obtain ⟨A, q, h1, h2, h3⟩ := slot_of_count hu.ok hS he hk hi ht hv
  refine ⟨A, q, h2, h3, fun l m' hs => ?_⟩
  obtain ⟨_, g⟩ := sets_slot hv hs h1
  exact ⟨g.1.symm, fun j h1 h2 => (g.2 j ⟨h1, h2⟩).symm⟩

theorem binary_step {d : Dti} {S : Nat} {pp : List Nat} {i A q inc : Nat} {m m' : Bytes} {h : Hdr} {v : Datum} {r : Bool}
    (ha : SetArgs d m S (pp ++ [i]) v inc) (hset : d.setElem m (pp ++ [i]) v inc = some (m', r))
    (hs : Slot d m pp i (.str true h) A q) (hv : h.isVar = false) :
    rd m' (A / 8) h.size = over h.size (rd m (A / 8) h.size) v := by
  obtain ⟨hS, val, he⟩ := ha.tuple
  obtain ⟨b1, b2, _, _, b4⟩ := binary_read ha.usable.ok hS he hs hv
  obtain ⟨f1, f2, f3, f4⟩ := slot_set ha hs hv hset
  cases hn : v.isNull with
  | true =>
    have hov : over h.size (rd m (A / 8) h.size) v = rd m (A / 8) h.size := by
      cases v <;> first | rfl | cases hn
    rw [hov]
    refine (f1.rd fun j hj => ⟨fun hh => b4 hh.1 ?_, Or.inl hn⟩).symm
    have h1 := hj.1
    have h2 := hj.2
    rw [← hh.2]
    exact ⟨by omega, by omega⟩
  | false =>
    obtain ⟨inc', hd⟩ := (f2 hn).2 rfl
    unfold setDatum at hd
    simp only [hn, isBit, isVar, hdr, hv, Bool.false_eq_true, if_false, Bool.not_false, if_true] at hd
    cases hb : v.asBytes with
    | none => rw [hb] at hd; cases hd
    | some b =>
      simp only [hb, Option.bind_eq_bind, Option.bind_some] at hd
      have hl : (b.take h.size).length ≤ (m.drop (A / 8)).length := by simp; omega
      rw [store_eq (by omega)] at hd
      simp only [Option.bind_some, Option.pure_def, Option.some.injEq, Prod.mk.injEq, and_true] at hd
      have e1 := rd_drop m' (A / 8) 0 h.size
      have e2 := rd_drop m (A / 8) 0 h.size
      rw [Nat.add_zero] at e1 e2
      rw [← e1, ← e2, ← hd, rd_over _ _ _ (by simp; omega) (by simp; omega)]
      simp only [over, hb]
      congr 1
      by_cases hbl : b.length ≤ h.size
      · rw [List.take_of_length_le hbl]
      · rw [List.drop_of_length_le, List.drop_of_length_le]
        · simp only [rd, List.length_take]; omega
        · simp only [rd, List.length_take]; omega

/-- What is read of a BINARY of fixed size after it was set. -/
theorem sets_read {d : Dti} {S : Nat} {pp : List Nat} {i A q : Nat} {m m' : Bytes} {h : Hdr} {l : List Datum} {v : Datum}
    (hs : Sets d S (pp ++ [i]) m (l ++ [v]) m') (h1 : Slot d m pp i (.str true h) A q) (hv : h.isVar = false) (hn : v ≠ .null)
    (ht : d.typeAt (pp ++ [i]) = some (.str true h)) :
    d.getElem m' (pp ++ [i]) = some (some (.bytes ((l ++ [v]).foldl (over h.size) (rd m (A / 8) h.size)))) := by
  generalize hl : l ++ [v] = w at hs
  induction hs generalizing l with
  | nil m => simp at hl
  | cons ha hset hr ih =>
    rename_i m1 m2 m3 v1 l1 inc r
    have hst := binary_step ha hset h1 hv
    obtain ⟨f1, f2, f3, f4⟩ := slot_set ha h1 hv hset
    cases l with
    | nil =>
      simp only [List.nil_append, List.cons.injEq] at hl
      obtain ⟨rfl, rfl⟩ := hl
      cases hr
      have hnn : v.isNull = false := by cases v <;> first | rfl | exact absurd rfl hn
      have hr := (f2 hnn).1
      subst hr
      obtain ⟨dt, d1, d2⟩ := C34_set_then_get ha ht hset
      obtain ⟨hS2, val2, he2⟩ := f3
      rcases (binary_read ha.usable.ok hS2 he2 f4 hv).2.2.2.1 with hh | hh
      · rw [d1] at hh
        have := hh.1
        simp only [Option.some.injEq] at this
        subst this
        rcases d2 with ⟨e1, _⟩ | ⟨_, b, y, _, e2, _⟩
        · exact absurd e1 hn
        · cases e2
      · rw [hh, hst]; rfl
    | cons w l =>
      simp only [List.cons_append, List.cons.injEq] at hl
      obtain ⟨rfl, rfl⟩ := hl
      rw [ih f4 rfl, hst]; rfl

/-- C77. Of a BINARY of fixed size those bytes stay that are behind the bytes of the datum it is set to; also
those that it had before it was set to NULL, and all of them if it is set to EMPTY_DATUM: what is read in the
end is what the data leave of each other, one over the other. -/
theorem C77_overlay {d : Dti} {S : Nat} {pp : List Nat} {i : Nat} {m m' : Bytes} {h : Hdr} {l : List Datum} {v : Datum} {x : Bytes}
    (hu : Usable d) (hm : IsTuple d m S) (ht : d.typeAt (pp ++ [i]) = some (.str true h)) (hv : h.isVar = false)
    (hx : d.getElem m (pp ++ [i]) = some (some (.bytes x))) (hs : Sets d S (pp ++ [i]) m (l ++ [v]) m') (hn : v ≠ .null) :
    x.length = h.size ∧ d.getElem m' (pp ++ [i]) = some (some (.bytes ((l ++ [v]).foldl (over h.size) x))) := by
  obtain ⟨hS, val, he⟩ := hm
  obtain ⟨k, hk, hi⟩ := count_of_get pp hx (by intro hh; cases hh)
  obtain ⟨A, q, h1, _⟩ := slot_of_count hu.ok hS he hk hi ht hv
  have hrd := (binary_read hu.ok hS he h1 hv)
  have hxl : x = rd m (A / 8) h.size := by
    rcases hrd.2.2.2.1 with hh | hh
    · rw [hx] at hh; cases hh.1
    · rw [hx] at hh; simpa using hh
  subst hxl
  exact ⟨rd_length _ _ _ (by omega), sets_read hs h1 hv hn ht⟩

/-- C77. Setting a BINARY of fixed size to NULL does not erase it: set to a shorter one afterwards it shows what
it was before. -/
theorem C77_null_keeps {d : Dti} {S inc inc' : Nat} {pp : List Nat} {i : Nat} {m m1 m2 : Bytes} {h : Hdr} {b x : Bytes} {r' : Bool}
    (ht : d.typeAt (pp ++ [i]) = some (.str true h)) (hv : h.isVar = false)
    (hx : d.getElem m (pp ++ [i]) = some (some (.bytes x))) (ha : SetArgs d m S (pp ++ [i]) .null inc)
    (h1 : d.setElem m (pp ++ [i]) .null inc = some (m1, true)) (hb : b.length ≤ h.size)
    (h2 : d.setElem m1 (pp ++ [i]) (.bytes b) inc' = some (m2, r')) (hr : d.isVar = true → min (S + inc') d.hdr.maxSize ≤ m.length) :
    d.getElem m1 (pp ++ [i]) = some (some .null) ∧
    d.getElem m2 (pp ++ [i]) = some (some (.bytes (b ++ x.drop b.length))) := by
  obtain ⟨hS, val, he⟩ := ha.tuple
  obtain ⟨k, hk, hi⟩ := count_of_get pp hx (by intro hh; cases hh)
  obtain ⟨A, q, hsl, _⟩ := slot_of_count ha.usable.ok hS he hk hi ht hv
  obtain ⟨f1, f2, f3, f4⟩ := slot_set ha hsl hv h1
  have hlim : h.size < lim := by
    have := (typeAt_ok _ ha.usable.ok ht).1.size_lt
    exact this
  have ha2 : SetArgs d m1 S (pp ++ [i]) (.bytes b) inc' :=
    ⟨ha.usable, f3, fun t ht' => by
      rw [ht] at ht'; cases ht'
      exact Or.inr (Or.inr ⟨b, rfl, by omega⟩), fun hh => by rw [← f1.1]; exact hr hh⟩
  have := (C77_overlay (l := [.null]) ha.usable ha.tuple ht hv hx (.cons ha h1 (.cons ha2 h2 (.nil _))) (by intro hh; cases hh)).2
  refine ⟨?_, ?_⟩
  · obtain ⟨dt, d1, ⟨_, d2⟩ | ⟨d2, _⟩⟩ := C34_set_then_get ha ht h1
    · rw [d1, d2]
    · exact absurd rfl d2
  · rw [this]
    simp only [List.singleton_append, List.foldl_cons, List.foldl_nil, over, Datum.asBytes, List.take_of_length_le hb]

/-- C77. In a tuple that was initialized, or is minimal for another reason, a BINARY of fixed size that is set for
the first time is filled up with zeros. -/
theorem C77_fresh {d : Dti} {S : Nat} {pp : List Nat} {i k inc : Nat} {m m' : Bytes} {h : Hdr} {b : Bytes} {r : Bool}
    (hc : d.isCont = true) (hmin : d.isMin m = some true) (hk : d.elemCount m pp = some k) (hi : i < k)
    (ht : d.typeAt (pp ++ [i]) = some (.str true h)) (hv : h.isVar = false)
    (ha : SetArgs d m S (pp ++ [i]) (.bytes b) inc) (hset : d.setElem m (pp ++ [i]) (.bytes b) inc = some (m', r)) :
    d.getElem m' (pp ++ [i]) = some (some (.bytes (b.take h.size ++ List.replicate (h.size - b.length) 0))) := by
  obtain ⟨hS, val, he⟩ := ha.tuple
  obtain ⟨A, q, hsl, _⟩ := slot_of_count ha.usable.ok hS he hk hi ht hv
  obtain ⟨b1, b2, b3, _⟩ := binary_read ha.usable.ok hS he hsl hv
  obtain ⟨q', g1, g2, _⟩ := C41_isMin ha.usable hc ha.tuple
  rw [hmin] at g1
  cases g1
  have hz := (g2.mp rfl).2
  have hob : d.offCountP ≤ d.offBitmap := by simp [offBitmap]
  have hrd : rd m (A / 8) h.size = List.replicate h.size 0 := by
    apply List.ext_getElem?
    intro x
    rw [rd_getElem?, List.getElem?_replicate]
    split
    · exact hz _ (by omega) (by omega)
    · rfl
  have := sets_read (l := []) (.cons ha hset (.nil _)) hsl hv (by intro hh; cases hh) ht
  rw [this, hrd]
  simp [over, Datum.asBytes]

theorem rd_split (m : Bytes) (o k n : Nat) (h : k ≤ n) : rd m o n = rd m o k ++ rd m (o + k) (n - k) := by
  unfold rd
  rw [← List.drop_drop, show n = k + (n - k) by omega, List.take_add]
  simp

theorem setDatum_same {t : Dti} {c c' e e' : Bytes} {inc inc' : Nat} {v : Datum} (hb : t.isBit = false) (hv : t.isVar = false)
    (hx : ∀ h, t ≠ .str true h) (h1 : t.setDatum c true inc v = some (c', true)) (h2 : t.setDatum e true inc' v = some (e', true)) :
    rd c' 0 t.hdr.size = rd e' 0 t.hdr.size := by
  have hst : ∀ {c e c' e' s : Bytes} {n : Nat}, s.length = n → store c 0 s = some c' → store e 0 s = some e' → rd c' 0 n = rd e' 0 n := by
    intro c e c' e' s n hs h1 h2
    unfold store at h1 h2
    split at h1
    · split at h2
      · cases h1; cases h2
        rw [← hs, rd_wr_same _ _ _ ‹_›, rd_wr_same _ _ _ ‹_›]
      · cases h2
    · cases h1
  have hbind : ∀ {x : Option Bytes} {y : Bytes}, (x.bind fun z => some (z, true)) = some (y, true) → x = some y := by
    intro x y h; cases x with
    | none => cases h
    | some z => simpa using h
  cases hn : v.isNull with
  | true => simp [setDatum, hn] at h1
  | false =>
    have hcont : t.isCont = true → (∀ b h, t ≠ .str b h) → rd c' 0 t.hdr.size = rd e' 0 t.hdr.size := by
      intro hc hns
      have hmin : ∀ {c c' : Bytes}, ((t.initMin c).bind fun x => some (x.1, true)) = some (c', true) →
          store c 0 (List.replicate t.hdr.size 0) = some c' := by
        intro c c' h
        unfold initMin at h
        simp only [hb, hv, Bool.false_eq_true, if_false, Bool.not_false, if_true, Option.bind_eq_bind, Option.pure_def] at h
        unfold zeroIn at h
        cases hs : store c 0 (List.replicate t.hdr.size 0) with
        | none => rw [hs] at h; cases h
        | some z => rw [hs] at h; simpa using h
      have key : ∀ {c c' : Bytes} {inc : Nat}, t.setDatum c true inc v = some (c', true) →
          (∃ src x, v = .ptr src ∧ load src 0 t.hdr.size = some x ∧ store c 0 x = some c') ∨
          (v = .empty ∧ store c 0 (List.replicate t.hdr.size 0) = some c') := by
        intro c c' inc h
        unfold setDatum at h
        simp only [hn, hb, hv, Bool.false_eq_true, if_false, Bool.not_false, if_true] at h
        cases t with
        | prim => cases hc
        | str b h' => exact absurd rfl (hns b h')
        | tup hh fs =>
          cases v with
          | ptr src =>
            left
            simp only [Option.bind_eq_bind] at h
            cases hl : load src 0 (tup hh fs).hdr.size with
            | none => rw [hl] at h; cases h
            | some x => rw [hl] at h; exact ⟨src, x, rfl, hl, hbind h⟩
          | empty => exact Or.inr ⟨rfl, hmin h⟩
          | _ => cases h
        | arr hh c =>
          cases v with
          | ptr src =>
            left
            simp only [Option.bind_eq_bind] at h
            cases hl : load src 0 (arr hh c).hdr.size with
            | none => rw [hl] at h; cases h
            | some x => rw [hl] at h; exact ⟨src, x, rfl, hl, hbind h⟩
          | empty => exact Or.inr ⟨rfl, hmin h⟩
          | _ => cases h
      rcases key h1 with ⟨src, x, rfl, k1, k2⟩ | ⟨rfl, k2⟩
      · rcases key h2 with ⟨src', x', hh, k3, k4⟩ | ⟨hh, _⟩
        · cases hh
          rw [k1] at k3; cases k3
          refine hst ?_ k2 k4
          unfold load at k1
          split at k1
          · cases k1; exact rd_length _ _ _ ‹_›
          · cases k1
        · cases hh
      · rcases key h2 with ⟨src', x', hh, k3, k4⟩ | ⟨_, k4⟩
        · cases hh
        · exact hst (by simp) k2 k4
    cases t with
    | tup hh fs => exact hcont rfl (by intro b h hh; cases hh)
    | arr hh c => exact hcont rfl (by intro b h hh; cases hh)
    | prim k h =>
      unfold setDatum at h1 h2
      simp only [hn, hb, hv, Bool.false_eq_true, if_false, Bool.not_false, if_true] at h1 h2
      cases k with
      | bitField => cases hb
      | uint | largeUint =>
        cases hu : v.asUint with
        | none => rw [hu] at h1; cases h1
        | some n => rw [hu] at h1 h2; exact hst (leEnc_length _ _) (hbind h1) (hbind h2)
      | int | largeInt =>
        cases hu : v.asInt with
        | none => rw [hu] at h1; cases h1
        | some n => rw [hu] at h1 h2; exact hst (by unfold intEnc; exact leEnc_length _ _) (hbind h1) (hbind h2)
      | float =>
        simp only [Option.bind_eq_bind] at h1 h2
        cases hu : v.asFlt h.size with
        | none => rw [hu] at h1; cases h1
        | some n =>
          rw [hu] at h1 h2
          refine hst ?_ (hbind h1) (hbind h2)
          show n.length = h.size
          cases v with
          | flt b =>
            simp only [Datum.asFlt] at hu
            split at hu
            · cases hu; assumption
            · cases hu
          | empty => simp only [Datum.asFlt, Option.some.injEq] at hu; rw [← hu]; simp
          | _ => cases hu
    | str b h =>
      cases b with
      | true => exact absurd rfl (hx h)
      | false =>
        have key : ∀ {c c' : Bytes} {inc : Nat}, (Dti.str false h).setDatum c true inc v = some (c', true) →
            ∃ b, v.asBytes = some b ∧ rd c' 0 h.size =
              (strn b).take h.size ++ List.replicate (h.size - ((strn b).take h.size).length) 0 := by
          intro c c' inc hh
          unfold setDatum at hh
          simp only [hn, hb, hv, Bool.false_eq_true, if_false, Bool.not_false, if_true, Option.bind_eq_bind] at hh
          cases hu : v.asBytes with
          | none => rw [hu] at hh; cases hh
          | some b =>
            refine ⟨b, rfl, ?_⟩
            simp only [hu, Option.bind_some] at hh
            generalize hB : (strn b).take h.size = B at hh
            have hBl : B.length ≤ h.size := by rw [← hB]; simp; omega
            unfold store zeroIn at hh
            by_cases h0 : 0 + B.length ≤ c.length
            · simp only [if_pos h0, Option.bind_some] at hh
              by_cases hlt : B.length < h.size
              · simp only [if_pos hlt, store] at hh
                by_cases h3 : B.length + (List.replicate (h.size - B.length) (0 : UInt8)).length ≤ (wr c 0 B).length
                · simp only [if_pos h3, Option.bind_some, Option.pure_def, Option.some.injEq, Prod.mk.injEq, and_true] at hh
                  subst hh
                  simp only [List.length_replicate, wr_length] at h3
                  have e1 := rd_split (wr (wr c 0 B) B.length (List.replicate (h.size - B.length) 0)) 0 B.length h.size hBl
                  rw [e1, rd_wr_disj _ _ _ _ _ (by omega), rd_wr_same _ _ _ h0]
                  congr 1
                  have := rd_wr_same (wr c 0 B) B.length (List.replicate (h.size - B.length) 0) (by simp; omega)
                  simpa using this
                · simp only [if_neg h3] at hh; cases hh
              · simp only [if_neg hlt, Option.pure_def, Option.some.injEq, Prod.mk.injEq, and_true] at hh
                subst hh
                have : h.size = B.length := by omega
                rw [this, rd_wr_same _ _ _ h0]; simp
            · simp only [if_neg h0] at hh; cases hh
        obtain ⟨b, k1, k2⟩ := key h1
        obtain ⟨b', k3, k4⟩ := key h2
        rw [k1] at k3; cases k3
        exact k2.trans k4.symm

/-- C77. In all other elements of a fixed size nothing of the old content stays: the bytes of the element are the
same wherever an element of the type is set to the same datum. -/
theorem C77_erases {d e t : Dti} {S T inc inc' : Nat} {pp pp' : List Nat} {i i' k k' : Nat} {m m' n n' : Bytes} {v : Datum} {r r' : Bool}
    (hk : d.elemCount m pp = some k) (hi : i < k) (hk' : e.elemCount n pp' = some k') (hi' : i' < k')
    (ht : d.typeAt (pp ++ [i]) = some t) (ht' : e.typeAt (pp' ++ [i']) = some t) (hb : t.isBit = false) (hv : t.isVar = false)
    (hx : ∀ h, t ≠ .str true h) (hn : v ≠ .null)
    (ha : SetArgs d m S (pp ++ [i]) v inc) (hset : d.setElem m (pp ++ [i]) v inc = some (m', r))
    (ha' : SetArgs e n T (pp' ++ [i']) v inc') (hset' : e.setElem n (pp' ++ [i']) v inc' = some (n', r')) :
    r = true ∧ r' = true ∧ ∃ a b, Spot d m' (pp ++ [i]) a t.hdr.size t ∧ Spot e n' (pp' ++ [i']) b t.hdr.size t ∧
      rd m' a t.hdr.size = rd n' b t.hdr.size := by
  have hnn : v.isNull = false := by cases v <;> first | rfl | exact absurd rfl hn
  have main : ∀ {d : Dti} {S inc : Nat} {pp : List Nat} {i k : Nat} {m m' : Bytes} {r : Bool},
      d.elemCount m pp = some k → i < k → d.typeAt (pp ++ [i]) = some t → SetArgs d m S (pp ++ [i]) v inc →
      d.setElem m (pp ++ [i]) v inc = some (m', r) →
      r = true ∧ ∃ a c inc', Spot d m' (pp ++ [i]) a t.hdr.size t ∧ t.setDatum c true inc' v = some (m'.drop a, true) := by
    intro d S inc pp i k m m' r hk hi ht ha hset
    obtain ⟨hS, val, he⟩ := ha.tuple
    obtain ⟨A, q, hsl, _⟩ := slot_of_count ha.usable.ok hS he hk hi ht hv
    obtain ⟨f1, f2, ⟨hS2, val2, he2⟩, f4⟩ := slot_set ha hsl hv hset
    obtain ⟨hr, f5⟩ := f2 hnn
    subst hr
    obtain ⟨inc1, f6⟩ := f5 hb
    obtain ⟨dt, d1, d2⟩ := C34_set_then_get ha ht hset
    have hdn : dt ≠ .null := by
      rintro rfl
      rcases d2 with ⟨e1, _⟩ | ⟨_, e2⟩
      · exact hn e1
      · revert e2
        cases t with
        | prim k h => cases k <;> simp
        | str b h => cases b <;> simp
        | tup h fs => simp
        | arr h c => simp
    exact ⟨rfl, A / 8, _, inc1, slot_spot ha.usable.ok hS2 he2 f4 hb hv d1 hdn, f6⟩
  obtain ⟨r1, a, c, inc1, s1, g1⟩ := main hk hi ht ha hset
  obtain ⟨r2, b, c2, inc2, s2, g2⟩ := main hk' hi' ht' ha' hset'
  refine ⟨r1, r2, a, b, s1, s2, ?_⟩
  have := setDatum_same hb hv hx g1 g2
  rw [rd_drop, rd_drop, Nat.add_zero, Nat.add_zero] at this
  exact this

/-- A BINARY of four bytes that holds 1, 2, 3, 4, is set to NULL and then to the byte 9: it reads 9, 2, 3, 4. -/
theorem slotNull : ∃ m1 m2, SetArgs aliasFin aliasMem 37 ([] ++ [2]) .null 0 ∧
    aliasFin.typeAt ([] ++ [2]) = some (.str true { isFinal := true, nullable := true, count := 4, size := 4 }) ∧
    aliasFin.getElem aliasMem ([] ++ [2]) = some (some (.bytes [1, 2, 3, 4])) ∧
    aliasFin.setElem aliasMem ([] ++ [2]) .null 0 = some (m1, true) ∧
    aliasFin.setElem m1 ([] ++ [2]) (.bytes [9]) 0 = some (m2, true) ∧
    aliasFin.getElem m2 ([] ++ [2]) = some (some (.bytes [9, 2, 3, 4])) := by
  have h : ((aliasFin.setElem aliasMem [2] .null 0).bind fun x => if x.2 then aliasFin.setElem x.1 [2] (.bytes [9]) 0 else none).map Prod.snd =
      some true := by decide +kernel
  obtain ⟨⟨m2, q⟩, h1, h2⟩ := Option.map_eq_some_iff.mp h
  cases h2
  obtain ⟨⟨m1, q1⟩, h3, h4⟩ := Option.bind_eq_some_iff.mp h1
  have hq : q1 = true := by
    cases q1 with
    | true => rfl
    | false => simp at h4
  subst hq
  simp only [if_true] at h4
  have ha : SetArgs aliasFin aliasMem 37 ([] ++ [2]) .null 0 := ⟨aliasFin_usable, aliasMem_tuple, fun _ _ => .inl rfl, by decide⟩
  have hg : aliasFin.getElem aliasMem ([] ++ [2]) = some (some (.bytes [1, 2, 3, 4])) := by decide +kernel
  exact ⟨m1, m2, ha, rfl, hg, h3, h4, (C77_null_keeps rfl rfl hg ha h3 (by decide) h4 (by decide)).2⟩

/-- The hypotheses of `C77_overlay` and `C77_footprint` in this case: the data are NULL and the byte 9. -/
example : ∃ m', Sets aliasFin 37 ([] ++ [2]) aliasMem ([.null] ++ [.bytes [9]]) m' ∧
    aliasFin.elemCount aliasMem [] = some 7 ∧ [.null, .bytes [9]].foldl (over 4) [1, 2, 3, 4] = [9, 2, 3, 4] := by
  obtain ⟨m1, m2, h1, h2, h3, h4, h5, h6⟩ := slotNull
  obtain ⟨S', _, g1, g2, _⟩ := C37_growth h1 h4
  have hs : S' = 37 := by
    obtain ⟨_, _, S2, k1, _, k2, _⟩ := changed_keeps (Changed.set _ _ _ h1 h4) h2
    have := (k1.size aliasFin_usable.ok).1
    have h3 := (g1.size aliasFin_usable.ok).1
    rw [this] at h3
    have := k2 rfl
    cases h3; exact this
  subst hs
  have hl : m1.length = aliasMem.length := by
    obtain ⟨_, _, S2, k1, k2, _⟩ := changed_keeps (Changed.set _ _ _ h1 h4) h2
    exact k2
  refine ⟨m2, .cons h1 h4 (.cons ⟨aliasFin_usable, g1, fun t ht => ?_, fun _ => by rw [hl]; decide⟩ h5 (.nil _)), by decide +kernel, by decide⟩
  rw [h2] at ht; cases ht
  exact .inr (.inr ⟨_, rfl, by decide⟩)

/-- The minimal tuple of the example, in which the same element is set to the byte 9. -/
example : aliasFin.isCont = true ∧ aliasFin.isMin (15 :: List.replicate 99 0) = some true ∧
    aliasFin.elemCount (15 :: List.replicate 99 0) [] = some 7 ∧
    SetArgs aliasFin (15 :: List.replicate 99 0) 15 ([] ++ [2]) (.bytes [9]) 0 ∧
    ∃ m', aliasFin.setElem (15 :: List.replicate 99 0) ([] ++ [2]) (.bytes [9]) 0 = some (m', true) := by
  have h : (aliasFin.setElem (15 :: List.replicate 99 0) [2] (.bytes [9]) 0).map Prod.snd = some true := by decide +kernel
  obtain ⟨⟨m', q⟩, h1, h2⟩ := Option.map_eq_some_iff.mp h
  cases h2
  refine ⟨rfl, by decide +kernel, by decide +kernel,
    ⟨aliasFin_usable, alias_tuple (n := 0) (q := []) rfl (by decide +kernel), fun t ht => ?_, by decide⟩, m', h1⟩
  cases ht
  exact .inr (.inr ⟨_, rfl, by decide⟩)

/-- An integer of four bytes, in a tuple in which it is NULL and in one in which it is not. -/
example : ∃ m1 m2 m3 q, exFinal.elemCount exMem [] = some 4 ∧
    SetArgs exFinal exMem 11 ([] ++ [1]) (.int 5) 0 ∧ exFinal.setElem exMem ([] ++ [1]) (.int 5) 0 = some (m1, q) ∧
    exFinal.setElem exMem ([] ++ [1]) (.int 70000) 0 = some (m2, q) ∧ SetArgs exFinal m2 11 ([] ++ [1]) (.int 5) 0 ∧
    exFinal.setElem m2 ([] ++ [1]) (.int 5) 0 = some (m3, q) ∧ exFinal.elemCount m2 [] = some 4 := by
  have ha : ∀ z, SetArgs exFinal exMem 11 ([] ++ [1]) (.int z) 0 := fun z =>
    ⟨exFinal_usable, exMem_tuple, fun t ht => by cases ht; exact .inr (.inr ⟨_, rfl⟩), by decide⟩
  have h : (exFinal.setElem exMem ([] ++ [1]) (.int 5) 0).map Prod.snd = some true := by decide +kernel
  have h' : (exFinal.setElem exMem ([] ++ [1]) (.int 70000) 0).map Prod.snd = some true := by decide +kernel
  obtain ⟨⟨m1, q⟩, h1, h2⟩ := Option.map_eq_some_iff.mp h
  cases h2
  obtain ⟨⟨m2, q⟩, h3, h4⟩ := Option.map_eq_some_iff.mp h'
  cases h4
  obtain ⟨_, _, S', g1, g2, g3, _⟩ := changed_keeps (Changed.set _ _ _ (ha 70000) h3) rfl
  have := g3 rfl
  subst this
  have ha2 : SetArgs exFinal m2 11 ([] ++ [1]) (.int 5) 0 :=
    ⟨exFinal_usable, g1, fun t ht => by cases ht; exact .inr (.inr ⟨_, rfl⟩), by rw [g2]; decide⟩
  obtain ⟨m3, q3, k1, k2⟩ := C36_can_set_predicts ha2
  have hsl := slot_of_count exFinal_usable.ok g1.1 g1.2.choose_spec (pp := []) (i := 1) (k := 4) rfl (by decide) rfl rfl
  obtain ⟨A, qb, hsl, _⟩ := hsl
  have hq := (slot_set ha2 hsl rfl k1).2.1 rfl
  have := hq.1
  subst this
  exact ⟨m1, m2, m3, true, by decide +kernel, ha 5, h1, h3, ha2, k1, rfl⟩

end Props
end TS
