import Verif.WidenFin
import Verif.PropsValidPage
import Verif.ContExpand
/-
Property C89: the maximum sizes in a type may be raised while data of the type exist, as long as
`get_value_size_on_page` of them stays the same; nothing needs to be rewritten.
-/
namespace TS
namespace Props
open Dti

variable {ps h : Nat} {pg : Bytes} {s : Slots} {d e : Dti}

/-- C89: a type can still be finalised after its maximum sizes have been raised, and the finalised
types differ in the maximum sizes only. -/
theorem C89_finalize {d' : Dti} (hw : Widens d e) (hf : finalize d = some d') :
    ∃ e', finalize e = some e' ∧ Widens d' e' := finalize_widen d hw hf

/-- C89: data of the type are data of the type with raised maximum sizes; they have the same value
and the same size. -/
theorem C89_data {b : Bytes} {v : Val} (hd : Usable d) (he : Usable e) (hw : Widens d e) (hen : Enc d b v) :
    Enc e b v ∧ d.getSize b = some b.length ∧ e.getSize b = some b.length :=
  ⟨enc_widen hen hw he.ok, (enc_size hd.ok hen).1, (enc_size he.ok (enc_widen hen hw he.ok)).1⟩

/-- C89: whatever the bytes are, reading any element of them gives the same with both types. -/
theorem C89_read (hw : Widens d e) (m : Bytes) (pa : List Nat) :
    e.getElem m pa = d.getElem m pa ∧ e.getCount m = d.getCount m :=
  ⟨getElem_widen pa hw m, getCount_widen hw m⟩

theorem Typed.widen (he : Usable e) (hw : Widens d e) {t : Bytes} (ht : Typed d t) : Typed e t := by
  obtain ⟨h1, v, h2⟩ := ht
  exact ⟨h1, v, enc_widen h2 hw he.ok⟩

theorem sizeDefOf_eq {d0 sd : SizeDef} (h : sizeDefOf d0 d = some sd) : sd.isVar = d.isVar ∧ sd.size = d.hdr.size := by
  unfold sizeDefOf at h
  split at h
  · cases h
  · cases hv : d.isVar with
    | false =>
      simp only [hv, Bool.not_false, if_true] at h
      split at h
      · cases h
      · cases h; exact ⟨rfl, rfl⟩
    | true =>
      simp only [hv, Bool.not_true, Bool.false_eq_true, if_false] at h
      split at h
      · cases h
      · split at h
        · cases h; exact ⟨rfl, rfl⟩
        · cases hc : d.cont with
          | none => simp [hc] at h
          | some c => simp [hc] at h; rw [← h]; exact ⟨rfl, rfl⟩

/-- The same page with another size definition that has the same layout and accepts the tuples. -/
theorem prep_sizeDef {sd sd' : SizeDef} (hv : sd'.isVar = sd.isVar) (hs : sd'.size = sd.size) (hwf : AllWF sd' s)
    (r : PRep ps h sd pg s) : PRep ps h sd' pg s := by
  rcases r with r | ⟨r, -⟩
  · refine .inl ⟨⟨by rw [hv]; exact r.var, r.base, r.occ, r.cnt, r.tomb, r.space, r.eofs_le, ⟨r.lay.dead, ?_, r.lay.disj⟩⟩, r.tight⟩
    intro i t hi
    obtain ⟨h1, h2, h3, _⟩ := r.lay.live i t hi
    exact ⟨h1, h2, h3, hwf.get hi⟩
  · have hc : Fixed.cap ps h sd' = Fixed.cap ps h sd := by unfold Fixed.cap; rw [hs]
    have ht : ∀ i, Fixed.slot ps h sd' pg i = Fixed.slot ps h sd pg i := by
      intro i; unfold Fixed.slot Fixed.tAddr; rw [hc, hs]
    refine .inr ⟨⟨by rw [hv]; exact r.fixed, by rw [hs]; exact r.pos, r.base, r.cnt, r.tomb, by rw [hc]; exact r.le, r.bits, ?_⟩, hwf⟩
    intro i t hi
    rw [hs, ht]
    exact r.data i t hi

/-- C89: a page of tuples of the type is a page of tuples of the type with raised maximum sizes, with
the same tuples in the same places. -/
theorem C89_page {d0 d1 sd sd' : SizeDef} (l : Legal ps h sd) (hd : Usable d) (he : Usable e) (hw : Widens d e)
    (hsd : sizeDefOf d0 d = some sd) (hse : sizeDefOf d1 e = some sd') (hk : okTyped ps h sd d pg = true) :
    okTyped ps h sd' e pg = true ∧ slotsOf ps h sd' pg = slotsOf ps h sd pg ∧ Legal ps h sd' ∧
    Observe ps sd' pg (slotsOf ps h sd pg) := by
  obtain ⟨k1, k2⟩ := (okTyped_iff hd).mp hk
  obtain ⟨a1, a2⟩ := sizeDefOf_eq hsd
  obtain ⟨b1, b2⟩ := sizeDefOf_eq hse
  have ht : AllTyped e (slotsOf ps h sd pg) := fun i t hi => Typed.widen he hw (k2 i t hi)
  have hs : sd'.size = sd.size := by rw [a2, b2, hw.size]
  have r : PRep ps h sd' pg (slotsOf ps h sd pg) := by
    refine prep_sizeDef (by rw [a1, b1, hw.isVar]) hs ?_ (okPage_prep l k1)
    intro x hx t hxt
    subst hxt
    exact (AllTyped.iff.mp ht t hx).wellFormed he hse
  obtain ⟨c1, c2⟩ := rep_okPage r
  refine ⟨(okTyped_iff he).mpr ⟨c1, by rw [c2]; exact ht⟩, c2, ?_, r.observe⟩
  exact ⟨l.ps_ge, l.ps_le, l.h_le, by rw [hs]; exact l.size_ge, by rw [hs]; exact l.size_le⟩

/-- C89: after any history of calls on a page with the type, the maximum sizes may be raised: every
history of calls with the new type is defined, follows the specification from the tuples on the page on,
and leaves a page of tuples of the new type. -/
theorem C89_history {d0 d1 sd sd' : SizeDef} (l : Legal ps h sd) (hd : Usable d) (he : Usable e) (hw : Widens d e)
    (hsd : sizeDefOf d0 d = some sd) (hse : sizeDefOf d1 e = some sd') (hr : TReach ps h d sd pg s) {ops : List Op}
    (ho : ∀ op ∈ ops, TypedOp h e op) :
    ∃ pg' rs s', run ps sd' pg ops = some (pg', rs) ∧ SpecRun sd' s ops rs s' ∧ Observe ps sd' pg' s' ∧ AllTyped e s' := by
  obtain ⟨h1, h2⟩ := hr.reach l hd hsd
  obtain ⟨h3, h4⟩ := C82_accepts l h1
  obtain ⟨h5, h6, l', _⟩ := C89_page l hd he hw hsd hse ((okTyped_iff hd).mpr ⟨h3, by rw [h4]; exact h2⟩)
  obtain ⟨pg', rs, k1, k2, k3⟩ := C82_typed l' he hse h5 ho
  rw [h6, h4] at k2
  obtain ⟨k4, k5⟩ := (okTyped_iff he).mp k3
  exact ⟨pg', rs, _, k1, k2, (okPage_prep l' k4).observe, k5⟩

theorem leDec_take_le (t : Bytes) : ∀ a c, a ≤ c → leDec (t.take a) ≤ leDec (t.take c) := by
  induction t with
  | nil => intro a c _; simp
  | cons x r ih =>
    intro a c hac
    cases a with
    | zero => simp [leDec]
    | succ a =>
      cases c with
      | zero => omega
      | succ c =>
        simp only [List.take_succ_cons, leDec]
        have := ih a c (by omega)
        omega

/-- C89: the width has to stay the same: with another width no string or binary of the type is one of
the new type. -/
theorem C89_width {b b' : Bool} {g g' : Hdr} (hd : g.isVar = true) (he : g'.isVar = true)
    (hne : vsz g.maxSize ≠ vsz g'.maxSize) {t : Bytes} {v v' : Val} (h1 : Enc (.str b g) t v) : ¬ Enc (.str b' g') t v' := by
  have len : ∀ {b : Bool} {g : Hdr} {v : Val}, g.isVar = true → Enc (.str b g) t v →
      t.length = vsz g.maxSize + leDec (rd t 0 (vsz g.maxSize)) := by
    intro b g v hv en
    obtain ⟨cs, o, vs, _, r, _⟩ := enc_cont rfl en
    have hh := heap_fixed (c := u8) rfl r rfl
    have hcv := r.cntV hv
    have hs := r.sum
    have hz : (Dti.str b g).offCountP = 0 := by simp [offCountP, hasSizeP]
    have ho : (Dti.str b g).offBitmap = vsz g.maxSize := by
      simp [offBitmap, hz, hasCountP, isVarCount, hv, Dti.w, hdr]
    rw [hz] at hcv
    simp only [fixedEnd, ho] at hs
    simp only [Dti.word, Dti.w, hdr] at hcv
    omega
  have mono : ∀ a c, a ≤ c → leDec (rd t 0 a) ≤ leDec (rd t 0 c) := leDec_take_le (t.drop 0)
  intro h2
  have e1 := len hd h1
  have e2 := len he h2
  have := mono (vsz g.maxSize) (vsz g'.maxSize)
  have := mono (vsz g'.maxSize) (vsz g.maxSize)
  omega

/-! ### Examples -/

/-- The example type with a tuple of at most 60000 bytes (instead of 900), a string of at most 255
bytes with its length (instead of 200) and an array of at most 30000 bytes (instead of 300). -/
def exRaisedType : Dti := .tup { count := 4, maxSize := 60000 }
  [({}, .prim .bitField { nullable := true, size := 5 }),
   ({}, .prim .int { nullable := true, size := 4 }),
   ({}, .str false { varCount := true, maxSize := 255 }),
   ({}, .arr { varCount := true, maxSize := 30000 } (.prim .uint { nullable := true, size := 2 }))]

/-- `exRaisedType` once finalised. -/
def exRaised : Dti := .tup { isFinal := true, isVar := true, count := 4, maxSize := 60000, size := 11, bits := 7 }
  [({ off := 1, vbit := 0 }, .prim .bitField { isFinal := true, nullable := true, size := 5 }),
   ({ off := 3, vbit := 6 }, .prim .int { isFinal := true, nullable := true, size := 4 }),
   ({ off := 7 }, .str false { isFinal := true, isVar := true, varCount := true, maxSize := 255, size := 1 }),
   ({ off := 9 }, .arr { isFinal := true, isVar := true, varCount := true, maxSize := 30000, size := 2 }
      (.prim .uint { isFinal := true, nullable := true, size := 2 }))]

theorem exRaisedType_widens : Widens exType exRaisedType := by
  refine FW.tup ⟨rfl, rfl, rfl, rfl, rfl, rfl, rfl, by decide, by decide⟩ ?_
  refine .cons rfl rfl (.refl _) (.cons rfl rfl (.refl _) (.cons rfl rfl ?_ (.cons rfl rfl ?_ .nil)))
  · exact .str ⟨rfl, rfl, rfl, rfl, rfl, rfl, rfl, by decide, by decide⟩
  · exact .arr ⟨rfl, rfl, rfl, rfl, rfl, rfl, rfl, by decide, by decide⟩ (.refl _)

theorem exRaised_usable : Usable exRaised := by
  refine ⟨exRaisedType, ?_, rfl, ?_⟩
  · refine .tup _ _ rfl rfl ?_
    intro f t h
    simp at h
    rcases h with ⟨_, rfl⟩ | ⟨_, rfl⟩ | ⟨_, rfl⟩ | ⟨_, rfl⟩
    · exact .prim _ _ rfl
    · exact .prim _ _ rfl
    · exact .str _ _ rfl
    · exact .arr _ _ rfl (.prim _ _ rfl)
  · refine .tup _ _ ?_ (by decide) (by decide) (by decide)
    intro f t h
    simp at h
    rcases h with ⟨_, rfl⟩ | ⟨_, rfl⟩ | ⟨_, rfl⟩ | ⟨_, rfl⟩
    · exact .prim _ _
    · exact .prim _ _
    · exact .str _ _ (by decide) (by decide)
    · exact .arr _ _ (.prim _ _) (by decide) (by decide)

theorem exRaised_widens : Widens exFinal exRaised := by
  obtain ⟨e', h1, h2⟩ := C89_finalize exRaisedType_widens exType_finalize
  cases h1
  exact h2

/-- The hypotheses can be met, by a page with a tuple on it: after the maximum sizes have been raised
the integer is set in place. -/
example : ∃ pg pg' rs s', TReach 128 4 exFinal exSd pg [some exTup] ∧
    run 128 { exSd with maxSize := 60000 } pg [.setElem 0 (elemEdit exRaised [1] (.int (-7)))] = some (pg', rs) ∧
    SpecRun { exSd with maxSize := 60000 } [some exTup] [.setElem 0 (elemEdit exRaised [1] (.int (-7)))] rs s' ∧ AllTyped exRaised s' := by
  obtain ⟨pg, _, hr⟩ := exPage_reach
  obtain ⟨pg', rs, s', h1, h2, _, h3⟩ := C89_history (ops := [.setElem 0 (elemEdit exRaised [1] (.int (-7)))]) exPage_legal exFinal_usable exRaised_usable exRaised_widens
    exSd_of (d1 := ⟨false, 0, 0, false, false, false, false, 0⟩) (sd' := { exSd with maxSize := 60000 }) rfl hr (by
      intro op ho
      rw [List.mem_singleton] at ho
      subst ho
      refine ⟨[1], .int (-7), rfl, ?_⟩
      intro x hx
      cases hx
      exact Or.inr (Or.inr ⟨_, rfl⟩))
  exact ⟨pg, pg', rs, s', hr, h1, h2, h3⟩

/-- A tuple with a string of 220 bytes. -/
def exLongStr : Bytes := [232, 0, 64, 0, 0, 0, 0, 11, 0, 0, 0, 220] ++ List.replicate 220 97

/-- It is a tuple of the new type only. -/
example : exFinal.check exLongStr = false ∧ exRaised.check exLongStr = true := by constructor <;> decide +kernel

/-- A string of two bytes of a type with at most 255 bytes, and the same bytes with at most 257: the width of the
count has changed, and so has what is read. -/
example : let d : Dti := .str false { isFinal := true, isVar := true, varCount := true, maxSize := 255, size := 1 }
    let e : Dti := .str false { isFinal := true, isVar := true, varCount := true, maxSize := 257, size := 2 }
    d.check [2, 97, 98] = true ∧ e.check [2, 97, 98] = false ∧ d.getElem [2, 97, 98] [] = some (some (.bytes [97, 98])) ∧
    e.getElem [2, 97, 98] [] = none := by
  refine ⟨?_, ?_, ?_, ?_⟩ <;> decide +kernel

end Props
end TS
