import Verif.SlottedCompact
import Verif.FixedOps
/-
Element updates in place, and writes to the page header, keep pages representable.
-/
namespace TS

variable {ps h : Nat} {d : SizeDef} {pg : Bytes} {s : Slots}

/-- Replace the tuple of slot `i` by a not larger one at the same place. -/
theorem Lay.shrink {m : Bytes} {lo : Nat} {offs : Nat → Nat} (L : Lay ps d m lo offs s) {i : Nat}
    {t u : Bytes} (hi : s[i]? = some (some t)) {m' : Bytes} (hw : WellFormed d u)
    (hle : u.length ≤ t.length) (hrd : rd m' (offs i) u.length = u)
    (hm : ∀ j v, j ≠ i → s[j]? = some (some v) → rd m' (offs j) v.length = rd m (offs j) v.length) :
    Lay ps d m' lo offs (s.set i (some u)) := by
  have hil : i < s.length := (List.getElem?_eq_some_iff.mp hi).1
  have key2 : ∀ j (v : Bytes), (s.set i (some u))[j]? = some (some v) →
      (j = i ∧ v = u) ∨ (j ≠ i ∧ s[j]? = some (some v)) := by
    intro j v hx
    rw [List.getElem?_set] at hx
    split at hx
    · left; simp [hil] at hx; exact ⟨by omega, hx.symm⟩
    · right; exact ⟨by omega, hx⟩
  have hL := L.live i t hi
  refine ⟨?_, ?_, ?_⟩
  · intro j hj
    have hji : j ≠ i := by
      rintro rfl
      rw [List.getElem?_set_self hil] at hj; simp at hj
    rw [List.getElem?_set_ne (by omega)] at hj
    exact L.dead j hj
  · intro j v hj
    rcases key2 j v hj with ⟨rfl, rfl⟩ | ⟨h1, h2⟩
    · exact ⟨hL.1, by omega, hrd, hw⟩
    · rw [hm j v h1 h2]; exact L.live j v h2
  · intro j k v w hjk hj hk
    rcases key2 j v hj with ⟨rfl, rfl⟩ | ⟨h1, h2⟩
    · rcases key2 k w hk with ⟨rfl, rfl⟩ | ⟨h3, h4⟩
      · omega
      · have := L.disj j k t w hjk hi h4; omega
    · rcases key2 k w hk with ⟨rfl, rfl⟩ | ⟨h3, h4⟩
      · have := L.disj j k v t hjk h2 hi; omega
      · exact L.disj j k v w hjk h2 h4

theorem WellFormed.take_eq {m : Bytes} {n : Nat} (hn : n ≤ m.length)
    (hw : WellFormed d (m.take n)) : tupleSize d m = some n := by
  have h1 := tupleSize_append (r := m.drop n) hw.size
  rw [List.take_append_drop] at h1
  rw [h1]; simp; omega

theorem EditOk.effect {e : Api.Edit} (he : EditOk d e) {t : Bytes} (hw : WellFormed d t) :
    ∃ m ok n, e.set t = some (m, ok) ∧ m.length = t.length ∧ n ≤ t.length ∧
      WellFormed d (m.take n) ∧ (ok = false → n = t.length) ∧ tupleSize d m = some n := by
  obtain ⟨_, m, ok, n, h1, h2, h3, h4, h5⟩ := he t hw
  exact ⟨m, ok, n, h1, h2, h3, h4, h5, WellFormed.take_eq (by omega) h4⟩

theorem rd_take_sub {m : Bytes} {o n k : Nat} {x : Bytes} (hr : rd m o k = x) (hn : n ≤ k) :
    rd m o n = x.take n := by
  subst hr
  unfold rd
  rw [List.take_take]
  congr 1; omega

theorem lookup_some {i : Nat} {t : Bytes} (hi : s[i]? = some (some t)) : lookup s i = some t := by
  simp [lookup, hi]

theorem lookup_eq_some {i : Nat} {t : Bytes} : lookup s i = some t ↔ s[i]? = some (some t) := by
  unfold lookup
  cases h : s[i]? with
  | none => simp
  | some x => cases x <;> simp

theorem lookup_none {i : Nat} (hi : ∀ t, s[i]? ≠ some (some t)) : lookup s i = none := by
  cases hl : lookup s i with
  | none => rfl
  | some t => exact absurd (lookup_eq_some.mp hl) (hi t)

namespace Slotted

theorem Rep.shrink (r : Rep ps h d pg s) {i : Nat} {t m : Bytes} {n : Nat}
    (hi : s[i]? = some (some t)) (hml : m.length = t.length) (hn : n ≤ t.length)
    (hw : WellFormed d (m.take n)) {v : Nat}
    (hv : v = liveSum s + s.length * vsz ps + n - t.length) :
    Rep ps h d (setWord ps h (wr pg (word ps h pg (4 + i)) m) 0 v) (s.set i (some (m.take n))) := by
  have hil : i < s.length := (List.getElem?_eq_some_iff.mp hi).1
  have b := r.base
  have hlv := r.live hi
  have hsp := r.space
  have hlt := r.base.lt
  have hel := r.eofs_le
  have hpow := le_pow_vsz r.base.lt
  have hls := liveSum_set s i (some t) (some (m.take n)) hi
  have hlg := liveSum_get s i (some t) hi
  have hmt : (m.take n).length = n := by simp; omega
  simp only [dataLen_some, hmt] at hls hlg
  have hocc := r.occ_lt
  have h4lt := lt_wAddr ps h 4
  have hw04 := wAddr_mono ps h (show 0 ≤ 4 + s.length by omega)
  have b1 := b.wr (o := word ps h pg (4 + i)) (s := m) (by omega)
  have b2 := b1.setWord 0 v
  have hE : eofs ps h (setWord ps h (wr pg (word ps h pg (4 + i)) m) 0 v) = eofs ps h pg := by
    pgsimp (4 + s.length)
  have hW : ∀ j, j < s.length → word ps h (setWord ps h (wr pg (word ps h pg (4 + i)) m) 0 v)
      (4 + j) = word ps h pg (4 + j) := by
    intro j hj; pgsimp (4 + s.length)
  have hL : Lay ps d (setWord ps h (wr pg (word ps h pg (4 + i)) m) 0 v) (eofs ps h pg)
      (fun j => word ps h pg (4 + j)) (s.set i (some (m.take n))) := by
    refine r.lay.shrink hi hw (by omega) ?_ ?_
    · pgsimp (4 + s.length)
      rw [hmt]
      exact rd_take_sub (k := m.length) (rd_wr_same _ _ _ (by rw [b.len]; omega)) (by omega)
    · intro j w hj hw'
      have h1 := r.live hw'
      have h2 := r.lay.disj j i w t hj hw' hi
      pgsimp (4 + s.length)
      rw [rd_wr_disj _ _ _ _ _ (by omega)]
  refine ⟨⟨r.var, by simpa using b2, ?_, ?_, ?_, ?_, ?_, ?_⟩, ?_⟩
  · rw [word_setWord_eq b1 (by omega) (by omega)]
    simp; omega
  · pgsimp (4 + s.length); rw [r.cnt]; simp
  · pgsimp (4 + s.length); rw [r.tomb, tombs_set_same s i t _ hi]
  · rw [hE]; simpa using hsp
  · rw [hE]; exact hel
  · rw [hE]
    exact hL.congr (fun j hj => hW j (by simpa using hj)) (fun _ _ _ => rfl)
      (fun j w hj => (hL.live j w hj).1)
  · rcases r.tight with h1 | ⟨j, w, hj, he⟩
    · left; rw [hE]; exact h1
    · right
      by_cases hji : j = i
      · subst hji
        exact ⟨j, m.take n, by simp [hil], by rw [hE, hW j hil]; exact he⟩
      · refine ⟨j, w, by rw [List.getElem?_set_ne (by omega)]; exact hj, ?_⟩
        rw [hE, hW j (List.getElem?_eq_some_iff.mp hj).1]; exact he

theorem Rep.setInPlace_at (r : Rep ps h d pg s) (i : Nat) {e : Api.Edit} (he : EditOk d e) :
    (∃ t pg' b t', s[i]? = some (some t) ∧ Api.setInPlaceSlotted pg ps d i e = some (pg', b) ∧
      EditEffect d e t b.toNat t' ∧ Rep ps h d pg' (s.set i (some t')) ∧
      hdrBytes ps h pg' = hdrBytes ps h pg ∧
      (∀ j, j < s.length → word ps h pg' (4 + j) = word ps h pg (4 + j))) ∨
    ((∀ t, s[i]? ≠ some (some t)) ∧ Api.setInPlaceSlotted pg ps d i e = some (pg, false)) := by
  rcases r.getNth i with ⟨o, t, hg, hi, hb, hr, hts⟩ | ⟨hg, hn⟩
  · left
    have hlv := r.live hi
    have hil : i < s.length := hlv.2.2.2.2
    have ho : o = word ps h pg (4 + i) := by
      simp only [Slotted.getNth, r.tupleCount, Option.bind_eq_bind, Option.bind_some,
        if_neg (show ¬ i ≥ s.length by omega), r.tupOff hil] at hg
      split at hg <;> simp_all
    obtain ⟨⟨can, hcan⟩, _⟩ := he t hlv.2.2.2.1
    obtain ⟨m, ok, n, hset, hml, hnl, hw, hok, hsz⟩ := he.effect hlv.2.2.2.1
    have hsp := r.space
    have hw04 := wAddr_mono ps h (show 0 ≤ 4 + s.length by omega)
    have hst : o + m.length ≤ pg.length := by rw [hml]; exact hb
    have b := r.base
    have b1 := b.wr (o := o) (s := m) (by omega)
    have hdr1 : hdrBytes ps h (wr pg o m) = hdrBytes ps h pg := hdrBytes_wr _ (by omega)
    have hocc := r.occ_lt
    have hlt := r.base.lt
    have hlg := liveSum_get s i (some t) hi
    have hpow := le_pow_vsz r.base.lt
    simp only [dataLen_some] at hlg
    have hwe : word ps h (wr pg o m) 0 = liveSum s + s.length * vsz ps := by
      rw [← r.occ]; pgsimp (4 + s.length)
    simp only [Api.setInPlaceSlotted, hg, Option.bind_eq_bind, Option.bind_some, hts,
      load_eq hb, hr, hcan, hset, store_eq hst]
    cases can with
    | false =>
      refine ⟨t, pg, false, t, hi, by simp, ?_, ?_, rfl, fun _ _ => rfl⟩
      · rw [EditEffect, if_pos ⟨r.var, hcan⟩]; exact ⟨rfl, rfl⟩
      · have : s.set i (some t) = s := by
          apply List.ext_getElem?; intro j
          rw [List.getElem?_set]
          split
          · rename_i hij; rw [← hij, hi]
          · rfl
        rw [this]; exact r
    | true =>
      have heff : EditEffect d e t ok.toNat (m.take n) := by
        rw [EditEffect, if_neg (by rw [hcan]; simp)]
        exact ⟨m, ok, n, hset, hsz, rfl, rfl⟩
      cases ok with
      | false =>
        refine ⟨t, wr pg o m, false, m.take n, hi, by simp, heff, ?_, hdr1,
          fun j hj => by pgsimp (4 + s.length)⟩
        have h0 := r.shrink hi hml hnl hw rfl
        rw [← ho] at h0
        have : setWord ps h (wr pg o m) 0 (liveSum s + s.length * vsz ps + n - t.length) =
            wr pg o m := by
          have hnn := hok rfl
          rw [show liveSum s + s.length * vsz ps + n - t.length =
            word ps h (wr pg o m) 0 by rw [hwe]; omega]
          unfold setWord word
          have hfit := b1.wb (show 0 < 4 + s.length by omega)
          have hle : leEnc (vsz ps) (leDec (rd (wr pg o m) (wAddr ps h 0) (vsz ps))) =
              rd (wr pg o m) (wAddr ps h 0) (vsz ps) := by
            have := leEnc_leDec (rd (wr pg o m) (wAddr ps h 0) (vsz ps))
            rw [rd_length _ _ _ hfit] at this
            exact this
          rw [hle]
          apply List.ext_getElem?
          intro k
          rw [wr_getElem?]
          split
          · rename_i hk
            rw [rd_length _ _ _ hfit] at hk
            rw [rd_getElem?, if_pos (by omega)]; congr 1; omega
          · rfl
        rw [this] at h0
        exact h0
      | true =>
        have hts1 : tupleSize d ((wr pg o m).drop o) = some n := by
          have h1 := tupleSize_at (m := wr pg o m) (o := o) hw (by
            rw [List.length_take]
            rw [show min n m.length = n by omega]
            exact rd_take_sub (k := m.length) (rd_wr_same _ _ _ hst) (by omega))
          rw [h1]; simp; omega
        simp only [Bool.not_true, if_false, if_true, Bool.false_eq_true, hts1, Option.bind_some,
          offOcc_eq b1, loadVal_word b1 (show 0 < 4 + s.length by omega),
          storeVal_word b1 (show 0 < 4 + s.length by omega), hwe]
        refine ⟨t, _, true, m.take n, hi, rfl, heff, ?_, ?_, fun j hj => by pgsimp (4 + s.length)⟩
        · rw [ho]
          exact r.shrink hi hml hnl hw (by omega)
        · rw [hdrBytes_setWord]; exact hdr1
  · exact Or.inr ⟨hn, by simp [Api.setInPlaceSlotted, hg]⟩

theorem Rep.setInPlace (r : Rep ps h d pg s) (i : Nat) {e : Api.Edit} (he : EditOk d e) :
    (∃ t pg' b t', s[i]? = some (some t) ∧ Api.setInPlaceSlotted pg ps d i e = some (pg', b) ∧
      EditEffect d e t b.toNat t' ∧ Rep ps h d pg' (s.set i (some t')) ∧
      hdrBytes ps h pg' = hdrBytes ps h pg) ∨
    ((∀ t, s[i]? ≠ some (some t)) ∧ Api.setInPlaceSlotted pg ps d i e = some (pg, false)) := by
  rcases r.setInPlace_at i he with ⟨t, pg', b, t', h1, h2, h3, h4, h5, -⟩ | h1
  · exact Or.inl ⟨t, pg', b, t', h1, h2, h3, h4, h5⟩
  · exact Or.inr h1

/-- Only bytes outside the page header matter for the representation. -/
theorem Rep.congr_hdr (r : Rep ps h d pg s) {pg' : Bytes} (hl : pg'.length = pg.length)
    (h0 : rd pg' 0 (vsz ps) = rd pg 0 (vsz ps))
    (h1 : ∀ o l, vsz ps + h ≤ o → rd pg' o l = rd pg o l) :
    Rep ps h d pg' s ∧ (∀ k, word ps h pg' k = word ps h pg k) := by
  have hwd : ∀ k, word ps h pg' k = word ps h pg k := by
    intro k; unfold word; rw [h1 _ _ (wAddr_ge ps h k)]
  have hE : eofs ps h pg' = eofs ps h pg := by unfold eofs; rw [hwd]
  refine ⟨⟨⟨r.var, ⟨by rw [hl, r.base.len], by rw [h0, r.base.hdr], r.base.lt, r.base.fits⟩, ?_, ?_,
    ?_, ?_, ?_, ?_⟩, ?_⟩, hwd⟩
  · rw [hwd]; exact r.occ
  · rw [hwd]; exact r.cnt
  · rw [hwd]; exact r.tomb
  · rw [hE]; exact r.space
  · rw [hE]; exact r.eofs_le
  · rw [hE]
    refine r.lay.congr (fun i _ => hwd _) ?_ (fun i t hi => (r.lay.live i t hi).1)
    intro i t hi
    apply h1
    have := r.live hi
    have := r.space
    have := wAddr_ge ps h (4 + s.length)
    omega
  · rcases r.tight with h2 | ⟨j, w, hj, he⟩
    · exact Or.inl (by rw [hE]; exact h2)
    · exact Or.inr ⟨j, w, hj, by rw [hE, hwd]; exact he⟩

end Slotted

namespace Fixed

theorem Rep.set_slot (r : Rep ps h d pg s) {i : Nat} {t m : Bytes}
    (hi : s[i]? = some (some t)) (hml : m.length = d.size) :
    Rep ps h d (wr pg (tAddr ps h d i) m) (s.set i (some m)) := by
  have hil : i < s.length := (List.getElem?_eq_some_iff.mp hi).1
  have hle := r.le
  refine Rep.mk' r.fixed r.pos (Fixed.Base.wrSlot r.base i m) ?_ ?_ (by simpa using r.le) ?_
  · rw [word_wrSlot _ (by omega), r.cnt]; simp
  · rw [word_wrSlot _ (by omega), r.tomb, Slotted.tombs_set_same s i t m hi]
  · intro j x hj
    have hjl : j < s.length := by
      have := (List.getElem?_eq_some_iff.mp hj).1
      simpa using this
    rw [bit_wrSlot _ _ _ (by omega), slot_wrSlot r.base (by omega) hml]
    rw [List.getElem?_set] at hj
    split at hj
    · rename_i hij
      subst hij
      simp only [hil, if_true, Option.some.injEq] at hj
      subst hj
      have h1 := (r.at hi).1
      refine ⟨by simpa using h1, ?_⟩
      intro t' ht'; simp at ht'; subst ht'; simp [hml]
    · have h1 := r.at hj
      rw [if_neg (by omega)]
      exact h1

theorem Rep.setInPlace (r : Rep ps h d pg s) (i : Nat) {e : Api.Edit} (he : EditOk d e)
    (hwf : ∀ (i : Nat) t, s[i]? = some (some t) → WellFormed d t) :
    (∃ t pg' b t', s[i]? = some (some t) ∧ Api.setInPlaceFixed pg ps d i e = some (pg', b) ∧
      EditEffect d e t b.toNat t' ∧ Rep ps h d pg' (s.set i (some t')) ∧ WellFormed d t' ∧
      hdrBytes ps h pg' = hdrBytes ps h pg) ∨
    ((∀ t, s[i]? ≠ some (some t)) ∧ Api.setInPlaceFixed pg ps d i e = some (pg, false)) := by
  by_cases hex : ∃ t, s[i]? = some (some t)
  · left
    obtain ⟨t, hi⟩ := hex
    have hil : i < s.length := (List.getElem?_eq_some_iff.mp hi).1
    have hlk : lookup s i = some t := lookup_some hi
    have hle := r.le
    have hg : Fixed.getNth pg ps d i = some (some (tAddr ps h d i)) := by
      simp [Fixed.getNth, Fixed.existsTuple, r.tupleCount, offBits_eq r.base, r.getBit hi,
        offIth_eq r.base r.pos (show i ≤ cap ps h d by omega)]
      try omega
    have hd := r.data i t hi
    have hb := Fixed.Base.slot_le (d := d) r.base (show i < cap ps h d by omega)
    obtain ⟨m, ok, n, hset, hml, hnl, hw, hok, hsz⟩ := he.effect (hwf i t hi)
    have hnd : n = d.size := by
      have := hsz
      simp [tupleSize, r.fixed] at this
      omega
    have hmn : m.take n = m := by apply List.take_of_length_le; omega
    have hsl : rd pg (tAddr ps h d i) d.size = t := hd.2
    simp only [Api.setInPlaceFixed, hg, Option.bind_eq_bind, Option.bind_some, load_eq hb, hsl,
      hset, store_eq (show tAddr ps h d i + m.length ≤ pg.length by omega)]
    refine ⟨t, _, ok, m, hi, rfl, ?_, r.set_slot hi (by omega), hmn ▸ hw, hdr_wrSlot _ _ _⟩
    rw [EditEffect, if_neg (by simp [r.fixed])]
    exact ⟨m, ok, n, hset, hsz, hmn.symm, rfl⟩
  · right
    refine ⟨fun t ht => hex ⟨t, ht⟩, ?_⟩
    rcases r.getNth i with ⟨o, t, _, hi, _⟩ | ⟨hg, _⟩
    · exact absurd ⟨t, hi⟩ hex
    · simp [Api.setInPlaceFixed, hg]

theorem Rep.congr_hdr (r : Rep ps h d pg s) {pg' : Bytes} (hl : pg'.length = pg.length)
    (h0 : rd pg' 0 (vsz ps) = rd pg 0 (vsz ps))
    (h1 : ∀ o l, vsz ps + h ≤ o → rd pg' o l = rd pg o l) :
    Rep ps h d pg' s := by
  have hwd : ∀ k, word ps h pg' k = word ps h pg k := by
    intro k; unfold word; rw [h1 _ _ (wAddr_ge ps h k)]
  refine Rep.mk' r.fixed r.pos ⟨by rw [hl, r.base.len], by rw [h0, r.base.hdr], r.base.lt,
    r.base.fits⟩ ?_ ?_ r.le ?_
  · rw [hwd]; exact r.cnt
  · rw [hwd]; exact r.tomb
  · intro i x hx
    have h2 := r.at hx
    have hb : bit pg' (wAddr ps h 2) i = bit pg (wAddr ps h 2) i := by
      unfold bit
      have h3 := h1 (wAddr ps h 2 + i / 8) 1 (by have := wAddr_ge ps h 2; omega)
      have h4 := congrArg (fun l => l[0]?) h3
      simp only [rd_getElem?, Nat.add_zero, if_pos (show 0 < 1 by omega)] at h4
      rw [h4]
    have hs : slot ps h d pg' i = slot ps h d pg i := by
      unfold slot
      apply h1
      have := bits_le_tAddr (ps := ps) (h := h) (d := d) i
      have := wAddr_ge ps h 2
      omega
    rw [hb, hs]; exact h2

end Fixed
end TS
