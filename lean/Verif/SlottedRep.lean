import Verif.Words
import Verif.Placement
/-
Representation relation between the bytes of a slotted page and the logical page, and its
preservation by every slotted page operation.
-/
namespace TS
namespace Slotted

/-- The bytes `pg` represent the logical page `s` (page size `ps`, header of `h` bytes), except
that the stored number of tomb stones is `z` and the free space may end too early. -/
structure Rep0 (ps h : Nat) (d : SizeDef) (pg : Bytes) (s : Slots) (z : Nat) : Prop where
  var : d.isVar = true
  base : Base ps h (4 + s.length) pg
  occ : word ps h pg 0 = liveSum s + s.length * vsz ps
  cnt : word ps h pg 1 = s.length
  tomb : word ps h pg 2 = z
  space : wAddr ps h (4 + s.length) ≤ eofs ps h pg
  eofs_le : eofs ps h pg ≤ ps
  lay : Lay ps d pg (eofs ps h pg) (fun i => word ps h pg (4 + i)) s

/-- The free space ends at the lowest tuple (or at the end of the page if there is none). -/
def Tight (ps h : Nat) (pg : Bytes) (s : Slots) : Prop :=
  eofs ps h pg = ps ∨ ∃ i t, s[i]? = some (some t) ∧ word ps h pg (4 + i) = eofs ps h pg

/-- The bytes `pg` represent the logical page `s` (page size `ps`, header of `h` bytes). -/
structure Rep (ps h : Nat) (d : SizeDef) (pg : Bytes) (s : Slots) : Prop
    extends Rep0 ps h d pg s (tombs s) where
  tight : Tight ps h pg s

variable {ps h : Nat} {d : SizeDef} {pg : Bytes} {s : Slots} {z : Nat}

/-! ### Queries -/

theorem Rep0.tupleCount (r : Rep0 ps h d pg s z) : Slotted.tupleCount pg ps = some s.length := by
  rw [tupleCount_eq r.base (by omega), r.cnt]

theorem Rep.tombCount (r : Rep ps h d pg s) : Slotted.tombCount pg ps = some (tombs s) := by
  rw [tombCount_eq r.base (by omega), r.tomb]

/-- Free bytes between the slot array and the lowest tuple. -/
def free (ps h : Nat) (pg : Bytes) (s : Slots) : Nat :=
  eofs ps h pg - wAddr ps h (4 + s.length)

theorem Rep0.freeSpace (r : Rep0 ps h d pg s z) :
    Slotted.freeSpace pg ps = some (free ps h pg s) := by
  have := r.space
  unfold free
  rw [freeSpace_eq r.base (by omega) (by rw [r.cnt]; omega) (by rw [r.cnt]; exact this), r.cnt]

theorem Rep0.spaceOcc (r : Rep0 ps h d pg s z) :
    Slotted.spaceOcc pg ps = some (liveSum s + s.length * vsz ps) := by
  simp [Slotted.spaceOcc, offOcc_eq r.base, loadVal_word r.base (show 0 < 4 + s.length by omega),
    r.occ]

theorem Rep0.sum_le (r : Rep0 ps h d pg s z) : liveSum s ≤ ps - eofs ps h pg :=
  r.lay.sum_le r.eofs_le

theorem Rep0.wAddr_pos : 0 < wAddr ps h (4 + s.length) := by
  have := wAddr_ge ps h (4 + s.length)
  have := vsz_pos ps
  omega

theorem Rep0.off_pos (r : Rep0 ps h d pg s z) {i : Nat} {t : Bytes} (hi : s[i]? = some (some t)) :
    0 < word ps h pg (4 + i) := by
  have h1 := (r.lay.live i t hi).1
  have h2 := r.space
  have h3 := Rep0.wAddr_pos (ps := ps) (h := h) (s := s)
  omega

theorem Rep0.tupOff (r : Rep0 ps h d pg s z) {i : Nat} (hi : i < s.length) :
    Slotted.tupOff pg ps i = some (word ps h pg (4 + i)) :=
  tupOff_eq r.base (by omega) (by omega)

theorem Rep0.word_eq_zero (r : Rep0 ps h d pg s z) {i : Nat} (hi : i < s.length) :
    word ps h pg (4 + i) = 0 ↔ s[i]? = some none := by
  have hs : s[i]? = some s[i] := List.getElem?_eq_getElem hi
  constructor
  · intro h0
    cases hx : s[i] with
    | none => rw [hs, hx]
    | some t =>
      have := r.off_pos (show s[i]? = some (some t) by rw [hs, hx])
      omega
  · exact r.lay.dead i

theorem Rep0.existsTuple (r : Rep0 ps h d pg s z) (i : Nat) :
    Slotted.existsTuple pg ps i = some (lookup s i).isSome := by
  simp only [Slotted.existsTuple, r.tupleCount, Option.bind_eq_bind, Option.bind_some, lookup]
  by_cases hi : i < s.length
  · rw [if_neg (by omega), r.tupOff hi]
    have h0 := r.word_eq_zero hi
    rcases hx : s[i]? with _ | _ | t
    · rw [List.getElem?_eq_none_iff] at hx; omega
    · rw [hx] at h0; simp at h0; simp [h0]
    · rw [hx] at h0; simp at h0; simp [h0]
  · rw [if_pos (by omega)]
    simp [List.getElem?_eq_none (show s.length ≤ i by omega)]

/-- What a reader sees at index `i`: NULL or a pointer to exactly the bytes of the tuple. -/
theorem Rep0.getNth (r : Rep0 ps h d pg s z) (i : Nat) :
    (∃ o t, Slotted.getNth pg ps i = some (some o) ∧ s[i]? = some (some t) ∧
      o + t.length ≤ pg.length ∧ rd pg o t.length = t ∧
      tupleSize d (pg.drop o) = some t.length) ∨
    (Slotted.getNth pg ps i = some none ∧ ∀ t, s[i]? ≠ some (some t)) := by
  simp only [Slotted.getNth, r.tupleCount, Option.bind_eq_bind, Option.bind_some]
  by_cases hi : i < s.length
  · have hs : s[i]? = some s[i] := List.getElem?_eq_getElem hi
    rw [if_neg (by omega), r.tupOff hi]
    cases hx : s[i] with
    | none =>
      right
      have h0 := (r.word_eq_zero hi).mpr (by rw [hs, hx])
      simp [h0, hs, hx]
    | some t =>
      left
      rw [hx] at hs
      have hl := r.lay.live i t hs
      have hp := r.off_pos hs
      refine ⟨word ps h pg (4 + i), t, ?_, hs, ?_, hl.2.2.1, ?_⟩
      · simp; omega
      · rw [r.base.len]; exact hl.2.1
      · exact tupleSize_at hl.2.2.2 hl.2.2.1
  · right
    rw [if_pos (by omega)]
    simp [List.getElem?_eq_none (show s.length ≤ i by omega)]

theorem Rep0.spaceAllotted (r : Rep0 ps h d pg s z) :
    Slotted.spaceAllotted pg ps = some (ps - wAddr ps h 4) := by
  have h1 := r.base.fits
  have h2 := wAddr_mono ps h (show 4 ≤ 4 + s.length by omega)
  simp [Slotted.spaceAllotted, offOffs_eq r.base (by omega), sub32_eq (show wAddr ps h 4 ≤ ps by omega)]

/-! ### Helpers about the logical page -/

@[simp] theorem liveSum_append (a b : Slots) : liveSum (a ++ b) = liveSum a + liveSum b := by
  simp [liveSum]

@[simp] theorem liveSum_nil : liveSum [] = 0 := rfl
@[simp] theorem liveSum_cons (x : Option Bytes) (a : Slots) :
    liveSum (x :: a) = dataLen x + liveSum a := by simp [liveSum]
@[simp] theorem tombs_nil : tombs [] = 0 := rfl
@[simp] theorem tombs_append (a b : Slots) : tombs (a ++ b) = tombs a + tombs b := by
  simp [tombs]
@[simp] theorem tombs_cons_none (a : Slots) : tombs (none :: a) = tombs a + 1 := by
  simp [tombs]
@[simp] theorem tombs_cons_some (t : Bytes) (a : Slots) : tombs (some t :: a) = tombs a := by
  simp [tombs]
@[simp] theorem dataLen_none : dataLen none = 0 := rfl
@[simp] theorem dataLen_some (t : Bytes) : dataLen (some t) = t.length := rfl

theorem tombs_le (s : Slots) : tombs s ≤ s.length := List.countP_le_length

theorem liveSum_set (s : Slots) (i : Nat) (x y : Option Bytes) (hi : s[i]? = some x) :
    liveSum (s.set i y) + dataLen x = liveSum s + dataLen y := by
  induction s generalizing i with
  | nil => simp at hi
  | cons a r ih =>
    cases i with
    | zero => simp at hi; subst hi; simp; omega
    | succ i => simp at hi; have := ih i hi; simp; omega

theorem tombs_set_none (s : Slots) (i : Nat) (t : Bytes) (hi : s[i]? = some (some t)) :
    tombs (s.set i none) = tombs s + 1 := by
  induction s generalizing i with
  | nil => simp at hi
  | cons a r ih =>
    cases i with
    | zero => simp at hi; subst hi; simp
    | succ i =>
      simp at hi; have := ih i hi
      cases a <;> simp [this]

theorem tombs_set_some (s : Slots) (i : Nat) (t : Bytes) (hi : s[i]? = some none) :
    tombs (s.set i (some t)) + 1 = tombs s := by
  induction s generalizing i with
  | nil => simp at hi
  | cons a r ih =>
    cases i with
    | zero => simp at hi; subst hi; simp
    | succ i =>
      simp at hi; have := ih i hi
      cases a <;> simp [this]

theorem tombs_set_same (s : Slots) (i : Nat) (t u : Bytes) (hi : s[i]? = some (some t)) :
    tombs (s.set i (some u)) = tombs s := by
  induction s generalizing i with
  | nil => simp at hi
  | cons a r ih =>
    cases i with
    | zero => simp at hi; subst hi; simp
    | succ i =>
      simp at hi; have := ih i hi
      cases a <;> simp [this]

theorem tombs_pos (s : Slots) (i : Nat) (hi : s[i]? = some none) : 1 ≤ tombs s := by
  induction s generalizing i with
  | nil => simp at hi
  | cons a r ih =>
    cases i with
    | zero => simp at hi; subst hi; simp
    | succ i =>
      simp at hi; have := ih i hi
      cases a <;> simp; omega

theorem liveSum_get (s : Slots) (i : Nat) (x : Option Bytes) (hi : s[i]? = some x) :
    dataLen x ≤ liveSum s := by
  induction s generalizing i with
  | nil => simp at hi
  | cons a r ih =>
    cases i with
    | zero => simp at hi; subst hi; simp
    | succ i =>
      simp at hi; have := ih i hi
      simp; omega

/-! ### Initialisation -/

/-- All page metadata fits. -/
theorem init_rep {pg0 : Bytes} (hv : d.isVar = true) (hlen : pg0.length = ps)
    (hlt : ps < 4294967296) (hfit : wAddr ps h 4 ≤ ps) {m : Nat}
    (hmin : minPageSize h d 1 = some m) :
    ∃ pg ok, init pg0 ps h d = some (pg, ok) ∧
      (ok = true ↔ m ≤ ps) ∧ (ok = false → pg = pg0) ∧
      (ok = true → Rep ps h d pg [] ∧ hdrBytes ps h pg = List.replicate h 0) := by
  have hN := vsz_pos ps
  have hge := wAddr_ge ps h 4
  simp only [init, hmin, Option.bind_eq_bind, Option.bind_some]
  by_cases hm : ps < m
  · rw [if_pos hm]
    exact ⟨pg0, false, rfl, by simp; omega, by simp, by simp⟩
  rw [if_neg hm]
  have hu : u32 (vsz ps + h) = some (vsz ps + h) := u32_eq (by omega)
  have hs1 : storeVal pg0 ps 0 h = some (wr pg0 0 (leEnc (vsz ps) h)) := by
    simp [storeVal, store_eq (s := leEnc (vsz ps) h) (o := 0) (m := pg0) (by simp; omega)]
  have hl1 : (wr pg0 0 (leEnc (vsz ps) h)).length = ps := by
    rw [wr_length]; exact hlen
  have hs2 : zeroIn (wr pg0 0 (leEnc (vsz ps) h)) (vsz ps) h =
      some (wr (wr pg0 0 (leEnc (vsz ps) h)) (vsz ps) (List.replicate h 0)) := by
    unfold zeroIn; rw [store_eq]; simp; omega
  have hI : initPageHeader pg0 ps h =
      some (wr (wr pg0 0 (leEnc (vsz ps) h)) (vsz ps) (List.replicate h 0), true) := by
    simp [initPageHeader, hu, hs1, hs2, show ¬ ps < vsz ps + h by omega]
  rw [hI]
  generalize hp1 : wr (wr pg0 0 (leEnc (vsz ps) h)) (vsz ps) (List.replicate h 0) = p1
  have b1 : Base ps h 4 p1 := by
    subst hp1
    refine ⟨?_, ?_, hlt, hfit⟩
    · rw [wr_length]; exact hl1
    · rw [rd_wr_disj _ _ _ _ _ (.inl (by omega))]
      have := rd_wr_same pg0 0 (leEnc (vsz ps) h) (by simp; omega)
      rw [leEnc_length] at this
      rw [this, leDec_leEnc, Nat.mod_eq_of_lt]
      have := le_pow_vsz hlt
      omega
  have hb1 : hdrBytes ps h p1 = List.replicate h 0 := by
    subst hp1
    have := rd_wr_same (wr pg0 0 (leEnc (vsz ps) h)) (vsz ps) (List.replicate h 0)
      (by simp; omega)
    rw [List.length_replicate] at this
    exact this
  have hpow : 0 < 256 ^ vsz ps := Nat.pow_pos (by omega)
  have b2 := b1.setWord 0 0
  have b3 := b2.setWord 1 0
  have b4 := b3.setWord 2 0
  have b5 := b4.setWord 3 ps
  simp only [Option.bind_some, Bool.not_true, Bool.false_eq_true, if_false,
    offOcc_eq b1, storeVal_word b1 (show 0 < 4 by omega),
    offCount_eq b2 (by omega), storeVal_word b2 (show 1 < 4 by omega),
    offTomb_eq b3 (by omega), storeVal_word b3 (show 2 < 4 by omega),
    offEofs_eq b4 (by omega), storeVal_word b4 (show 3 < 4 by omega)]
  refine ⟨_, true, rfl, by simp; omega, by simp, fun _ => ⟨?_, ?_⟩⟩
  · have he : eofs ps h (setWord ps h (setWord ps h (setWord ps h (setWord ps h p1 0 0) 1 0) 2 0) 3 ps)
        = ps := eofs_setWord b4 (by omega) (by omega) (by omega)
    refine ⟨⟨hv, b5, ?_, ?_, ?_, ?_, ?_, ?_⟩, ?_⟩
    · rw [word_setWord_ne _ (by omega), word_setWord_ne _ (by omega),
        word_setWord_ne _ (by omega), word_setWord_eq b1 (by omega) hpow]; simp
    · rw [word_setWord_ne _ (by omega), word_setWord_ne _ (by omega),
        word_setWord_eq b2 (by omega) hpow]; simp
    · rw [word_setWord_ne _ (by omega), word_setWord_eq b3 (by omega) hpow]; simp
    · rw [he]; simpa using hfit
    · rw [he]; exact Nat.le_refl _
    · exact ⟨by simp, by simp, by simp⟩
    · left; exact he
  · simp only [hdrBytes_setWord, hb1]

end Slotted
end TS
