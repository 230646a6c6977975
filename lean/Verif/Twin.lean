import Verif.ApiEdit
/-
Two pages that differ only in free space: the slotted page operations give the same results on both and
leave pages that again differ only in free space.
-/
namespace TS
namespace Slotted

/-- `a` and `b` agree on the first `K` metadata words (and the page header) and from `e` on. -/
structure Tw (ps h K e : Nat) (a b : Bytes) : Prop where
  base : Base ps h K a
  len : b.length = ps
  sp : wAddr ps h K ≤ e
  ag : ∀ i, i < wAddr ps h K ∨ e ≤ i → a[i]? = b[i]?

variable {ps h K e : Nat} {d : SizeDef} {a b : Bytes} {s : Slots} {z : Nat}

theorem Tw.rd_lo (t : Tw ps h K e a b) {o l : Nat} (ho : o + l ≤ wAddr ps h K) : rd b o l = rd a o l :=
  rd_ext (fun i hi => (t.ag (o + i) (.inl (by omega))).symm)

theorem Tw.drop (t : Tw ps h K e a b) {o : Nat} (ho : e ≤ o) : b.drop o = a.drop o := by
  apply List.ext_getElem?
  intro i
  rw [List.getElem?_drop, List.getElem?_drop, t.ag (o + i) (.inr (by omega))]

theorem Tw.load (t : Tw ps h K e a b) {o l : Nat} (ho : o + l ≤ wAddr ps h K ∨ e ≤ o) : load b o l = load a o l := by
  have : rd b o l = rd a o l := by
    rcases ho with ho | ho
    · exact t.rd_lo ho
    · unfold rd; rw [t.drop ho]
  unfold TS.load
  rw [t.len, t.base.len, this]

theorem Tw.baseB (t : Tw ps h K e a b) : Base ps h K b :=
  ⟨t.len, by rw [t.rd_lo (by have := wAddr_ge ps h K; omega)]; exact t.base.hdr, t.base.lt, t.base.fits⟩

theorem Tw.word (t : Tw ps h K e a b) {k : Nat} (hk : k < K) : word ps h b k = word ps h a k := by
  unfold TS.word
  rw [t.rd_lo]
  have := wAddr_mono ps h (show k + 1 ≤ K from hk)
  rw [wAddr_succ] at this; exact this

theorem Tw.eofs (t : Tw ps h K e a b) (hK : 4 ≤ K) : eofs ps h b = eofs ps h a := by
  unfold Slotted.eofs; rw [t.word (by omega)]

theorem Tw.mono (t : Tw ps h K e a b) {K' e' : Nat} (hk : K' ≤ K) (he : e ≤ e') : Tw ps h K' e' a b :=
  have hm := wAddr_mono ps h hk
  ⟨t.base.mono hk, t.len, by have := t.sp; omega, fun i hi => t.ag i (by omega)⟩

theorem Tw.wr (t : Tw ps h K e a b) {o : Nat} (ho : vsz ps ≤ o) (x : Bytes) : Tw ps h K e (wr a o x) (wr b o x) := by
  refine ⟨⟨by rw [wr_length, t.base.len], ?_, t.base.lt, t.base.fits⟩, by rw [wr_length, t.len], t.sp, fun i hi => ?_⟩
  · rw [rd_wr_disj _ _ _ _ _ (.inl (by omega))]; exact t.base.hdr
  · rw [wr_getElem?, wr_getElem?, t.ag i hi, t.base.len, t.len]

/-- Both pages get the same bytes right below those in which they agree. -/
theorem Tw.wrE (t : Tw ps h K e a b) {o : Nat} {x : Bytes} (ho : wAddr ps h K ≤ o) (h2 : e ≤ o + x.length)
    (h3 : o + x.length ≤ ps) : Tw ps h K o (TS.wr a o x) (TS.wr b o x) := by
  have hge := wAddr_ge ps h K
  have q := t.wr (o := o) (by omega) x
  refine ⟨q.base, q.len, ho, fun i hi => ?_⟩
  by_cases hc : i < wAddr ps h K ∨ e ≤ i
  · exact q.ag i hc
  · rw [wr_getElem?, wr_getElem?, t.base.len, t.len, if_pos (by omega), if_pos (by omega)]

theorem Tw.setWord (t : Tw ps h K e a b) (k v : Nat) : Tw ps h K e (setWord ps h a k v) (setWord ps h b k v) :=
  t.wr (by have := wAddr_ge ps h k; omega) _

/-- Both pages get the same next metadata word. -/
theorem Tw.setNext (t : Tw ps h K e a b) (hsp : wAddr ps h (K + 1) ≤ e) (he : e ≤ ps) (v : Nat) :
    Tw ps h (K + 1) e (TS.setWord ps h a K v) (TS.setWord ps h b K v) := by
  have q := t.setWord K v
  have hs := wAddr_succ ps h K
  refine ⟨⟨q.base.len, q.base.hdr, q.base.lt, by omega⟩, q.len, hsp, fun i hi => ?_⟩
  by_cases hc : i < wAddr ps h K ∨ e ≤ i
  · exact q.ag i hc
  · unfold TS.setWord
    rw [wr_getElem?, wr_getElem?, t.base.len, t.len, leEnc_length, if_pos (by omega), if_pos (by omega)]

theorem Tw.move (t : Tw ps h K e a b) {dst src len : Nat} (hd : vsz ps ≤ dst) (hs : src + len ≤ wAddr ps h K ∨ e ≤ src) {a' : Bytes}
    (hm : moveIn a dst src len = some a') : ∃ b', moveIn b dst src len = some b' ∧ Tw ps h K e a' b' := by
  unfold moveIn at hm ⊢
  rw [t.load hs]
  cases hl : TS.load a src len with
  | none => rw [hl] at hm; cases hm
  | some x =>
    rw [hl] at hm
    simp only [Option.bind_eq_bind, Option.bind_some, store, t.base.len, t.len] at hm ⊢
    split at hm
    · cases hm; rw [if_pos ‹_›]; exact ⟨_, rfl, t.wr hd x⟩
    · cases hm

theorem Tw.rot (t : Tw ps h K e a b) {o len r : Nat} (hd : vsz ps ≤ o) (hs : o + len ≤ wAddr ps h K) {a' : Bytes}
    (hm : rotRight a o len r = some a') : ∃ b', rotRight b o len r = some b' ∧ Tw ps h K e a' b' := by
  unfold rotRight at hm ⊢
  rw [t.load (.inl hs)]
  cases hl : TS.load a o len with
  | none => rw [hl] at hm; cases hm
  | some x =>
    rw [hl] at hm
    simp only [Option.bind_eq_bind, Option.bind_some] at hm ⊢
    split at hm
    · rw [if_pos ‹_›]
      simp only [store, t.base.len, t.len] at hm ⊢
      split at hm
      · cases hm; rw [if_pos ‹_›]; exact ⟨_, rfl, t.wr hd _⟩
      · cases hm
    · cases hm

theorem Tw.swap (t : Tw ps h K e a b) {o p len : Nat} (ho : vsz ps ≤ o) (hp : vsz ps ≤ p) (h1 : o + len ≤ wAddr ps h K)
    (h2 : p + len ≤ wAddr ps h K) : ∃ a' b', swapIn a o p len = some a' ∧ swapIn b o p len = some b' ∧ Tw ps h K e a' b' := by
  have hf := t.base.fits
  refine ⟨_, _, swapIn_spec (by rw [t.base.len]; omega) (by rw [t.base.len]; omega),
    swapIn_spec (by rw [t.len]; omega) (by rw [t.len]; omega), ?_⟩
  rw [t.rd_lo h1, t.rd_lo h2]
  exact (t.wr ho _).wr hp _

/-- `b` represents the same logical page as `a`. -/
theorem Rep.twin (r : Rep ps h d a s) (t : Tw ps h (4 + s.length) (Slotted.eofs ps h a) a b) : Rep ps h d b s := by
  have hw : ∀ k, k < 4 + s.length → TS.word ps h b k = TS.word ps h a k := fun k hk => t.word hk
  have he := t.eofs (by omega)
  have hlay : Lay ps d b (Slotted.eofs ps h b) (fun i => TS.word ps h b (4 + i)) s := by
    rw [he]
    refine r.lay.congr ?_ ?_ ?_
    · intro i hi; exact hw _ (by omega)
    · intro i u hu
      have := (r.live hu).1
      unfold rd; rw [t.drop this]
    · intro i u hu; exact (r.live hu).1
  refine ⟨⟨r.var, t.baseB, by rw [hw 0 (by omega)]; exact r.occ, by rw [hw 1 (by omega)]; exact r.cnt,
    by rw [hw 2 (by omega)]; exact r.tomb, by rw [he]; exact r.space, by rw [he]; exact r.eofs_le, hlay⟩, ?_⟩
  unfold Tight
  rw [he]
  rcases r.tight with h1 | ⟨i, u, h1, h2⟩
  · exact .inl h1
  · exact .inr ⟨i, u, h1, by rw [hw _ (by have := (r.live h1).2.2.2.2; omega)]; exact h2⟩

/-- What `append_tuple_slotted_page` leaves. -/
theorem Rep.append_none_eq (r : Rep ps h d a s) (hc : vsz ps ≤ free ps h a s) :
    Slotted.append a ps d none = some (TS.setWord ps h (TS.setWord ps h (TS.setWord ps h (TS.setWord ps h a 1 (s.length + 1)) (4 + s.length) 0)
      2 (tombs s + 1)) 0 (liveSum s + s.length * vsz ps + vsz ps), true) := by
  have hN := vsz_pos ps
  have h4lt := lt_wAddr ps h 4
  have hpow := le_pow_vsz r.base.lt
  have hocc := r.occ_lt
  have hsp := r.space
  have hel := r.eofs_le
  have hlt := r.base.lt
  have hsum := r.sum_le
  have hc' := hc
  unfold free at hc'
  have hs4 : wAddr ps h (4 + s.length) = wAddr ps h 4 + s.length * vsz ps := wAddr_add ..
  have hfit : wAddr ps h (4 + s.length + 1) ≤ Slotted.eofs ps h a := by rw [wAddr_succ]; omega
  have hnlt := lt_wAddr ps h (4 + s.length + 1)
  have b0 : Base ps h (4 + s.length + 1) a := ⟨r.base.len, r.base.hdr, r.base.lt, by omega⟩
  have ht := tombs_le s
  simp only [Slotted.append, r.canAppend (ext := none) (fun _ hx => by cases hx), Option.bind_eq_bind, Option.bind_some, dataLen_none, Nat.add_zero]
  rw [if_neg (by simp [hc])]
  simp only [offCount_eq b0 (by omega),
    Option.bind_some, loadVal_word b0 (show 1 < 4 + s.length + 1 by omega), r.cnt,
    u32_eq (show s.length + 1 < 4294967296 by omega),
    storeVal_word b0 (show 1 < 4 + s.length + 1 by omega)]
  have b1 := b0.setWord 1 (s.length + 1)
  rw [offIth_eq b1 (by omega) (show 4 + (s.length + 1 - 1) ≤ 4 + s.length + 1 by omega)]
  simp only [Nat.add_sub_cancel, Option.bind_some, storeVal_word b1 (show 4 + s.length < 4 + s.length + 1 by omega)]
  have b2 := b1.setWord (4 + s.length) 0
  simp only [offTomb_eq b2 (by omega), loadVal_word b2 (show 2 < 4 + s.length + 1 by omega),
    storeVal_word b2 (show 2 < 4 + s.length + 1 by omega), Option.bind_some]
  pgsimp (4 + s.length + 1)
  rw [r.tomb]
  have b3 := b2.setWord 2 (tombs s + 1)
  simp only [u32_eq (show tombs s + 1 < 4294967296 by omega), Option.pure_def, offOcc_eq b3,
    loadVal_word b3 (show 0 < 4 + s.length + 1 by omega),
    storeVal_word b3 (show 0 < 4 + s.length + 1 by omega), Option.bind_some, overhead]
  pgsimp (4 + s.length + 1)
  rw [r.occ, u32_eq (show liveSum s + s.length * vsz ps + vsz ps < 4294967296 by omega)]
  rfl

theorem Rep.append_some_eq (r : Rep ps h d a s) {t : Bytes} (hwf : WellFormed d t) (hc : vsz ps + t.length ≤ free ps h a s) :
    Slotted.append a ps d (some t) = some (TS.setWord ps h (TS.wr (TS.setWord ps h (TS.setWord ps h (TS.setWord ps h a 1 (s.length + 1)) 3
      (Slotted.eofs ps h a - t.length)) (4 + s.length) (Slotted.eofs ps h a - t.length)) (Slotted.eofs ps h a - t.length) t) 0
      (liveSum s + s.length * vsz ps + (vsz ps + t.length)), true) := by
  have hN := vsz_pos ps
  have h4lt := lt_wAddr ps h 4
  have hpow := le_pow_vsz r.base.lt
  have hocc := r.occ_lt
  have hsp := r.space
  have hel := r.eofs_le
  have hlt := r.base.lt
  have hsum := r.sum_le
  have hc' := hc
  unfold free at hc'
  have hs4 : wAddr ps h (4 + s.length) = wAddr ps h 4 + s.length * vsz ps := wAddr_add ..
  have hfit : wAddr ps h (4 + s.length + 1) + t.length ≤ Slotted.eofs ps h a := by rw [wAddr_succ]; omega
  have hnlt := lt_wAddr ps h (4 + s.length + 1)
  have b0 : Base ps h (4 + s.length + 1) a := ⟨r.base.len, r.base.hdr, r.base.lt, by omega⟩
  have htp := hwf.pos r.var
  have htl := hwf.lt
  have hNle := vsz_le ps
  have hw : ExtOk d (some t) := fun _ hx => by cases hx; exact hwf
  simp only [Slotted.append, r.canAppend hw, Option.bind_eq_bind, Option.bind_some, dataLen_some]
  rw [if_neg (by simp [hc])]
  simp only [offCount_eq b0 (by omega),
    Option.bind_some, loadVal_word b0 (show 1 < 4 + s.length + 1 by omega), r.cnt,
    u32_eq (show s.length + 1 < 4294967296 by omega),
    storeVal_word b0 (show 1 < 4 + s.length + 1 by omega)]
  have b1 := b0.setWord 1 (s.length + 1)
  rw [offIth_eq b1 (by omega) (show 4 + (s.length + 1 - 1) ≤ 4 + s.length + 1 by omega)]
  simp only [Nat.add_sub_cancel]
  have hw1 : TS.word ps h (TS.setWord ps h a 1 (s.length + 1)) 1 = s.length + 1 :=
    word_setWord_eq b0 (by omega) (by omega)
  have he1 : Slotted.eofs ps h (TS.setWord ps h a 1 (s.length + 1)) = Slotted.eofs ps h a :=
    eofs_setWord_ne _ (by omega) _
  have hal := allocate_eq b1 (by omega) (sz := t.length) (by rw [hw1]; omega)
    (by rw [hw1, he1]; exact hfit)
  rw [he1] at hal
  have b2 := b1.setWord 3 (Slotted.eofs ps h a - t.length)
  have b3 := b2.setWord (4 + s.length) (Slotted.eofs ps h a - t.length)
  have hlen3 : ∀ (x y c : Nat), Slotted.eofs ps h a - t.length + t.length ≤
      (TS.setWord ps h (TS.setWord ps h (TS.setWord ps h a 1 c) 3 x) (4 + s.length) y).length := by
    intro x y c; simp only [setWord_length]; rw [r.base.len]; omega
  simp only [hwf.size, Option.bind_some, overhead, hal,
    u32_eq (show vsz ps + t.length < 4294967296 by omega), load_all, Option.pure_def,
    storeVal_word b2 (show 4 + s.length < 4 + s.length + 1 by omega),
    store_eq (hlen3 _ _ _)]
  have hw04 := wAddr_mono ps h (show 0 ≤ 4 + s.length + 1 by omega)
  have b4 := b3.wr (o := Slotted.eofs ps h a - t.length) (s := t) (by omega)
  simp only [offOcc_eq b4, loadVal_word b4 (show 0 < 4 + s.length + 1 by omega),
    storeVal_word b4 (show 0 < 4 + s.length + 1 by omega), Option.bind_some]
  pgsimp (4 + s.length + 1)
  rw [r.occ]
  simp only [Option.bind_some,
    u32_eq (show liveSum s + s.length * vsz ps + (vsz ps + t.length) < 4294967296 by omega)]

/-- The page `a` represents `s`, and `b` differs from it only in free space. -/
def Twin (ps h : Nat) (d : SizeDef) (a b : Bytes) (s : Slots) : Prop :=
  Rep ps h d a s ∧ Tw ps h (4 + s.length) (Slotted.eofs ps h a) a b

theorem Twin.free (t : Twin ps h d a b s) : Slotted.free ps h b s = Slotted.free ps h a s := by
  unfold Slotted.free; rw [t.2.eofs (by omega)]

/-- Both calls answer alike, and the pages they leave differ only in free space. -/
def Alike (ps h : Nat) (d : SizeDef) {α : Type} (x y : Option (Bytes × α)) (s : Slots) (v : α) : Prop :=
  ∃ a b, x = some (a, v) ∧ y = some (b, v) ∧ Twin ps h d a b s

theorem Twin.append (t : Twin ps h d a b s) {ext : Option Bytes} (hw : ExtOk d ext) :
    Alike ps h d (Slotted.append a ps d ext) (Slotted.append b ps d ext) (s ++ [ext]) true ∨
    Alike ps h d (Slotted.append a ps d ext) (Slotted.append b ps d ext) s false := by
  obtain ⟨r, w⟩ := t
  have r2 := r.twin w
  have hf : Slotted.free ps h b s = Slotted.free ps h a s := Twin.free ⟨r, w⟩
  have he := w.eofs (by omega)
  by_cases hc : vsz ps + dataLen ext ≤ Slotted.free ps h a s
  · left
    obtain ⟨a', h1, h2, -, h4⟩ := (r.append hw).1 hc
    have hel := r.eofs_le
    have hsp := r.space
    have hc' := hc
    unfold Slotted.free at hc'
    have hs := wAddr_succ ps h (4 + s.length)
    cases ext with
    | none =>
      have e1 := r.append_none_eq (by simpa using hc)
      have e2 := r2.append_none_eq (by rw [hf]; simpa using hc)
      refine ⟨_, _, e1, e2, ?_⟩
      rw [e1] at h1
      cases h1
      refine ⟨h2, ?_⟩
      simp only [dataLen_none, Nat.sub_zero] at h4 hc'
      rw [h4, List.length_append, List.length_singleton, ← Nat.add_assoc]
      exact (((w.setWord 1 _).setNext (by omega) hel 0).setWord 2 _).setWord 0 _
    | some u =>
      have hwf := hw u rfl
      have e1 := r.append_some_eq hwf hc
      have e2 := r2.append_some_eq hwf (by rw [hf]; exact hc)
      rw [he] at e2
      refine ⟨_, _, e1, e2, ?_⟩
      rw [e1] at h1
      cases h1
      refine ⟨h2, ?_⟩
      simp only [dataLen_some] at h4 hc'
      rw [h4, List.length_append, List.length_singleton, ← Nat.add_assoc]
      exact ((((w.setWord 1 _).setWord 3 _).setNext (by omega) hel _).wrE (by omega) (by omega) (by omega)).setWord 0 _
  · right
    exact ⟨a, b, (r.append hw).2 (by omega), (r2.append hw).2 (by omega), r, w⟩

theorem Twin.insert (t : Twin ps h d a b s) {i : Nat} {ext : Option Bytes} (hw : ExtOk d ext) :
    Alike ps h d (Slotted.insert a ps d i ext) (Slotted.insert b ps d i ext) (s.take i ++ ext :: s.drop i) true ∨
    Alike ps h d (Slotted.insert a ps d i ext) (Slotted.insert b ps d i ext) s false := by
  obtain ⟨r, w⟩ := t
  have r2 := r.twin w
  have hf : Slotted.free ps h b s = Slotted.free ps h a s := Twin.free ⟨r, w⟩
  by_cases hc : i ≤ s.length ∧ vsz ps + dataLen ext ≤ Slotted.free ps h a s
  · left
    obtain ⟨a', h1, h2, -⟩ := (r.insert hw).1 hc
    rcases Twin.append ⟨r, w⟩ hw with ⟨p, q, e1, e2, rp, wp⟩ | ⟨p, q, e1, -⟩
    · have hb := wp.base
      have hb2 := wp.baseB
      rw [List.length_append, List.length_singleton] at wp hb hb2
      have key : ∃ b', Slotted.insert b ps d i ext = some (b', true) ∧ Tw ps h (4 + (s.length + 1)) (Slotted.eofs ps h p) a' b' ∧
          Slotted.eofs ps h a' = Slotted.eofs ps h p := by
        simp only [Slotted.insert, r.tupleCount, r2.tupleCount, Option.bind_eq_bind, Option.bind_some, if_neg (show ¬ i > s.length by omega),
          e1, e2, Bool.not_true, Bool.false_eq_true, if_false, rp.tupleCount, (rp.twin (by simpa using wp)).tupleCount, List.length_append, List.length_singleton,
          sub32_eq (show 1 ≤ s.length + 1 by omega), Nat.add_sub_cancel, sub32_eq (show i ≤ s.length + 1 by omega),
          offIth_eq hb (show 4 ≤ 4 + (s.length + 1) by omega) (show 4 + i ≤ 4 + (s.length + 1) by omega),
          offIth_eq hb2 (show 4 ≤ 4 + (s.length + 1) by omega) (show 4 + i ≤ 4 + (s.length + 1) by omega)] at h1 ⊢
        by_cases hil : i = s.length
        · rw [if_pos hil] at h1 ⊢
          cases h1
          exact ⟨q, rfl, wp, rfl⟩
        · rw [if_neg hil] at h1 ⊢
          obtain ⟨pg2, g1, -, -, -, g5⟩ := rotRight_words hb (k := 4 + i) (c := s.length + 1 - i) (by omega) (by omega)
          obtain ⟨q2, k1, k2⟩ := wp.rot (by have := wAddr_ge ps h (4 + i); omega)
            (by have := wAddr_add ps h (4 + i) (s.length + 1 - i); rw [← this]; exact wAddr_mono ps h (by omega)) g1
          rw [g1] at h1
          rw [k1]
          cases h1
          refine ⟨q2, rfl, k2, ?_⟩
          unfold Slotted.eofs
          rw [show TS.word ps h a' 3 = TS.word ps h p 3 by rw [g5, if_neg (by omega), if_neg (by omega)]]
      obtain ⟨b', k1, k2, k3⟩ := key
      refine ⟨a', b', h1, k1, h2, ?_⟩
      rw [k3]
      refine k2.mono ?_ (Nat.le_refl _)
      simp; omega
    · obtain ⟨p', e3, -⟩ := (r.append hw).1 hc.2
      rw [e1] at e3; cases e3
  · right
    exact ⟨a, b, (r.insert hw).2 hc, (r2.insert hw).2 (by rw [hf]; exact hc), r, w⟩

theorem Twin.swap (t : Twin ps h d a b s) (i j : Nat) :
    Alike ps h d (Slotted.swap a ps i j) (Slotted.swap b ps i j) (swapSlots s i j) true ∨
    Alike ps h d (Slotted.swap a ps i j) (Slotted.swap b ps i j) s false := by
  obtain ⟨r, w⟩ := t
  have r2 := r.twin w
  by_cases hc : i < s.length ∧ j < s.length
  · left
    obtain ⟨a', h1, h2, -⟩ := (r.swap i j).1 hc
    have hl : (swapSlots s i j).length = s.length := by unfold swapSlots; split <;> simp
    have key : ∃ b', Slotted.swap b ps i j = some (b', true) ∧ Tw ps h (4 + s.length) (Slotted.eofs ps h a) a' b' ∧
        Slotted.eofs ps h a' = Slotted.eofs ps h a := by
      simp only [Slotted.swap, r.tupleCount, r2.tupleCount, Option.bind_eq_bind, Option.bind_some, if_neg (show ¬ (i ≥ s.length ∨ j ≥ s.length) by omega),
        offIth_eq r.base (show 4 ≤ 4 + s.length by omega) (show 4 + i ≤ 4 + s.length by omega),
        offIth_eq r.base (show 4 ≤ 4 + s.length by omega) (show 4 + j ≤ 4 + s.length by omega),
        offIth_eq r2.base (show 4 ≤ 4 + s.length by omega) (show 4 + i ≤ 4 + s.length by omega),
        offIth_eq r2.base (show 4 ≤ 4 + s.length by omega) (show 4 + j ≤ 4 + s.length by omega)] at h1 ⊢
      by_cases hij : i = j
      · rw [if_pos hij] at h1 ⊢
        cases h1
        exact ⟨b, rfl, w, rfl⟩
      · rw [if_neg hij] at h1 ⊢
        obtain ⟨p, g1, -, -, -, g5⟩ := swapIn_words r.base (i := 4 + i) (j := 4 + j) (by omega) (by omega) (by omega)
        have hi' := wAddr_mono ps h (show 4 + i + 1 ≤ 4 + s.length by omega)
        have hj' := wAddr_mono ps h (show 4 + j + 1 ≤ 4 + s.length by omega)
        rw [wAddr_succ] at hi' hj'
        obtain ⟨p2, q2, k1, k2, k3⟩ := w.swap (by have := wAddr_ge ps h (4 + i); omega) (by have := wAddr_ge ps h (4 + j); omega) hi' hj'
        rw [g1] at k1 h1
        rw [k2]
        cases h1; cases k1
        refine ⟨q2, rfl, k3, ?_⟩
        unfold Slotted.eofs
        rw [show TS.word ps h a' 3 = TS.word ps h a 3 by rw [g5, if_neg (by omega), if_neg (by omega)]]
    obtain ⟨b', k1, k2, k3⟩ := key
    refine ⟨a', b', h1, k1, h2, ?_⟩
    rw [k3, hl]; exact k2
  · right
    exact ⟨a, b, (r.swap i j).2 hc, (r2.swap i j).2 hc, r, w⟩

theorem Tw.minOff (t : Tw ps h K e a b) (hK : 4 ≤ K) : ∀ (n i acc : Nat), 4 + i + n ≤ K →
    minOffLoop b ps n i acc = minOffLoop a ps n i acc
  | 0, _, _, _ => rfl
  | n + 1, i, acc, hn => by
    simp only [minOffLoop, tupOff_eq t.base hK (show 4 + i < K by omega), tupOff_eq t.baseB hK (show 4 + i < K by omega),
      t.word (show 4 + i < K by omega), Option.bind_eq_bind, Option.bind_some]
    exact t.minOff hK n (i + 1) _ (by omega)

theorem Tw.recompute (t : Tw ps h K e a b) (hK : 4 ≤ K) (hn : 4 + TS.word ps h a 1 ≤ K) :
    ∃ v, recomputeEnd a ps = some (TS.setWord ps h a 3 v) ∧ recomputeEnd b ps = some (TS.setWord ps h b 3 v) := by
  obtain ⟨m, h1, -⟩ := minOffLoop_spec t.base hK (TS.word ps h a 1) 0 ps (by omega)
  refine ⟨m, ?_, ?_⟩
  · simp only [recomputeEnd, tupleCount_eq t.base hK, h1, offEofs_eq t.base hK, storeVal_word t.base (show 3 < K by omega),
      Option.bind_eq_bind, Option.bind_some]
  · simp only [recomputeEnd, tupleCount_eq t.baseB hK, t.word (show 1 < K by omega), t.minOff hK _ _ _ (show 4 + 0 + TS.word ps h a 1 ≤ K by omega), h1,
      offEofs_eq t.baseB hK, storeVal_word t.baseB (show 3 < K by omega), Option.bind_eq_bind, Option.bind_some]

/-- The end of free space of a page is at the end of the page or at a tuple. -/
theorem Rep.eofs_ge (r : Rep ps h d a s) {x : Nat} (hx : x ≤ ps) (hl : ∀ i t, s[i]? = some (some t) → x ≤ TS.word ps h a (4 + i)) :
    x ≤ Slotted.eofs ps h a := by
  rcases r.tight with h1 | ⟨i, t, h1, h2⟩
  · omega
  · rw [← h2]; exact hl i t h1

theorem Twin.discard (t : Twin ps h d a b s) (i : Nat) :
    Alike ps h d (Slotted.discard a ps d i) (Slotted.discard b ps d i) (s.eraseIdx i) true ∨
    Alike ps h d (Slotted.discard a ps d i) (Slotted.discard b ps d i) s false := by
  obtain ⟨r, w⟩ := t
  have r2 := r.twin w
  by_cases hi : i < s.length
  · left
    obtain ⟨a', h1, h2, -, h4⟩ := (r.discard_at i).1 hi
    have hll : (s.eraseIdx i).length = s.length - 1 := List.length_eraseIdx_of_lt hi
    have hge : Slotted.eofs ps h a ≤ Slotted.eofs ps h a' := by
      refine h2.eofs_ge r.eofs_le (fun j u hj => ?_)
      have hjl := (List.getElem?_eq_some_iff.mp hj).1
      rw [h4 j (by omega)]
      rw [List.getElem?_eraseIdx] at hj
      split at hj
      · rw [if_pos ‹_›]; exact (r.live hj).1
      · rw [if_neg ‹_›]; exact (r.live hj).1
    have key : ∃ b', Slotted.discard b ps d i = some (b', true) ∧ Tw ps h (4 + s.length) (Slotted.eofs ps h a) a' b' := by
      have h4' : 4 ≤ 4 + s.length := by omega
      have hosz : (if TS.word ps h a (4 + i) = 0 then some 0 else tupleSize d (b.drop (TS.word ps h a (4 + i)))) =
          (if TS.word ps h a (4 + i) = 0 then some 0 else tupleSize d (a.drop (TS.word ps h a (4 + i)))) := by
        split
        · rfl
        · have hs : s[i]? = some s[i] := List.getElem?_eq_getElem hi
          cases hx : s[i] with
          | none => exact absurd ((r.word_eq_zero hi).mpr (by rw [hs, hx])) ‹_›
          | some u => rw [hx] at hs; rw [w.drop (r.live hs).1]
      obtain ⟨p, g1, bp, -, -, g5⟩ := moveIn_words r.base (k := 4 + i) (c := s.length - (i + 1)) (by omega)
      have hmv : wAddr ps h (4 + i + 1) + (s.length - (i + 1)) * vsz ps ≤ wAddr ps h (4 + s.length) := by
        rw [← wAddr_add]; exact wAddr_mono ps h (by omega)
      obtain ⟨q, k1, wq⟩ := w.move (by have := wAddr_ge ps h (4 + i); omega) (.inl hmv) g1
      have bq := wq.baseB
      simp only [Slotted.discard, r.tupleCount, r2.tupleCount, Option.bind_eq_bind, Option.bind_some, if_neg (show ¬ i ≥ s.length by omega),
        r.tupOff hi, r2.tupOff hi, w.word (show 4 + i < 4 + s.length by omega), Option.pure_def, hosz,
        offCount_eq r.base h4', offCount_eq r2.base h4', loadVal_word r.base (show 1 < 4 + s.length by omega),
        loadVal_word r2.base (show 1 < 4 + s.length by omega), r.cnt, r2.cnt, sub32_eq (show i + 1 ≤ s.length by omega),
        offIth_eq r.base h4' (show 4 + i ≤ 4 + s.length by omega), offIth_eq r.base h4' (show 4 + (i + 1) ≤ 4 + s.length by omega),
        offIth_eq r2.base h4' (show 4 + i ≤ 4 + s.length by omega), offIth_eq r2.base h4' (show 4 + (i + 1) ≤ 4 + s.length by omega),
        overhead, ← Nat.add_assoc, g1, k1, sub32_eq (show 1 ≤ s.length by omega), offCount_eq bp h4', offCount_eq bq h4',
        storeVal_word bp (show 1 < 4 + s.length by omega), storeVal_word bq (show 1 < 4 + s.length by omega)] at h1 ⊢
      cases hz : (if TS.word ps h a (4 + i) = 0 then some 0 else tupleSize d (a.drop (TS.word ps h a (4 + i)))) with
      | none => rw [hz] at h1; cases h1
      | some osz =>
        rw [hz] at h1
        simp only [Option.bind_some] at h1 ⊢
        have w2 := wq.setWord 1 (s.length - 1)
        -- the tomb stone count
        have hstep : ∀ p2, (if TS.word ps h a (4 + i) = 0 then
              (offTomb (TS.setWord ps h p 1 (s.length - 1)) ps).bind fun o => (loadVal (TS.setWord ps h p 1 (s.length - 1)) ps o).bind fun z =>
                (sub32 z 1).bind fun z => (offTomb (TS.setWord ps h p 1 (s.length - 1)) ps).bind fun o => storeVal (TS.setWord ps h p 1 (s.length - 1)) ps o z
            else some (TS.setWord ps h p 1 (s.length - 1))) = some p2 →
            ∃ q2, (if TS.word ps h a (4 + i) = 0 then
              (offTomb (TS.setWord ps h q 1 (s.length - 1)) ps).bind fun o => (loadVal (TS.setWord ps h q 1 (s.length - 1)) ps o).bind fun z =>
                (sub32 z 1).bind fun z => (offTomb (TS.setWord ps h q 1 (s.length - 1)) ps).bind fun o => storeVal (TS.setWord ps h q 1 (s.length - 1)) ps o z
            else some (TS.setWord ps h q 1 (s.length - 1))) = some q2 ∧ Tw ps h (4 + s.length) (Slotted.eofs ps h a) p2 q2 ∧
              TS.word ps h p2 1 = s.length - 1 := by
          intro p2 hp2
          have hpow := le_pow_vsz r.base.lt
          have hn := lt_wAddr ps h (4 + s.length)
          have hfi := r.base.fits
          have e1 : TS.word ps h (TS.setWord ps h p 1 (s.length - 1)) 1 = s.length - 1 := word_setWord_eq bp (by omega) (by omega)
          split at hp2
          · rw [if_pos ‹_›]
            simp only [offTomb_eq w2.base h4', offTomb_eq w2.baseB h4', loadVal_word w2.base (show 2 < 4 + s.length by omega),
              loadVal_word w2.baseB (show 2 < 4 + s.length by omega), w2.word (show 2 < 4 + s.length by omega), Option.bind_some,
              storeVal_word w2.base (show 2 < 4 + s.length by omega), storeVal_word w2.baseB (show 2 < 4 + s.length by omega)] at hp2 ⊢
            cases hs : sub32 (TS.word ps h (TS.setWord ps h p 1 (s.length - 1)) 2) 1 with
            | none => rw [hs] at hp2; cases hp2
            | some z =>
              rw [hs] at hp2
              cases hp2
              exact ⟨_, rfl, w2.setWord 2 z, by rw [word_setWord_ne _ (by omega), e1]⟩
          · rw [if_neg ‹_›]
            cases hp2
            exact ⟨_, rfl, w2, e1⟩
        cases hp2 : (if TS.word ps h a (4 + i) = 0 then
              (offTomb (TS.setWord ps h p 1 (s.length - 1)) ps).bind fun o => (loadVal (TS.setWord ps h p 1 (s.length - 1)) ps o).bind fun z =>
                (sub32 z 1).bind fun z => (offTomb (TS.setWord ps h p 1 (s.length - 1)) ps).bind fun o => storeVal (TS.setWord ps h p 1 (s.length - 1)) ps o z
            else some (TS.setWord ps h p 1 (s.length - 1))) with
        | none => rw [hp2] at h1; cases h1
        | some p2 =>
          obtain ⟨q2, hq2, w3, hc3⟩ := hstep p2 hp2
          rw [hp2] at h1
          rw [hq2]
          simp only [Option.bind_some, offOcc_eq w3.base, offOcc_eq w3.baseB, loadVal_word w3.base (show 0 < 4 + s.length by omega),
            loadVal_word w3.baseB (show 0 < 4 + s.length by omega), w3.word (show 0 < 4 + s.length by omega)] at h1 ⊢
          cases hs : sub32 (TS.word ps h p2 0) (osz + vsz ps) with
          | none => rw [hs] at h1; cases h1
          | some v =>
            rw [hs] at h1
            have w4 := w3.setWord 0 v
            simp only [Option.bind_some, storeVal_word w3.base (show 0 < 4 + s.length by omega), storeVal_word w3.baseB (show 0 < 4 + s.length by omega),
              endFree_eq w4.base h4', endFree_eq w4.baseB h4', w4.eofs h4'] at h1 ⊢
            split at h1
            · rw [if_pos ‹_›]
              obtain ⟨v2, u1, u2⟩ := w4.recompute h4' (by rw [word_setWord_ne _ (by omega), hc3]; omega)
              rw [u1] at h1
              rw [u2]
              cases h1
              exact ⟨_, rfl, w4.setWord 3 v2⟩
            · rw [if_neg ‹_›]
              cases h1
              exact ⟨_, rfl, w4⟩
    obtain ⟨b', k1, k2⟩ := key
    exact ⟨a', b', h1, k1, h2, k2.mono (by omega) hge⟩
  · right
    exact ⟨a, b, (r.discard i).2 hi, (r2.discard i).2 hi, r, w⟩

end Slotted
end TS
