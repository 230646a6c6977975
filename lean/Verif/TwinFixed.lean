import Verif.TwinOps
/-
Two pages of the fixed array layout whose header, counts and bitmap are the same: the page operations answer alike
on both and leave pages whose header, counts and bitmap are again the same.
-/
namespace TS

/-- Both calls fail, or both succeed with related results. -/
def Like {α β : Type} (R : α → β → Prop) : Option α → Option β → Prop
  | some x, some y => R x y
  | none, none => True
  | _, _ => False

theorem Like.bind {α β γ δ : Type} {R : α → β → Prop} {S : γ → δ → Prop} {x : Option α} {y : Option β} {f : α → Option γ} {g : β → Option δ}
    (h : Like R x y) (hf : ∀ u v, R u v → Like S (f u) (g v)) : Like S (x.bind f) (y.bind g) := by
  cases x <;> cases y <;> simp_all [Like]

theorem Like.same {α : Type} (x : Option α) : Like Eq x x := by cases x <;> simp [Like]

theorem Like.bindEq {α γ δ : Type} {S : γ → δ → Prop} (x : Option α) {f : α → Option γ} {g : α → Option δ}
    (hf : ∀ u, Like S (f u) (g u)) : Like S (x.bind f) (x.bind g) := by
  cases x <;> simp_all [Like]

namespace Fixed

/-- Header, counts and bitmap are the same. -/
structure Pf (ps h : Nat) (d : SizeDef) (a b : Bytes) : Prop where
  base : Base ps h 2 a
  len : b.length = ps
  ag : ∀ i, i < tAddr ps h d 0 → a[i]? = b[i]?

variable {ps h : Nat} {d : SizeDef} {a b : Bytes} {s : Slots}

theorem tAddr0_ge : wAddr ps h 2 ≤ tAddr ps h d 0 := by unfold tAddr; omega

theorem Pf.rd (t : Pf ps h d a b) {o l : Nat} (ho : o + l ≤ tAddr ps h d 0) : rd b o l = rd a o l := by
  refine List.ext_getElem? (fun i => ?_)
  rw [rd_getElem?, rd_getElem?]
  split
  · exact (t.ag _ (by omega)).symm
  · rfl

theorem Pf.baseB (t : Pf ps h d a b) : Base ps h 2 b := by
  have := wAddr_ge ps h 2
  have := tAddr0_ge (ps := ps) (h := h) (d := d)
  exact ⟨t.len, by rw [t.rd (by omega)]; exact t.base.hdr, t.base.lt, t.base.fits⟩

theorem Pf.word (t : Pf ps h d a b) {k : Nat} (hk : k < 2) : word ps h b k = word ps h a k := by
  have := wAddr_mono ps h (show k + 1 ≤ 2 from hk)
  have h2 := wAddr_succ ps h k
  have := tAddr0_ge (ps := ps) (h := h) (d := d)
  unfold TS.word
  rw [t.rd (by omega)]

theorem Pf.baseWr (t : Pf ps h d a b) {o : Nat} (ho : vsz ps ≤ o) (x : Bytes) : Base ps h 2 (wr a o x) := by
  refine ⟨by rw [wr_length, t.base.len], ?_, t.base.lt, t.base.fits⟩
  rw [rd_wr_disj _ _ _ _ _ (.inl (by omega))]; exact t.base.hdr

/-- Both pages get the same bytes. -/
theorem Pf.wr (t : Pf ps h d a b) {o : Nat} (ho : vsz ps ≤ o) (x : Bytes) : Pf ps h d (wr a o x) (wr b o x) := by
  refine ⟨t.baseWr ho x, by rw [wr_length, t.len], fun i hi => ?_⟩
  rw [wr_getElem?, wr_getElem?, t.ag i hi, t.base.len, t.len]

/-- Writing behind the bitmap. -/
theorem Pf.wr2 (t : Pf ps h d a b) {o p : Nat} (ho : tAddr ps h d 0 ≤ o) (hp : tAddr ps h d 0 ≤ p) (x y : Bytes) :
    Pf ps h d (TS.wr a o x) (TS.wr b p y) := by
  have := wAddr_ge ps h 2
  have := tAddr0_ge (ps := ps) (h := h) (d := d)
  refine ⟨t.baseWr (by omega) x, by rw [wr_length, t.len], fun i hi => ?_⟩
  rw [wr_getElem?, wr_getElem?, if_neg (by omega), if_neg (by omega), t.ag i hi]

theorem Pf.setWord (t : Pf ps h d a b) (k v : Nat) : Pf ps h d (setWord ps h a k v) (setWord ps h b k v) :=
  t.wr (by have := wAddr_ge ps h k; omega) _

theorem Pf.store (t : Pf ps h d a b) {o : Nat} (ho : tAddr ps h d 0 ≤ o) {x y : Bytes} (hxy : x.length = y.length) :
    Like (Pf ps h d) (store a o x) (store b o y) := by
  unfold TS.store
  rw [t.base.len, t.len, hxy]
  split
  · exact t.wr2 ho ho x y
  · trivial

theorem Pf.load (t : Pf ps h d a b) (o l : Nat) : Like (fun x y : Bytes => x.length = y.length) (load a o l) (load b o l) := by
  unfold TS.load
  rw [t.base.len, t.len]
  split
  · show (TS.rd a o l).length = (TS.rd b o l).length
    rw [rd_length _ _ _ (by rw [t.base.len]; omega), rd_length _ _ _ (by rw [t.len]; omega)]
  · trivial

theorem Pf.getBit (t : Pf ps h d a b) {i : Nat} (hi : i < cap ps h d) : getBit b (wAddr ps h 2) i = getBit a (wAddr ps h 2) i := by
  have := bit_in (ps := ps) (h := h) hi
  unfold TS.getBit
  rw [t.ag _ (by omega)]

theorem Pf.putBit (t : Pf ps h d a b) {i : Nat} (hi : i < cap ps h d) (v : Bool) :
    Like (Pf ps h d) (putBit a (wAddr ps h 2) i v) (putBit b (wAddr ps h 2) i v) := by
  have h1 := bit_in (ps := ps) (h := h) hi
  have h2 := wAddr_ge ps h 2
  have hl : ∀ x : Bytes, x.length = 1 → Like (Pf ps h d) (TS.store a (wAddr ps h 2 + i / 8) x) (TS.store b (wAddr ps h 2 + i / 8) x) := by
    intro x hx
    unfold TS.store
    rw [t.base.len, t.len]
    split
    · exact t.wr (by omega) x
    · trivial
  unfold TS.putBit TS.setBit TS.resetBit
  rw [← t.ag _ (show wAddr ps h 2 + i / 8 < tAddr ps h d 0 by omega)]
  split
  · exact Like.bindEq _ fun u => hl _ rfl
  · exact Like.bindEq _ fun u => hl _ rfl

theorem Pf.moveIn (t : Pf ps h d a b) {o : Nat} (ho : tAddr ps h d 0 ≤ o) (p l : Nat) : Like (Pf ps h d) (moveIn a o p l) (moveIn b o p l) :=
  (t.load p l).bind fun _ _ hxy => t.store ho hxy

theorem Pf.rotRight (t : Pf ps h d a b) {o : Nat} (ho : tAddr ps h d 0 ≤ o) (l r : Nat) :
    Like (Pf ps h d) (rotRight a o l r) (rotRight b o l r) := by
  refine (t.load o l).bind fun x y hxy => ?_
  split
  · exact t.store ho (by simp [hxy])
  · trivial

theorem Pf.swapIn (t : Pf ps h d a b) {o p : Nat} (ho : tAddr ps h d 0 ≤ o) (hp : tAddr ps h d 0 ≤ p) (l : Nat) :
    Like (Pf ps h d) (swapIn a o p l) (swapIn b o p l) := by
  refine (t.load o l).bind fun x y hxy => (t.load p l).bind fun u v huv => ?_
  exact (t.store ho huv).bind fun _ _ q => q.store hp hxy

/-- The two pages represent the same logical page, with the same header, counts and bitmap. -/
structure FTwin (ps h : Nat) (d : SizeDef) (a b : Bytes) (s : Slots) : Prop where
  ra : Rep ps h d a s
  rb : Rep ps h d b s
  pf : Pf ps h d a b

/-- Same answer, and the same header, counts and bitmap. -/
def PB (ps h : Nat) (d : SizeDef) {α : Type} (x y : Bytes × α) : Prop := Pf ps h d x.1 y.1 ∧ x.2 = y.2

theorem FTwin.append (t : FTwin ps h d a b s) (ext : Option Bytes) :
    Like (PB ps h d) (Fixed.append a ps d ext) (Fixed.append b ps d ext) := by
  obtain ⟨ra, rb, w⟩ := t
  obtain ⟨p1, p2, -⟩ := ra.pow_facts
  simp only [Fixed.append, ra.canAppend, rb.canAppend, Option.bind_eq_bind, Option.bind_some]
  by_cases hc : s.length < cap ps h d
  · rw [if_neg (by simp [hc]), if_neg (by simp [hc])]
    have w1 := w.setWord 0 (s.length + 1)
    have w1t := wAddr_ge ps h 2
    simp only [offCount_eq w.base, offCount_eq w.baseB, Option.bind_some, loadVal_word w.base (show 0 < 2 by omega),
      loadVal_word w.baseB (show 0 < 2 by omega), ra.cnt, rb.cnt, u32_eq (show s.length + 1 < 4294967296 by omega),
      storeVal_word w.base (show 0 < 2 by omega), storeVal_word w.baseB (show 0 < 2 by omega), Nat.add_sub_cancel,
      offBits_eq w1.base, offBits_eq w1.baseB]
    cases ext with
    | none =>
      refine Like.bind (w1.putBit hc false) fun u v q => ?_
      simp only [offTomb_eq q.base, offTomb_eq q.baseB, Option.bind_some, loadVal_word q.base (show 1 < 2 by omega),
        loadVal_word q.baseB (show 1 < 2 by omega), q.word (show 1 < 2 by omega), storeVal_word q.base (show 1 < 2 by omega),
        storeVal_word q.baseB (show 1 < 2 by omega)]
      exact Like.bindEq _ fun z => ⟨q.setWord 1 z, rfl⟩
    | some x =>
      refine Like.bind (w1.putBit hc true) fun u v q => ?_
      simp only [offIth_eq q.base ra.pos (Nat.le_of_lt hc), offIth_eq q.baseB ra.pos (Nat.le_of_lt hc), Option.bind_some]
      refine Like.bindEq _ fun y => ?_
      exact Like.bind (q.store (tAddr_mono (Nat.zero_le _)) rfl) fun u v q => ⟨q, rfl⟩
  · rw [if_pos (by simp; omega), if_pos (by simp; omega)]
    exact ⟨w, rfl⟩

theorem Pf.rotBits (hpos : 1 ≤ d.size) {idx : Nat} : ∀ (k : Nat) {a b : Bytes}, Pf ps h d a b → idx + k < cap ps h d →
    Like (Pf ps h d) (rotBitsLoop (wAddr ps h 2) idx k a) (rotBitsLoop (wAddr ps h 2) idx k b)
  | 0, _, _, w, _ => w
  | k + 1, a, b, w, hk => by
    simp only [rotBitsLoop, Option.bind_eq_bind, w.getBit (show idx + k + 1 - 1 < cap ps h d by omega)]
    exact Like.bindEq _ fun v => (w.putBit (by omega) v).bind fun _ _ q => Pf.rotBits hpos k q (by omega)

theorem FTwin.insert (t : FTwin ps h d a b s) (i : Nat) {ext : Option Bytes} (hw : ExtOk d ext) :
    Like (PB ps h d) (Fixed.insert a ps d i ext) (Fixed.insert b ps d i ext) := by
  have hap := t.append ext
  obtain ⟨ra, rb, w⟩ := t
  simp only [Fixed.insert, ra.tupleCount, rb.tupleCount, Option.bind_eq_bind, Option.bind_some]
  by_cases hi : i > s.length
  · rw [if_pos hi, if_pos hi]; exact ⟨w, rfl⟩
  · rw [if_neg hi, if_neg hi]
    by_cases hc : s.length < cap ps h d
    · obtain ⟨a', h1, h2, -⟩ := (ra.append hw).1 hc
      obtain ⟨b', k1, k2, -⟩ := (rb.append hw).1 hc
      rw [h1, k1] at hap
      have q : Pf ps h d a' b' := hap.1
      simp only [h1, k1, Option.bind_some, Bool.not_true, Bool.false_eq_true, if_false, h2.tupleCount, k2.tupleCount, List.length_append,
        List.length_singleton, sub32_eq (show 1 ≤ s.length + 1 by omega), Nat.add_sub_cancel, sub32_eq (show i ≤ s.length + 1 by omega),
        offBits_eq q.base, offBits_eq q.baseB, q.getBit hc]
      by_cases hil : i = s.length
      · rw [if_pos hil, if_pos hil]; exact ⟨q, rfl⟩
      · rw [if_neg hil, if_neg hil]
        refine Like.bindEq _ fun v => ?_
        refine (Pf.rotBits ra.pos (s.length - i) q (by omega)).bind fun _ _ q => ?_
        refine (q.putBit (by omega) v).bind fun _ _ q => ?_
        refine Like.bindEq _ fun l => ?_
        simp only [offIth_eq q.base ra.pos (show i ≤ cap ps h d by omega), offIth_eq q.baseB ra.pos (show i ≤ cap ps h d by omega), Option.bind_some]
        exact (q.rotRight (tAddr_mono (Nat.zero_le _)) _ _).bind fun _ _ q => ⟨q, rfl⟩
    · rw [(ra.append hw).2 hc, (rb.append hw).2 hc]
      exact ⟨w, rfl⟩

theorem FTwin.updateDiscard (t : FTwin ps h d a b s) {i : Nat} (hi : i < s.length) :
    Like (Pf ps h d) (Fixed.updateDiscard a ps i) (Fixed.updateDiscard b ps i) := by
  obtain ⟨ra, rb, w⟩ := t
  have hle := ra.le
  simp only [Fixed.updateDiscard, offBits_eq w.base, offBits_eq w.baseB, Option.bind_eq_bind, Option.bind_some, w.getBit (show i < cap ps h d by omega)]
  refine Like.bindEq _ fun v => ?_
  cases v with
  | false => exact w
  | true =>
    refine Like.bind (w.putBit (by omega) false) fun u v q => ?_
    simp only [offTomb_eq q.base, offTomb_eq q.baseB, Option.bind_some, loadVal_word q.base (show 1 < 2 by omega),
      loadVal_word q.baseB (show 1 < 2 by omega), q.word (show 1 < 2 by omega), storeVal_word q.base (show 1 < 2 by omega),
      storeVal_word q.baseB (show 1 < 2 by omega)]
    exact Like.bindEq _ fun z => q.setWord 1 z

theorem Pf.updatePlace (w : Pf ps h d a b) (hpos : 1 ≤ d.size) {i : Nat} (hi : i < cap ps h d) (x : Bytes) :
    Like (Pf ps h d) (Fixed.updatePlace a ps d i x) (Fixed.updatePlace b ps d i x) := by
  simp only [Fixed.updatePlace, offBits_eq w.base, offBits_eq w.baseB, Option.bind_eq_bind, Option.bind_some]
  refine Like.bind (w.putBit hi true) fun u v q => ?_
  simp only [offTomb_eq q.base, offTomb_eq q.baseB, Option.bind_some, loadVal_word q.base (show 1 < 2 by omega),
    loadVal_word q.baseB (show 1 < 2 by omega), q.word (show 1 < 2 by omega), storeVal_word q.base (show 1 < 2 by omega),
    storeVal_word q.baseB (show 1 < 2 by omega)]
  refine Like.bindEq _ fun z => ?_
  have q1 := q.setWord 1 z
  simp only [offIth_eq q1.base hpos (Nat.le_of_lt hi), offIth_eq q1.baseB hpos (Nat.le_of_lt hi), Option.bind_some]
  exact Like.bindEq _ fun y => q1.store (tAddr_mono (Nat.zero_le _)) rfl

theorem FTwin.update (t : FTwin ps h d a b s) (i : Nat) (ext : Option Bytes) :
    Like (PB ps h d) (Fixed.update a ps d i ext) (Fixed.update b ps d i ext) := by
  simp only [Fixed.update, t.ra.canUpdate, t.rb.canUpdate, Option.bind_eq_bind, Option.bind_some]
  have hle := t.ra.le
  by_cases hi : i < s.length
  · rw [if_neg (by simp [hi]), if_neg (by simp [hi])]
    refine (t.updateDiscard hi).bind fun _ _ q => ?_
    cases ext with
    | none => exact ⟨q, rfl⟩
    | some x => exact (q.updatePlace t.ra.pos (by omega) x).bind fun _ _ q => ⟨q, rfl⟩
  · rw [if_pos (by simp; omega), if_pos (by simp; omega)]
    exact ⟨t.pf, rfl⟩

theorem Pf.discardLoop (hpos : 1 ≤ d.size) : ∀ (k i : Nat) {a b : Bytes}, Pf ps h d a b → 1 ≤ i → i + k ≤ cap ps h d →
    Like (Pf ps h d) (discardLoop ps d (wAddr ps h 2) k i a) (discardLoop ps d (wAddr ps h 2) k i b)
  | 0, _, _, _, w, _, _ => w
  | k + 1, i, a, b, w, h1, hk => by
    simp only [Fixed.discardLoop, Option.bind_eq_bind, w.getBit (show i < cap ps h d by omega)]
    refine Like.bindEq _ fun v => ?_
    refine Like.bind (R := Pf ps h d) ?_ fun _ _ q => Pf.discardLoop hpos k (i + 1) q (by omega) (by omega)
    cases v with
    | false => exact w.putBit (by omega) false
    | true =>
      refine Like.bind (w.putBit (by omega) true) fun u v q => ?_
      simp only [offIth_eq q.base hpos (show i - 1 ≤ cap ps h d by omega), offIth_eq q.baseB hpos (show i - 1 ≤ cap ps h d by omega),
        offIth_eq q.base hpos (show i ≤ cap ps h d by omega), offIth_eq q.baseB hpos (show i ≤ cap ps h d by omega), Option.bind_some]
      exact q.moveIn (tAddr_mono (Nat.zero_le _)) _ _

theorem FTwin.discard (t : FTwin ps h d a b s) (i : Nat) :
    Like (PB ps h d) (Fixed.discard a ps d i) (Fixed.discard b ps d i) := by
  obtain ⟨ra, rb, w⟩ := t
  have hle := ra.le
  simp only [Fixed.discard, ra.tupleCount, rb.tupleCount, Option.bind_eq_bind, Option.bind_some]
  by_cases hi : i ≥ s.length
  · rw [if_pos hi, if_pos hi]; exact ⟨w, rfl⟩
  · rw [if_neg hi, if_neg hi]
    simp only [offCount_eq w.base, offCount_eq w.baseB, Option.bind_some, loadVal_word w.base (show 0 < 2 by omega),
      loadVal_word w.baseB (show 0 < 2 by omega), ra.cnt, rb.cnt, offBits_eq w.base, offBits_eq w.baseB, w.getBit (show i < cap ps h d by omega)]
    refine Like.bindEq _ fun v => ?_
    refine (Pf.discardLoop ra.pos (s.length - (i + 1)) (i + 1) w (by omega) (by omega)).bind fun _ _ q => ?_
    refine Like.bindEq _ fun n => ?_
    have q1 := q.setWord 0 n
    simp only [offCount_eq q.base, offCount_eq q.baseB, Option.bind_some, storeVal_word q.base (show 0 < 2 by omega),
      storeVal_word q.baseB (show 0 < 2 by omega)]
    cases v with
    | true => exact ⟨q1, rfl⟩
    | false =>
      simp only [Bool.false_eq_true, if_false, offTomb_eq q1.base, offTomb_eq q1.baseB, Option.bind_some, loadVal_word q1.base (show 1 < 2 by omega),
        loadVal_word q1.baseB (show 1 < 2 by omega), q1.word (show 1 < 2 by omega), storeVal_word q1.base (show 1 < 2 by omega),
        storeVal_word q1.baseB (show 1 < 2 by omega)]
      exact Like.bindEq _ fun z => ⟨q1.setWord 1 z, rfl⟩

theorem Pf.trailLoop (w : Pf ps h d a b) : ∀ (n z k : Nat), n ≤ cap ps h d →
    trailLoop b (wAddr ps h 2) n z k = trailLoop a (wAddr ps h 2) n z k
  | 0, _, _, _ => rfl
  | n + 1, z, k, hn => by
    simp only [Fixed.trailLoop, w.getBit (show n < cap ps h d by omega)]
    congr 1; funext v
    split
    · rfl
    · congr 1; funext z
      exact w.trailLoop n z (k + 1) (by omega)

theorem FTwin.discardTrailing (t : FTwin ps h d a b s) :
    Like (PB ps h d) (Fixed.discardTrailing a ps) (Fixed.discardTrailing b ps) := by
  obtain ⟨ra, rb, w⟩ := t
  have hle := ra.le
  simp only [Fixed.discardTrailing, offCount_eq w.base, offCount_eq w.baseB, Option.bind_eq_bind, Option.bind_some, loadVal_word w.base (show 0 < 2 by omega),
    loadVal_word w.baseB (show 0 < 2 by omega), loadVal_word w.base (show 1 < 2 by omega), loadVal_word w.baseB (show 1 < 2 by omega), ra.cnt, rb.cnt,
    offTomb_eq w.base, offTomb_eq w.baseB, ra.tomb, rb.tomb, offBits_eq w.base, offBits_eq w.baseB, w.trailLoop _ _ _ hle]
  refine Like.bindEq _ fun x => ?_
  obtain ⟨n, z, k⟩ := x
  have q := w.setWord 0 n
  simp only [Option.bind_some, storeVal_word w.base (show 0 < 2 by omega), storeVal_word w.baseB (show 0 < 2 by omega),
    offTomb_eq q.base, offTomb_eq q.baseB, storeVal_word q.base (show 1 < 2 by omega), storeVal_word q.baseB (show 1 < 2 by omega)]
  exact ⟨q.setWord 1 z, rfl⟩

theorem FTwin.discardAll (t : FTwin ps h d a b s) : Like (Pf ps h d) (Fixed.discardAll a ps) (Fixed.discardAll b ps) := by
  obtain ⟨ra, rb, w⟩ := t
  have q := w.setWord 0 0
  simp only [Fixed.discardAll, offCount_eq w.base, offCount_eq w.baseB, Option.bind_eq_bind, Option.bind_some,
    storeVal_word w.base (show 0 < 2 by omega), storeVal_word w.baseB (show 0 < 2 by omega),
    offTomb_eq q.base, offTomb_eq q.baseB, storeVal_word q.base (show 1 < 2 by omega), storeVal_word q.baseB (show 1 < 2 by omega)]
  exact q.setWord 1 0

theorem FTwin.swap (t : FTwin ps h d a b s) (i j : Nat) : Like (PB ps h d) (Fixed.swap a ps d i j) (Fixed.swap b ps d i j) := by
  obtain ⟨ra, rb, w⟩ := t
  have hle := ra.le
  simp only [Fixed.swap, ra.tupleCount, rb.tupleCount, Option.bind_eq_bind, Option.bind_some]
  by_cases hc : i ≥ s.length ∨ j ≥ s.length
  · rw [if_pos hc, if_pos hc]; exact ⟨w, rfl⟩
  · rw [if_neg hc, if_neg hc]
    by_cases hij : i = j
    · rw [if_pos hij, if_pos hij]; exact ⟨w, rfl⟩
    · rw [if_neg hij, if_neg hij]
      simp only [offBits_eq w.base, offBits_eq w.baseB, Option.bind_some, w.getBit (show i < cap ps h d by omega), w.getBit (show j < cap ps h d by omega)]
      refine Like.bindEq _ fun u => Like.bindEq _ fun v => ?_
      split
      · exact ⟨w, rfl⟩
      · refine (w.putBit (by omega) u).bind fun _ _ q => (q.putBit (by omega) v).bind fun _ _ q => ?_
        simp only [offIth_eq q.base ra.pos (show i ≤ cap ps h d by omega), offIth_eq q.baseB ra.pos (show i ≤ cap ps h d by omega),
          offIth_eq q.base ra.pos (show j ≤ cap ps h d by omega), offIth_eq q.baseB ra.pos (show j ≤ cap ps h d by omega), Option.bind_some]
        exact (q.swapIn (tAddr_mono (Nat.zero_le _)) (tAddr_mono (Nat.zero_le _)) _).bind fun _ _ q => ⟨q, rfl⟩

theorem FTwin.zeroOut (t : FTwin ps h d a b s) : Like (PB ps h d) (Fixed.zeroOut a ps d) (Fixed.zeroOut b ps d) := by
  obtain ⟨ra, rb, w⟩ := t
  simp only [Fixed.zeroOut, ra.freeSpace, rb.freeSpace, ra.startFree, rb.startFree, Option.bind_eq_bind, Option.bind_some]
  split
  · exact ⟨w, rfl⟩
  · refine Like.bindEq _ fun n => ?_
    exact (w.store (tAddr_mono (Nat.zero_le _)) rfl).bind fun _ _ q => ⟨q, rfl⟩

theorem FTwin.setInPlace (t : FTwin ps h d a b s) (i : Nat) (e : Api.Edit) :
    Like (PB ps h d) (Api.setInPlaceFixed a ps d i e) (Api.setInPlaceFixed b ps d i e) := by
  obtain ⟨ra, rb, w⟩ := t
  have hle := ra.le
  simp only [Api.setInPlaceFixed, Fixed.getNth, ra.tupleCount, rb.tupleCount, Option.bind_eq_bind, Option.bind_some]
  by_cases hi : i ≥ s.length
  · rw [if_pos hi, if_pos hi]; exact ⟨w, rfl⟩
  · rw [if_neg hi, if_neg hi]
    have hs : s[i]? = some s[i] := List.getElem?_eq_getElem (by omega)
    have hil := Base.bit_lt (d := d) ra.base (show i < cap ps h d by omega)
    have hil2 := Base.bit_lt (d := d) rb.base (show i < cap ps h d by omega)
    simp only [offBits_eq w.base, offBits_eq w.baseB, Option.bind_some, getBit_eq hil, getBit_eq hil2, ra.bits i _ hs, rb.bits i _ hs]
    cases hx : s[i] with
    | none => exact ⟨w, rfl⟩
    | some x =>
      rw [hx] at hs
      obtain ⟨hl, hd⟩ := ra.data i x hs
      obtain ⟨-, hd2⟩ := rb.data i x hs
      have ht : tAddr ps h d i + d.size ≤ ps := by
        rw [← tAddr_succ]
        exact Nat.le_trans (tAddr_mono (by omega)) (tAddr_cap ra.base.fits)
      unfold slot at hd hd2
      simp only [Option.isSome_some, Bool.not_true, Bool.false_eq_true, if_false, offIth_eq w.base ra.pos (show i ≤ cap ps h d by omega),
        offIth_eq w.baseB ra.pos (show i ≤ cap ps h d by omega), Option.bind_some, Option.pure_def,
        load_eq (show tAddr ps h d i + d.size ≤ a.length by rw [w.base.len]; exact ht),
        load_eq (show tAddr ps h d i + d.size ≤ b.length by rw [w.len]; exact ht), hd, hd2]
      refine Like.bindEq _ fun y => ?_
      exact (w.store (tAddr_mono (Nat.zero_le _)) rfl).bind fun _ _ q => ⟨q, rfl⟩

end Fixed
end TS
