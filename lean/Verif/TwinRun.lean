import Verif.TwinFixed
import Verif.ApiRep
/-
Two pages made by the same calls in different memory: initialisation, single calls and histories.
-/
namespace TS

variable {ps h : Nat} {d : SizeDef} {a b : Bytes} {s : Slots}

/-- Both pages represent `s`. In the slotted layout they differ only in free space; in the fixed array layout their
headers, counts and bitmaps are the same. -/
def PTwin (ps h : Nat) (d : SizeDef) (a b : Bytes) (s : Slots) : Prop :=
  Slotted.Twin ps h d a b s ∨ (Fixed.FTwin ps h d a b s ∧ AllWF d s)

theorem Slotted.Twin.writeHeader (t : Slotted.Twin ps h d a b s) {off : Nat} {bs : Bytes} (ho : off + bs.length ≤ h) :
    ∃ a' b', Api.writeHeader a ps off bs = some a' ∧ Api.writeHeader b ps off bs = some b' ∧ Slotted.Twin ps h d a' b' s := by
  obtain ⟨r, w⟩ := t
  have hge := wAddr_ge ps h (4 + s.length)
  have hf := w.base.fits
  have e1 : rd (wr a (vsz ps + off) bs) 0 (vsz ps) = rd a 0 (vsz ps) := rd_wr_disj _ _ _ _ _ (by omega)
  have e2 : ∀ o l, vsz ps + h ≤ o → rd (wr a (vsz ps + off) bs) o l = rd a o l := fun o l hol => rd_wr_disj _ _ _ _ _ (by omega)
  have hr := r.congr_hdr (pg' := wr a (vsz ps + off) bs) (by simp) e1 e2
  refine ⟨_, _, store_eq (by rw [w.base.len]; omega), store_eq (by rw [w.len]; omega), hr.1, ?_⟩
  rw [show Slotted.eofs ps h (wr a (vsz ps + off) bs) = Slotted.eofs ps h a by unfold Slotted.eofs; rw [hr.2]]
  exact w.wr (by omega) bs

theorem Slotted.Twin.step (t : Slotted.Twin ps h d a b s) {op : Op} (ho : OpOk h d op) :
    ∃ a' b' n s', TS.step ps d a op = some (a', n) ∧ TS.step ps d b op = some (b', n) ∧ SpecStep d s op n s' ∧
      Slotted.Twin ps h d a' b' s' ∧ (op = .zeroOut → a' = b') := by
  have hv := slotted_var t.1
  cases op with
  | append ext =>
    rcases t.append ho with ⟨a', b', h1, h2, h3⟩ | ⟨a', b', h1, h2, h3⟩
    · exact ⟨a', b', 1, _, by simp [TS.step, Api.append, hv, h1], by simp [TS.step, Api.append, hv, h2], .inl ⟨rfl, rfl⟩, h3, by simp⟩
    · exact ⟨a', b', 0, _, by simp [TS.step, Api.append, hv, h1], by simp [TS.step, Api.append, hv, h2], .inr ⟨rfl, rfl⟩, h3, by simp⟩
  | insert i ext =>
    rcases t.insert (i := i) ho with ⟨a', b', h1, h2, h3⟩ | ⟨a', b', h1, h2, h3⟩
    · have hi : i ≤ s.length := by
        rcases Nat.lt_or_ge s.length i with hi | hi
        · rw [(t.1.insert ho).2 (by omega)] at h1; cases h1
        · exact hi
      exact ⟨a', b', 1, _, by simp [TS.step, Api.insert, hv, h1], by simp [TS.step, Api.insert, hv, h2], .inl ⟨rfl, hi, rfl⟩, h3, by simp⟩
    · exact ⟨a', b', 0, _, by simp [TS.step, Api.insert, hv, h1], by simp [TS.step, Api.insert, hv, h2], .inr ⟨rfl, rfl⟩, h3, by simp⟩
  | update i ext =>
    rcases t.update (i := i) ho with ⟨hi, a', b', h1, h2, h3⟩ | ⟨a', b', h1, h2, h3⟩
    · exact ⟨a', b', 1, _, by simp [TS.step, Api.update, hv, h1], by simp [TS.step, Api.update, hv, h2], .inl ⟨rfl, hi, rfl⟩, h3, by simp⟩
    · exact ⟨a', b', 0, _, by simp [TS.step, Api.update, hv, h1], by simp [TS.step, Api.update, hv, h2], .inr ⟨rfl, rfl⟩, h3, by simp⟩
  | discard i =>
    by_cases hi : i < s.length
    · rcases t.discard i with ⟨a', b', h1, h2, h3⟩ | ⟨a', b', h1, h2, h3⟩
      · exact ⟨a', b', 1, _, by simp [TS.step, Api.discard, hv, h1], by simp [TS.step, Api.discard, hv, h2], .inl ⟨rfl, hi, rfl⟩, h3, by simp⟩
      · obtain ⟨_, k1, _⟩ := (t.1.discard i).1 hi
        rw [h1] at k1; cases k1
    · have r2 := t.1.twin t.2
      exact ⟨a, b, 0, s, by simp [TS.step, Api.discard, hv, (t.1.discard i).2 hi], by simp [TS.step, Api.discard, hv, (r2.discard i).2 hi],
        .inr ⟨rfl, by omega, rfl⟩, t, by simp⟩
  | discardAll =>
    obtain ⟨a', b', h1, h2, h3⟩ := t.discardAll
    exact ⟨a', b', 0, _, by simp [TS.step, Api.discardAll, hv, h1], by simp [TS.step, Api.discardAll, hv, h2], ⟨rfl, rfl⟩, h3, by simp⟩
  | discardTrailing =>
    obtain ⟨a', b', h1, h2, h3⟩ := t.discardTrailing
    exact ⟨a', b', _, _, by simp [TS.step, Api.discardTrailing, hv, h1], by simp [TS.step, Api.discardTrailing, hv, h2], ⟨rfl, rfl⟩, h3, by simp⟩
  | swap i j =>
    by_cases hi : i < s.length ∧ j < s.length
    · rcases t.swap i j with ⟨a', b', h1, h2, h3⟩ | ⟨a', b', h1, h2, h3⟩
      · exact ⟨a', b', 1, _, by simp [TS.step, Api.swap, hv, h1], by simp [TS.step, Api.swap, hv, h2], .inl ⟨rfl, hi.1, hi.2, rfl⟩, h3, by simp⟩
      · obtain ⟨_, k1, _⟩ := (t.1.swap i j).1 hi
        rw [h1] at k1; cases k1
    · have r2 := t.1.twin t.2
      exact ⟨a, b, 0, s, by simp [TS.step, Api.swap, hv, (t.1.swap i j).2 hi], by simp [TS.step, Api.swap, hv, (r2.swap i j).2 hi],
        .inr ⟨rfl, by omega, rfl⟩, t, by simp⟩
  | compact mem =>
    cases mem with
    | true =>
      obtain ⟨v, a', b', h1, h2, h3⟩ := t.compact
      exact ⟨a', b', v.toNat, s, by simp [TS.step, Api.compact, hv, h1], by simp [TS.step, Api.compact, hv, h2],
        ⟨by cases v <;> simp, by simp, rfl⟩, h3, by simp⟩
    | false =>
      exact ⟨a, b, 0, s, by simp [TS.step, Api.compact, hv, t.1.tupleCount], by simp [TS.step, Api.compact, hv, (t.1.twin t.2).tupleCount], ⟨by simp, by simp, rfl⟩, t, by simp⟩
  | zeroOut =>
    obtain ⟨a', v, h1, h2, h3⟩ := t.zeroOut
    refine ⟨a', a', v.toNat, s, by simp [TS.step, Api.zeroOut, hv, h1], by simp [TS.step, Api.zeroOut, hv, h2],
      ⟨by cases v <;> simp, rfl⟩, ⟨h3, h3.base, h3.base.len, h3.space, fun _ _ => rfl⟩, fun _ => rfl⟩
  | setElem i e =>
    obtain ⟨v, s', ⟨a', b', h1, h2, h3⟩, h4⟩ := t.setInPlace i ho
    refine ⟨a', b', v.toNat, s', by simp [TS.step, Api.setInPlace, hv, h1], by simp [TS.step, Api.setInPlace, hv, h2], ?_, h3, by simp⟩
    rcases h4 with ⟨k1, k2, k3⟩ | h4
    · exact .inl ⟨k1, by rw [k2]; rfl, k3⟩
    · exact .inr h4
  | writeHeader off bs =>
    obtain ⟨a', b', h1, h2, h3⟩ := t.writeHeader ho
    exact ⟨a', b', 0, s, by simp [TS.step, h1], by simp [TS.step, h2], ⟨rfl, rfl⟩, h3, by simp⟩

open Fixed in
theorem Fixed.FTwin.stepLike (t : FTwin ps h d a b s) {op : Op} (ho : OpOk h d op) :
    Like (PB ps h d) (TS.step ps d a op) (TS.step ps d b op) := by
  have hv := slotted_fix t.ra
  have hb : ∀ {x y : Option (Bytes × Bool)}, Like (PB ps h d) x y →
      Like (PB ps h d) (x.bind fun p => some (p.1, p.2.toNat)) (y.bind fun p => some (p.1, p.2.toNat)) :=
    fun hx => hx.bind fun _ _ q => ⟨q.1, by rw [q.2]⟩
  have hn : ∀ {x y : Option Bytes}, Like (Pf ps h d) x y →
      Like (PB ps h d) (x.bind fun p => some (p, 0)) (y.bind fun p => some (p, 0)) :=
    fun hx => hx.bind fun _ _ q => ⟨q, rfl⟩
  cases op with
  | append ext => simpa [TS.step, Api.append, hv] using hb (t.append ext)
  | insert i ext => simpa [TS.step, Api.insert, hv] using hb (t.insert i ho)
  | update i ext => simpa [TS.step, Api.update, hv] using hb (t.update i ext)
  | discard i => simpa [TS.step, Api.discard, hv] using hb (t.discard i)
  | discardAll => simpa [TS.step, Api.discardAll, hv] using hn t.discardAll
  | discardTrailing => simpa [TS.step, Api.discardTrailing, hv] using t.discardTrailing
  | swap i j => simpa [TS.step, Api.swap, hv] using hb (t.swap i j)
  | compact m => simpa [TS.step, Api.compact, hv, Fixed.compact, Like, PB] using t.pf
  | zeroOut => simpa [TS.step, Api.zeroOut, hv] using hb t.zeroOut
  | setElem i e => simpa [TS.step, Api.setInPlace, hv] using hb (t.setInPlace i e)
  | writeHeader off bs =>
    have hl : off + bs.length ≤ h := ho
    have hf := t.pf.base.fits
    have hge := wAddr_ge ps h 2
    have : Like (Pf ps h d) (Api.writeHeader a ps off bs) (Api.writeHeader b ps off bs) := by
      unfold Api.writeHeader
      rw [store_eq (by rw [t.pf.base.len]; omega), store_eq (by rw [t.pf.len]; omega)]
      exact t.pf.wr (by omega) bs
    simpa [TS.step] using hn this

theorem PTwin.step (t : PTwin ps h d a b s) {op : Op} (ho : OpOk h d op) :
    ∃ a' b' n s', TS.step ps d a op = some (a', n) ∧ TS.step ps d b op = some (b', n) ∧ SpecStep d s op n s' ∧
      PTwin ps h d a' b' s' ∧ (op = .zeroOut → d.isVar = true → a' = b') := by
  rcases t with t | ⟨t, hw⟩
  · obtain ⟨a', b', n, s', h1, h2, h3, h4, h5⟩ := t.step ho
    exact ⟨a', b', n, s', h1, h2, h3, .inl h4, fun hz _ => h5 hz⟩
  · obtain ⟨a', n, s', h1, h2, h3, -⟩ := PRep.step (.inr ⟨t.ra, hw⟩) ho
    obtain ⟨b', m, s'', k1, k2, k3, -⟩ := PRep.step (.inr ⟨t.rb, hw⟩) ho
    have hl := t.stepLike ho
    rw [h1, k1] at hl
    obtain ⟨hp, hnm⟩ := hl
    have hnm : n = m := hnm
    subst hnm
    have hs := h2.det k2
    subst hs
    have hfix := t.ra.fixed
    rcases h3 with h3 | ⟨h3, hw'⟩
    · rw [h3.var] at hfix; cases hfix
    rcases k3 with k3 | ⟨k3, -⟩
    · rw [k3.var] at hfix; cases hfix
    exact ⟨a', b', n, s', h1, k1, h2, .inr ⟨⟨h3, k3, hp⟩, hw'⟩, fun _ hv => by rw [hv] at hfix; cases hfix⟩

theorem PTwin.run (t : PTwin ps h d a b s) {ops : List Op} (ho : ∀ op ∈ ops, OpOk h d op) :
    ∃ a' b' rs s', TS.run ps d a ops = some (a', rs) ∧ TS.run ps d b ops = some (b', rs) ∧ SpecRun d s ops rs s' ∧ PTwin ps h d a' b' s' := by
  induction ops generalizing a b s with
  | nil => exact ⟨a, b, [], s, rfl, rfl, .nil s, t⟩
  | cons op ops ih =>
    obtain ⟨a1, b1, n, s1, h1, h2, h3, h4, -⟩ := t.step (ho op (by simp))
    obtain ⟨a2, b2, rs, s2, k1, k2, k3, k4⟩ := ih h4 (fun o hm => ho o (by simp [hm]))
    exact ⟨a2, b2, n :: rs, s2, by simp [TS.run, h1, k1], by simp [TS.run, h2, k2], .cons h3 k3, k4⟩

/-! ### Initialisation -/

theorem initPageHeader_eq {K : Nat} {x : Bytes} (hlen : x.length = ps) (hlt : ps < 4294967296) (hfit : wAddr ps h K ≤ ps) :
    initPageHeader x ps h = some (wr (wr x 0 (leEnc (vsz ps) h)) (vsz ps) (List.replicate h 0), true) ∧
    Base ps h K (wr (wr x 0 (leEnc (vsz ps) h)) (vsz ps) (List.replicate h 0)) := by
  have hge := wAddr_ge ps h K
  have hI : initPageHeader x ps h =
      some (wr (wr x 0 (leEnc (vsz ps) h)) (vsz ps) (List.replicate h 0), true) := by
    have hu : u32 (vsz ps + h) = some (vsz ps + h) := u32_eq (by omega)
    have hs1 : storeVal x ps 0 h = some (wr x 0 (leEnc (vsz ps) h)) := by
      simp [storeVal, store_eq (s := leEnc (vsz ps) h) (o := 0) (m := x) (by simp; omega)]
    have hs2 : zeroIn (wr x 0 (leEnc (vsz ps) h)) (vsz ps) h =
        some (wr (wr x 0 (leEnc (vsz ps) h)) (vsz ps) (List.replicate h 0)) := by
      unfold zeroIn; rw [store_eq]; simp; omega
    simp [initPageHeader, hu, hs1, hs2, show ¬ ps < vsz ps + h by omega]
  obtain ⟨p1, h1, h2, -⟩ := Fixed.initPageHeader_spec (h := h) (K := K) hlen hlt hfit
  rw [hI] at h1
  cases h1
  exact ⟨hI, h2⟩

theorem Slotted.init_eq {x : Bytes} (hlen : x.length = ps) (hlt : ps < 4294967296) (hfit : wAddr ps h 4 ≤ ps) {m : Nat}
    (hmin : Slotted.minPageSize h d 1 = some m) (hm : m ≤ ps) :
    Slotted.init x ps h d = some (setWord ps h (setWord ps h (setWord ps h (setWord ps h
      (wr (wr x 0 (leEnc (vsz ps) h)) (vsz ps) (List.replicate h 0)) 0 0) 1 0) 2 0) 3 ps, true) := by
  obtain ⟨hI, b1⟩ := initPageHeader_eq hlen hlt hfit
  have b2 := b1.setWord 0 0
  have b3 := b2.setWord 1 0
  have b4 := b3.setWord 2 0
  simp only [Slotted.init, hmin, Option.bind_eq_bind, Option.bind_some, if_neg (show ¬ ps < m by omega), hI, Bool.not_true, Bool.false_eq_true, if_false,
    Slotted.offOcc_eq b1, storeVal_word b1 (show 0 < 4 by omega),
    Slotted.offCount_eq b2 (by omega), storeVal_word b2 (show 1 < 4 by omega),
    Slotted.offTomb_eq b3 (by omega), storeVal_word b3 (show 2 < 4 by omega),
    Slotted.offEofs_eq b4 (by omega), storeVal_word b4 (show 3 < 4 by omega)]
  rfl

theorem Fixed.init_eq {x : Bytes} (hpos : 1 ≤ d.size) (hlen : x.length = ps) (hlt : ps < 4294967296) (hfit : wAddr ps h 2 ≤ ps) {m : Nat}
    (hmin : Fixed.minPageSize h d 1 = some m) (hm : m ≤ ps) :
    Fixed.init x ps h d = some (wr (setWord ps h (setWord ps h
      (wr (wr x 0 (leEnc (vsz ps) h)) (vsz ps) (List.replicate h 0)) 0 0) 1 0) (wAddr ps h 2)
      (List.replicate (bitmapBytes (Fixed.cap ps h d)) 0), true) := by
  obtain ⟨hI, b1⟩ := initPageHeader_eq hlen hlt hfit
  have b2 := b1.setWord 0 0
  have b3 := b2.setWord 1 0
  have hz : ∀ p, p.length = ps → zeroIn p (wAddr ps h 2) (bitmapBytes (Fixed.cap ps h d)) =
      some (wr p (wAddr ps h 2) (List.replicate (bitmapBytes (Fixed.cap ps h d)) 0)) := by
    intro p hp
    unfold zeroIn
    rw [store_eq]
    have h3 := Fixed.tAddr_cap (d := d) b1.fits
    unfold Fixed.tAddr at h3
    simp; omega
  simp only [Fixed.init, hmin, Option.bind_eq_bind, Option.bind_some, if_neg (show ¬ ps < m by omega), hI, Bool.not_true, Bool.false_eq_true, if_false,
    Fixed.offCount_eq b1, storeVal_word b1 (show 0 < 2 by omega),
    Fixed.offTomb_eq b2, storeVal_word b2 (show 1 < 2 by omega),
    Fixed.offBits_eq b3, Fixed.capacity_eq b3 hpos, hz _ b3.len]
  rfl

theorem Fit.twin (f : Fit ps h d) {x y : Bytes} (hx : x.length = ps) (hy : y.length = ps) {p : Bytes}
    (hi : Api.initPage x ps h d = some (p, true)) :
    ∃ q, Api.initPage y ps h d = some (q, true) ∧ PTwin ps h d p q [] := by
  obtain ⟨p', ok, m, h1, h2, h3, -, h5⟩ := f.init hx
  obtain ⟨q, ok', m', k1, k2, k3, -, k5⟩ := f.init hy
  rw [hi] at h1; cases h1
  rw [h2] at k2; cases k2
  have hm := h3.mp rfl
  have := k3.mpr hm
  subst this
  obtain ⟨rp, -⟩ := h5 rfl
  obtain ⟨rq, -⟩ := k5 rfl
  refine ⟨q, k1, ?_⟩
  have hge := wAddr_ge ps h 0
  have hs1 := wAddr_succ ps h 0
  have hs2 := wAddr_succ ps h 1
  have hs3 := wAddr_succ ps h 2
  have hs4 := wAddr_succ ps h 3
  have hw0 : wAddr ps h 0 = vsz ps + h := by simp [wAddr]
  rcases rp with rp | ⟨rp, hw⟩
  · left
    have hv := slotted_var rp
    have hfit := f.var rp.var
    simp only [Api.initPage, hv, if_true] at hi k1
    simp only [Api.minPageSize, hv, if_true] at h2
    rw [Slotted.init_eq hx f.lt hfit h2 hm] at hi
    rw [Slotted.init_eq hy f.lt hfit h2 hm] at k1
    have he : Slotted.eofs ps h p = ps := by
      rcases rp.tight with h | ⟨i, t, h, -⟩
      · exact h
      · simp at h
    refine ⟨rp, rp.base, ?_, by rw [he]; simpa using hfit, fun i hi' => ?_⟩
    · rcases rq with rq | ⟨rq, -⟩
      · exact rq.base.len
      · exact rq.base.len
    · cases hi
      cases k1
      rw [he] at hi'
      simp only [List.length_nil, Nat.add_zero] at hi'
      simp only [setWord, wr_getElem?, wr_length, leEnc_length, List.length_replicate, hx, hy]
      by_cases hc : i < ps
      · have : i < wAddr ps h 4 := by omega
        grind
      · have e1 : x[i]? = none := List.getElem?_eq_none (by omega)
        have e2 : y[i]? = none := List.getElem?_eq_none (by omega)
        rw [e1, e2]
  · right
    refine ⟨?_, hw⟩
    have hv := slotted_fix rp
    have hfix := rp.fixed
    obtain ⟨hfit, hpos⟩ := f.fix hfix
    rcases rq with rq | ⟨rq, -⟩
    · rw [rq.var] at hfix; cases hfix
    refine ⟨rp, rq, rp.base, rq.base.len, fun i hi' => ?_⟩
    simp only [Api.initPage, hv, Bool.false_eq_true, if_false] at hi k1
    simp only [Api.minPageSize, hv, Bool.false_eq_true, if_false] at h2
    rw [Fixed.init_eq hpos hx f.lt hfit h2 hm] at hi
    rw [Fixed.init_eq hpos hy f.lt hfit h2 hm] at k1
    cases hi
    cases k1
    have hcap := Fixed.tAddr_cap (d := d) hfit
    have hmn := Fixed.tAddr_mono (ps := ps) (h := h) (d := d) (Nat.zero_le (Fixed.cap ps h d))
    unfold Fixed.tAddr at hi' hcap hmn
    simp only [setWord, wr_getElem?, wr_length, leEnc_length, List.length_replicate, hx, hy]
    grind

end TS
