import Verif.Frame
import Verif.PropsExpand
/-
C74. What lies behind a tuple.
-/
namespace TS
namespace Props
open Dti

/-! ### Larger memory -/

/-- C74. What a call on an element does to some memory it does to the same bytes at the start of any
larger memory: with the same answer, and without touching the rest. (Nothing is assumed of the type or of the
bytes: this holds for damaged tuples as well, as long as the call stays within the smaller memory.) -/
theorem C74_larger (d : Dti) (m r : Bytes) (pa : List Nat) {m' : Bytes} {q : Bool} :
    (∀ v inc, d.setElem m pa v inc = some (m', q) →
      m'.length = m.length ∧ d.setElem (m ++ r) pa v inc = some (m' ++ r, q)) ∧
    (∀ i n inc, d.expandElem m pa i n inc = some (m', q) →
      m'.length = m.length ∧ d.expandElem (m ++ r) pa i n inc = some (m' ++ r, q)) ∧
    (∀ i n, d.discardElem m pa i n = some (m', q) →
      m'.length = m.length ∧ d.discardElem (m ++ r) pa i n = some (m' ++ r, q)) :=
  ⟨fun v inc h => setElem_frame d m r pa v inc _ _ h, fun i n inc h => expandElem_frame d m r pa i n inc _ _ h,
    fun i n h => discardElem_frame d m r pa i n _ _ h⟩

/-- A tuple in 41 bytes, and another with damaged offsets, in front of other bytes. -/
example : (exFinal.setElem exMem [2] (.bytes [97, 98]) 20).map Prod.snd = some true ∧
    (exFinal.setElem [3, 0, 0, 0, 9, 9, 0, 0, 0, 0, 0] [1] (.int 7) 0).map Prod.snd = some true := by
  decide +kernel

/-- C74. Reading an element, the number of elements and whether an element can be set are the same in larger
memory. A datum that points to a tuple or array points to the same bytes, followed by what lies behind. -/
theorem C74_larger_reads (d : Dti) (m r : Bytes) (pa : List Nat) :
    (d.getElem m pa = some none → d.getElem (m ++ r) pa = some none) ∧
    (∀ v, d.getElem m pa = some (some v) → d.getElem (m ++ r) pa = some (some v) ∨
      ∃ b r', v = .ptr b ∧ d.getElem (m ++ r) pa = some (some (.ptr (b ++ r')))) ∧
    (∀ n, d.elemCount m pa = some n → d.elemCount (m ++ r) pa = some n) ∧
    (∀ inc v q, d.canSetElem m inc v pa = some q → d.canSetElem (m ++ r) inc v pa = some q) := by
  refine ⟨(getElem_frame pa d m r).1, fun v h => ?_, elemCount_frame pa d m r, fun inc v => canSetElem_frame pa v d m r inc⟩
  obtain ⟨w, h1, rfl | ⟨b, r', rfl, rfl⟩⟩ := (getElem_frame pa d m r).2 v h
  · exact .inl h1
  · exact .inr ⟨b, r', rfl, h1⟩

example : exFinal.getElem exMem [1] = some (some .null) ∧ exFinal.getElem exMem [9] = some none ∧
    exFinal.getElem exMem [] = some (some (.ptr exMem)) := ⟨by decide +kernel, by decide +kernel, rfl⟩

/-! ### The memory that is needed -/

/-- The bytes that a call which may let the tuple grow by `inc` needs, for a tuple of size `S`: a tuple of
fixed size never grows, and no tuple exceeds the maximum size of its type. -/
def need (d : Dti) (S inc : Nat) : Nat := if d.isVar then max S (min (S + inc) d.hdr.maxSize) else S

theorem need_le {d : Dti} {m : Bytes} {S inc : Nat} (hS : S ≤ m.length)
    (hr : d.isVar = true → min (S + inc) d.hdr.maxSize ≤ m.length) : S ≤ need d S inc ∧ need d S inc ≤ m.length := by
  unfold need
  split
  · next h => have := hr h; omega
  · omega

theorem cut_tuple {d : Dti} {m : Bytes} {S B : Nat} (ht : IsTuple d m S) (h1 : S ≤ B) (h2 : B ≤ m.length) :
    IsTuple d (m.take B) S := by
  obtain ⟨_, val, he⟩ := ht
  refine ⟨by simp; omega, val, ?_⟩
  rwa [List.take_take, Nat.min_eq_left h1]

theorem cut_room {d : Dti} {m : Bytes} {S inc : Nat} (h2 : need d S inc ≤ m.length) :
    d.isVar = true → min (S + inc) d.hdr.maxSize ≤ (m.take (need d S inc)).length := by
  intro h
  simp only [List.length_take, need, h, if_true] at *
  omega

/-- C74. Setting an element touches no memory beyond the size of the tuple and the growth it was allowed, not even
to read it: everything is as if the memory ended there. -/
theorem C74_set_needs {d : Dti} {m : Bytes} {S inc : Nat} {pa : List Nat} {v : Datum} (ha : SetArgs d m S pa v inc) :
    need d S inc ≤ m.length ∧ ∃ c q, c.length = need d S inc ∧
      d.setElem (m.take (need d S inc)) pa v inc = some (c, q) ∧
      d.setElem m pa v inc = some (c ++ m.drop (need d S inc), q) := by
  obtain ⟨b1, b2⟩ := need_le ha.tuple.1 ha.room
  obtain ⟨l1, val, he⟩ := cut_tuple ha.tuple b1 b2
  obtain ⟨m', q, _, _, h1, _⟩ := setElem_main (inc := inc) ha.usable.ok l1 he ha.datum (cut_room b2)
  obtain ⟨h2, h3⟩ := (C74_larger d (m.take (need d S inc)) (m.drop (need d S inc)) pa).1 v inc h1
  rw [List.take_append_drop] at h3
  exact ⟨b2, m', q, by rw [h2, List.length_take]; omega, h1, h3⟩

/-- Of the 41 bytes of memory 31 matter when the string may make the tuple of 11 bytes grow by 20. -/
example : SetArgs exFinal exMem 11 [2] (.bytes [97, 98]) 20 ∧ need exFinal 11 20 = 31 ∧ exMem.length = 41 := by
  refine ⟨⟨exFinal_usable, exMem_tuple, fun t ht => ?_, by decide⟩, by decide, by decide⟩
  cases ht
  exact .inr (.inr ⟨_, rfl, by decide⟩)

/-- C74. The same when slots are added to a container within the tuple. -/
theorem C74_expand_needs {d : Dti} {m : Bytes} {S inc : Nat} {pa : List Nat} {i n : Nat} (ha : GrowArgs d m S pa n inc) :
    need d S inc ≤ m.length ∧ ∃ c q, c.length = need d S inc ∧
      d.expandElem (m.take (need d S inc)) pa i n inc = some (c, q) ∧
      d.expandElem m pa i n inc = some (c ++ m.drop (need d S inc), q) := by
  obtain ⟨b1, b2⟩ := need_le ha.tuple.1 ha.room
  have ht := cut_tuple ha.tuple b1 b2
  obtain ⟨val, he⟩ := ht.2
  have ha' : GrowArgs d (m.take (need d S inc)) S pa n inc := by
    refine ⟨ha.usable, ht, fun t k h1 h2 h3 => ha.limit t k h1 h2 ?_, cut_room b2⟩
    have := elemCount_frame pa d _ (m.drop (need d S inc)) k h3
    rwa [List.take_append_drop] at this
  obtain ⟨m', q, _, _, h1, _⟩ := expandElem_main (index := i) ha' he
  obtain ⟨h2, h3⟩ := (C74_larger d (m.take (need d S inc)) (m.drop (need d S inc)) pa).2.1 i n inc h1
  rw [List.take_append_drop] at h3
  exact ⟨b2, m', q, by rw [h2, List.length_take]; omega, h1, h3⟩

example : GrowArgs exFinal exMemArr 18 [3] 3 20 ∧ (exFinal.expandElem exMemArr [3] 1 3 20).map Prod.snd = some true :=
  ⟨exMemArr_grow, by decide +kernel⟩

/-- C74. Taking slots out of a container touches the bytes of the tuple only. -/
theorem C74_discard_needs {d : Dti} {m : Bytes} {S : Nat} {pa : List Nat} {i n : Nat} (hu : Usable d) (ht : IsTuple d m S)
    (hbits : ∀ t c, d.typeAt pa = some t → t.cont = some c → c.isBit = true → c.eltBits ≤ 64) :
    ∃ c q, c.length = S ∧ d.discardElem (m.take S) pa i n = some (c, q) ∧
      d.discardElem m pa i n = some (c ++ m.drop S, q) := by
  obtain ⟨l1, val, he⟩ := cut_tuple ht (Nat.le_refl S) ht.1
  obtain ⟨m', q, _, _, h1, _⟩ := discardElem_main (index := i) (slots := n) hu.ok l1 he hbits
  obtain ⟨h2, h3⟩ := (C74_larger d (m.take S) (m.drop S) pa).2.2 i n h1
  rw [List.take_append_drop] at h3
  exact ⟨m', q, by rw [h2, List.length_take]; have := ht.1; omega, h1, h3⟩

example : IsTuple exFinal exMemArr 18 ∧ 18 < exMemArr.length ∧ (exFinal.discardElem exMemArr [3] 0 1).map Prod.snd = some true ∧
    ∀ t c, exFinal.typeAt [3] = some t → t.cont = some c → c.isBit = false := by
  refine ⟨exMemArr_tuple, by decide, by decide +kernel, fun t c h1 h2 => ?_⟩
  cases h1; cases h2; rfl

end Props
end TS
