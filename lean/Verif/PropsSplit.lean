import Verif.PropsMove
import Verif.PropsSorted
/-
Property theorems C97: sorted pages are split and merged as the nodes of a B-tree are.
-/
namespace TS
namespace Props

open Dti

variable {ps h : Nat} {ty : Dti} {d0 sd : SizeDef} {pg pg' qg qg' : Bytes} {s s' q es : Slots} {ks : List (List Nat × Int)}

theorem lookup_append (a b : Slots) (i : Nat) : lookup (a ++ b) i = if i < a.length then lookup a i else lookup b (i - a.length) := by
  unfold lookup
  split
  · rw [List.getElem?_append_left (by assumption)]
  · rw [List.getElem?_append_right (by omega)]

theorem lookup_lt {i : Nat} {t : Bytes} (h : lookup s i = some t) : i < s.length :=
  (List.getElem?_eq_some_iff.mp (lookup_eq_some.mp h)).1

theorem lookup_take (s : Slots) (k i : Nat) : lookup (s.take k) i = if i < k then lookup s i else none := by
  unfold lookup
  rw [List.getElem?_take]
  split <;> rfl

theorem lookup_drop (s : Slots) (k i : Nat) : lookup (s.drop k) i = lookup s (k + i) := by
  unfold lookup
  rw [List.getElem?_drop]

/-- Tuples appended in order to a sorted page keep it sorted. -/
theorem sorted_appends (l : Legal ps h sd) (hu : Usable ty) (hsd : sizeDefOf d0 ty = some sd) (ht : AllTyped ty es) :
    ∀ {qg : Bytes} {q : Slots}, SortedReach ps h ty sd ks qg q → SortedPage ty ks (q ++ es) → (hd : ∀ p ∈ ks, p.2 = 1 ∨ p.2 = -1) →
      run ps sd qg (es.map Op.append) = some (qg', List.replicate es.length 1) → SortedReach ps h ty sd ks qg' (q ++ es) := by
  induction es with
  | nil =>
    intro qg q hq _ _ hr
    cases hr
    simpa using hq
  | cons e es ih =>
    intro qg q hq hs hd hr
    have hte : TypedOp h ty (.append e) := by
      intro t he
      subst he
      exact ht 0 t rfl
    obtain ⟨-, -, hall⟩ := C53_typed_pages l hu hsd (C92_history l hu hsd hd hq).1
    obtain ⟨p1, r, s1, h1, h2, h3⟩ := hall (.append e) hte
    simp only [List.map_cons, run, h1, Option.bind_eq_bind, Option.bind_some, List.length_cons, List.replicate_succ] at hr
    cases hr2 : run ps sd p1 (es.map Op.append) with
    | none => rw [hr2] at hr; cases hr
    | some z =>
      obtain ⟨p2, rs⟩ := z
      rw [hr2] at hr
      simp only [Option.bind_some, Option.pure_def, Option.some.injEq, Prod.mk.injEq, List.cons.injEq] at hr
      obtain ⟨rfl, rfl, rfl⟩ := hr
      have hk : KeepsOrder ty ks q (.append e) := by
        cases e with
        | none => trivial
        | some t =>
          refine ⟨fun j a hj ha _ => hs j q.length a t hj ?_ ?_, fun j a hj ha _ => absurd (lookup_lt ha) (by omega)⟩
          · rw [lookup_append, if_pos hj]; exact ha
          · rw [lookup_append, if_neg (by omega), Nat.sub_self]; rfl
      rcases h2 with ⟨-, rfl⟩ | ⟨h0, -⟩
      · have h4 := SortedReach.step hq hte hk h1 (.inl ⟨rfl, rfl⟩)
        have := ih (fun i t hi => ht (i + 1) t hi) h4 (by simpa using hs) hd hr2
        simpa using this
      · cases h0

/-- Discarding the slots from `k` on, one after the other. -/
theorem sorted_discards (l : Legal ps h sd) (hu : Usable ty) (hsd : sizeDefOf d0 ty = some sd) (hd : ∀ p ∈ ks, p.2 = 1 ∨ p.2 = -1)
    {k : Nat} : ∀ (n : Nat) {pg : Bytes} {s : Slots}, SortedReach ps h ty sd ks pg s → s.length = k + n →
      ∃ pg', run ps sd pg (List.replicate n (Op.discard k)) = some (pg', List.replicate n 1) ∧
        SortedReach ps h ty sd ks pg' (s.take k) := by
  intro n
  induction n with
  | zero => intro pg s hr hn; exact ⟨pg, rfl, by rw [List.take_of_length_le (by omega)]; exact hr⟩
  | succ n ih =>
    intro pg s hr hn
    obtain ⟨-, -, hall⟩ := C53_typed_pages l hu hsd (C92_history l hu hsd hd hr).1
    obtain ⟨p1, r, s1, h1, h2, h3⟩ := hall (.discard k) trivial
    rcases h2 with ⟨rfl, h5, rfl⟩ | ⟨-, h5, -⟩
    · have h4 := SortedReach.step (op := .discard k) hr trivial trivial h1 (.inl ⟨rfl, h5, rfl⟩)
      obtain ⟨p2, g1, g2⟩ := ih h4 (by rw [List.length_eraseIdx_of_lt h5]; omega)
      refine ⟨p2, by simp [List.replicate_succ, run, h1, g1], ?_⟩
      have e : (s.eraseIdx k).take k = s.take k := by
        rw [List.eraseIdx_eq_take_drop_succ, List.take_append_of_le_length (by simp; omega), List.take_take, Nat.min_self]
      rwa [e] at g2
    · omega

/-- C97. A sorted page is split at any index: its slots from there on can all be appended to a fresh page and then all be discarded from
the old one. Both pages are sorted, together they hold what the page held, and no tuple of the old page is above one of the new page. -/
theorem C97_split (l : Legal ps h sd) (hu : Usable ty) (hsd : sizeDefOf d0 ty = some sd) (hd : ∀ p ∈ ks, p.2 = 1 ∨ p.2 = -1)
    (hr : SortedReach ps h ty sd ks pg s) {k : Nat} (hk : k ≤ s.length) {b0 b1 : Bytes} (hb : b0.length = ps)
    (hi : Api.initPage b0 ps h sd = some (b1, true)) :
    ∃ pg2 b2, run ps sd b1 ((s.drop k).map Op.append) = some (b2, List.replicate (s.length - k) 1) ∧
      run ps sd pg (List.replicate (s.length - k) (Op.discard k)) = some (pg2, List.replicate (s.length - k) 1) ∧
      SortedReach ps h ty sd ks pg2 (s.take k) ∧ SortedReach ps h ty sd ks b2 (s.drop k) ∧
      Observe ps sd pg2 (s.take k) ∧ Observe ps sd b2 (s.drop k) ∧
      ∀ i j a b, Api.readNth pg2 ps sd i = some (some a) → Api.readNth b2 ps sd j = some (some b) → NotAbove ty ks a b := by
  obtain ⟨h1, h2⟩ := C92_history l hu hsd hd hr
  obtain ⟨r1, r2⟩ := h1.reach l hu hsd
  obtain ⟨b2, g1, -, -, -⟩ := C88_rebuild l r1 (.refl _) (List.drop_sublist k s) hb hi
  have hdr : SortedPage ty ks (s.drop k) := by
    intro i j a b hij ha hb
    rw [lookup_drop] at ha hb
    exact h2 _ _ a b (by omega) ha hb
  have g2 := sorted_appends l hu hsd (es := s.drop k) (fun i t hi => by rw [lookup_drop] at hi; exact r2 _ t hi)
    (SortedReach.init hb hi) hdr hd g1
  obtain ⟨pg2, g3, g4⟩ := sorted_discards l hu hsd hd (k := k) (s.length - k) hr (by omega)
  have o1 := (C53_typed_pages l hu hsd (C92_history l hu hsd hd g4).1).2.1
  have o2 := (C53_typed_pages l hu hsd (C92_history l hu hsd hd g2).1).2.1
  refine ⟨pg2, b2, by simpa using g1, g3, g4, g2, o1, o2, fun i j a b ha hb => ?_⟩
  rw [o1.read i, Option.some.injEq, lookup_take] at ha
  rw [List.nil_append] at o2
  rw [o2.read j, Option.some.injEq, lookup_drop] at hb
  split at ha
  · exact h2 i (k + j) a b (by omega) ha hb
  · cases ha

/-- C97. Two sorted pages are merged by appending the slots of one to the other. If all appends succeed (C88 says when), the page is sorted
exactly if the last tuple that was there before is not above the first one appended, NULLs left aside. -/
theorem C97_merge (l : Legal ps h sd) (hu : Usable ty) (hsd : sizeDefOf d0 ty = some sd) (hd : ∀ p ∈ ks, p.2 = 1 ∨ p.2 = -1)
    (hp : SortedReach ps h ty sd ks pg s) (hq : SortedReach ps h ty sd ks qg q)
    (hr : run ps sd qg (s.map Op.append) = some (qg', List.replicate s.length 1)) :
    Observe ps sd qg' (q ++ s) ∧
    (SortedPage ty ks (q ++ s) ↔ ∀ i j a b, lookup q i = some a → (∀ k, i < k → lookup q k = none) → lookup s j = some b →
      (∀ k, k < j → lookup s k = none) → NotAbove ty ks a b) ∧
    (SortedPage ty ks (q ++ s) → SortedReach ps h ty sd ks qg' (q ++ s)) := by
  obtain ⟨p1, p2⟩ := C92_history l hu hsd hd hp
  obtain ⟨q1, q2⟩ := C92_history l hu hsd hd hq
  obtain ⟨a1, a2⟩ := p1.reach l hu hsd
  obtain ⟨b1, b2⟩ := q1.reach l hu hsd
  refine ⟨?_, ⟨fun hs i j a b ha _ hb _ => ?_, fun hx => ?_⟩, fun hs => sorted_appends l hu hsd a2 hq hs hd hr⟩
  · obtain ⟨g', rs, e1, e2, e3, e4⟩ := append_all l b1 (es := s) (a1.rep l.fit).wf
    rw [hr] at e1
    cases e1
    exact C03_C04_observe l (e4 rfl)
  · refine hs i (q.length + j) a b (by have := lookup_lt ha; omega) ?_ ?_
    · rw [lookup_append, if_pos (lookup_lt ha)]; exact ha
    · rw [lookup_append, if_neg (by omega), Nat.add_sub_cancel_left]; exact hb
  · intro i j a b hij ha hb
    rw [lookup_append] at ha hb
    split at ha <;> split at hb
    · exact q2 i j a b hij ha hb
    · rename_i hi hj
      obtain ⟨i', a', i1, i2, i3, i4⟩ := nearest_below hi ha
      obtain ⟨j', b', -, j2, j3, j4⟩ := nearest_above (Nat.zero_le _) hb
      have hmid : NotAbove ty ks a' b' := hx i' j' a' b' i3 (fun k hk => by
        by_cases hkl : k < q.length
        · exact i4 k hk hkl
        · cases hlk : lookup q k with
          | none => rfl
          | some _ => exact absurd (lookup_lt hlk) hkl) j3 (fun k hk => j4 k (Nat.zero_le _) hk)
      have h1 : NotAbove ty ks a b' := by
        rcases Nat.eq_or_lt_of_le i1 with rfl | hlt
        · rw [ha] at i3; cases i3; exact hmid
        · exact (q2 i i' a a' hlt ha i3).trans hu hd (b2 _ _ ha) (b2 _ _ i3) (a2 _ _ j3) hmid
      rcases Nat.eq_or_lt_of_le j2 with rfl | hlt
      · rw [hb] at j3; cases j3; exact h1
      · exact h1.trans hu hd (b2 _ _ ha) (a2 _ _ j3) (a2 _ _ hb) (p2 j' _ b' b hlt j3 hb)
    · omega
    · exact p2 _ _ a b (by omega) ha hb

theorem NotAbove.or (hu : Usable ty) (hd : ∀ p ∈ ks, p.2 = 1 ∨ p.2 = -1) {a b : Bytes} (ha : Typed ty a) (hb : Typed ty b) :
    NotAbove ty ks a b ∨ NotAbove ty ks b a := by
  obtain ⟨r, -, h1, h2⟩ := (C92_order hu hd).total a b ⟨_, ha⟩ ⟨_, hb⟩
  by_cases hr : r ≤ 0
  · exact .inl ⟨r, h1, hr⟩
  · exact .inr ⟨-r, h2, by omega⟩

/-- On a sorted page there is a place for every tuple. -/
theorem place (hu : Usable ty) (hd : ∀ p ∈ ks, p.2 = 1 ∨ p.2 = -1) (hs : SortedPage ty ks s) (ht : AllTyped ty s) {t : Bytes}
    (htt : Typed ty t) : ∃ i, i ≤ s.length ∧ Between ty ks s i i t := by
  obtain ⟨c, c1, c2, -⟩ := cut (n := s.length) (fun i => ∃ a, lookup s i = some a)
    (fun i => ∃ a, lookup s i = some a ∧ NotAbove ty ks a t) (fun i ⟨a, ha⟩ => lookup_lt ha)
    (fun i j ⟨a, ha⟩ _ hij ⟨b, hb, hn⟩ => ⟨a, ha, (hs i j a b hij ha hb).trans hu hd (ht _ _ ha) (ht _ _ hb) htt hn⟩)
  refine ⟨c, c1, fun j a hj ha _ => ?_, fun j a hj ha _ => ?_⟩
  · obtain ⟨b, hb, hn⟩ := (c2 j ⟨a, ha⟩).mpr hj
    rw [ha] at hb; cases hb
    exact hn
  · rcases NotAbove.or hu hd (ht _ _ ha) htt with hn | hn
    · have := (c2 j ⟨a, ha⟩).mp ⟨a, ha, hn⟩
      omega
    · exact hn

/-- C97. The first tuple of the new page serves as the separator: a tuple that is not above it has its place on the old page, and is above
none of the new page; a tuple that it is not above has its place on the new page, and none of the old page is above it. One of the two is
always the case. -/
theorem C97_separator (l : Legal ps h sd) (hu : Usable ty) (hsd : sizeDefOf d0 ty = some sd) (hd : ∀ p ∈ ks, p.2 = 1 ∨ p.2 = -1)
    (hr : SortedReach ps h ty sd ks pg s) {k j : Nat} {sep t : Bytes} (hj : lookup (s.drop k) j = some sep)
    (hf : ∀ i, i < j → lookup (s.drop k) i = none) (ht : Typed ty t) :
    (NotAbove ty ks t sep ∨ NotAbove ty ks sep t) ∧
    (NotAbove ty ks t sep → (∃ i, i ≤ (s.take k).length ∧ Between ty ks (s.take k) i i t) ∧
      ∀ i b, lookup (s.drop k) i = some b → NotAbove ty ks t b) ∧
    (NotAbove ty ks sep t → (∃ i, i ≤ (s.drop k).length ∧ Between ty ks (s.drop k) i i t) ∧
      ∀ i a, lookup (s.take k) i = some a → NotAbove ty ks a t) := by
  obtain ⟨h1, h2⟩ := C92_history l hu hsd hd hr
  obtain ⟨-, r2⟩ := h1.reach l hu hsd
  have td : AllTyped ty (s.drop k) := fun i t hi => by rw [lookup_drop] at hi; exact r2 _ t hi
  have tt : AllTyped ty (s.take k) := fun i t hi => by
    rw [lookup_take] at hi
    split at hi
    · exact r2 _ t hi
    · cases hi
  have sd' : SortedPage ty ks (s.drop k) := by
    intro i j a b hij ha hb
    rw [lookup_drop] at ha hb
    exact h2 _ _ a b (by omega) ha hb
  have st : SortedPage ty ks (s.take k) := by
    intro i j a b hij ha hb
    rw [lookup_take] at ha hb
    split at ha
    · split at hb
      · exact h2 _ _ a b hij ha hb
      · cases hb
    · cases ha
  refine ⟨NotAbove.or hu hd ht (td _ _ hj), fun hn => ⟨place hu hd st tt ht, fun i b hb => ?_⟩,
    fun hn => ⟨place hu hd sd' td ht, fun i a ha => ?_⟩⟩
  · rcases Nat.lt_trichotomy i j with hlt | rfl | hgt
    · rw [hf i hlt] at hb; cases hb
    · rw [hj] at hb; cases hb; exact hn
    · exact hn.trans hu hd ht (td _ _ hj) (td _ _ hb) (sd' j i sep b hgt hj hb)
  · have hs' : NotAbove ty ks a sep := by
      rw [lookup_take] at ha
      split at ha
      · rw [lookup_drop] at hj
        exact h2 i (k + j) a sep (by omega) ha hj
      · cases ha
    exact hs'.trans hu hd (tt _ _ ha) (td _ _ hj) ht hn

/-! ### examples -/

/-- A page of two tuples is split between them and put together again. -/
def exRight : Bytes := ((Api.append exSort0 128 exSd (some exThree)).getD ([], false)).1
def exLeftPart : Bytes := ((Api.discard exSort2 128 exSd 1).getD ([], false)).1

example : Legal 128 4 exSd ∧ Usable exFinal ∧ sizeDefOf ⟨false, 0, 0, false, false, false, false, 0⟩ exFinal = some exSd ∧
    (∀ p ∈ exKeys, p.2 = 1 ∨ p.2 = -1) ∧ SortedReach 128 4 exFinal exSd exKeys exSort2 [some exSeven, some exThree] ∧
    (List.replicate 128 85 : Bytes).length = 128 ∧ Api.initPage (List.replicate 128 85) 128 4 exSd = some (exSort0, true) ∧
    run 128 exSd exSort0 (([some exSeven, some exThree].drop 1).map Op.append) = some (exRight, [1]) ∧
    run 128 exSd exSort2 [Op.discard 1] = some (exLeftPart, [1]) ∧
    lookup ([some exSeven, some exThree].drop 1) 0 = some exThree ∧ Typed exFinal exSeven ∧ NotAbove exFinal exKeys exSeven exThree :=
  ⟨exPage_legal, exFinal_usable, exSd_of, by decide, exSort2_reach, by simp, by decide +kernel, by decide +kernel, by decide +kernel, rfl,
    exSeven_typed, -1, by decide +kernel, by decide⟩

/-- The two halves are merged in their order, and the other way round, which succeeds too but is not sorted. -/
example : ∃ pg2 b2, SortedReach 128 4 exFinal exSd exKeys pg2 [some exSeven] ∧ SortedReach 128 4 exFinal exSd exKeys b2 [some exThree] ∧
    (∃ qg', run 128 exSd pg2 ([some exThree].map Op.append) = some (qg', List.replicate 1 1)) ∧
    (∃ qg', run 128 exSd b2 ([some exSeven].map Op.append) = some (qg', List.replicate 1 1)) ∧
    NotAbove exFinal exKeys exSeven exThree ∧ ¬ NotAbove exFinal exKeys exThree exSeven := by
  obtain ⟨pg2, b2, h1, h2, h3, h4, -⟩ := C97_split exPage_legal exFinal_usable exSd_of (ks := exKeys) (by decide) exSort2_reach (k := 1)
    (by decide) (b0 := List.replicate 128 85) (b1 := exSort0) (by simp) (by decide +kernel)
  have e1 : run 128 exSd exSort0 (([some exSeven, some exThree].drop 1).map Op.append) = some (exRight, [1]) := by decide +kernel
  have e2 : run 128 exSd exSort2 [Op.discard 1] = some (exLeftPart, [1]) := by decide +kernel
  rw [show [some exSeven, some exThree].length - 1 = 1 from rfl] at h2
  rw [e1] at h1
  rw [show List.replicate 1 (Op.discard 1) = [Op.discard 1] from rfl, e2] at h2
  have e1' := (Prod.mk.inj (Option.some.inj h1)).1
  have e2' := (Prod.mk.inj (Option.some.inj h2)).1
  subst e1' e2'
  refine ⟨_, _, h3, h4, ⟨((Api.append exLeftPart 128 exSd (some exThree)).getD ([], false)).1, by decide +kernel⟩,
    ⟨((Api.append exRight 128 exSd (some exSeven)).getD ([], false)).1, by decide +kernel⟩, ⟨-1, by decide +kernel, by decide⟩, ?_⟩
  rintro ⟨r, e, k⟩
  have : compareTuples2 exThree exSeven exFinal exKeys = some 1 := by decide +kernel
  rw [this] at e; cases e; omega

end Props
end TS
