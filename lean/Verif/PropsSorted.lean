import Verif.PropsKey
import Verif.PropsValid
/-
Pages whose tuples are sorted.
-/
namespace TS
namespace Props

open Dti

variable {ps h : Nat} {ty : Dti} {d0 sd : SizeDef} {pg pg' : Bytes} {s s' : Slots} {ks : List (List Nat × Int)}

/-- `compare_tuples2` gives at most 0. -/
def NotAbove (ty : Dti) (ks : List (List Nat × Int)) (a b : Bytes) : Prop := ∃ r, compareTuples2 a b ty ks = some r ∧ r ≤ 0

/-- The tuples of a page are in ascending order; there may be NULLs between them. -/
def SortedPage (ty : Dti) (ks : List (List Nat × Int)) (s : Slots) : Prop :=
  ∀ i j a b, i < j → lookup s i = some a → lookup s j = some b → NotAbove ty ks a b

/-- The nearest tuple below the index `lo` is not above `t`, and `t` is not above the nearest tuple from the index `hi` on, if there are such. -/
def Between (ty : Dti) (ks : List (List Nat × Int)) (s : Slots) (lo hi : Nat) (t : Bytes) : Prop :=
  (∀ j a, j < lo → lookup s j = some a → (∀ k, j < k → k < lo → lookup s k = none) → NotAbove ty ks a t) ∧
  (∀ j a, hi ≤ j → lookup s j = some a → (∀ k, hi ≤ k → k < j → lookup s k = none) → NotAbove ty ks t a)

theorem NotAbove.trans (hu : Usable ty) (hd : ∀ p ∈ ks, p.2 = 1 ∨ p.2 = -1) {a b c : Bytes} (ha : Typed ty a) (hb : Typed ty b)
    (hc : Typed ty c) (h1 : NotAbove ty ks a b) (h2 : NotAbove ty ks b c) : NotAbove ty ks a c := by
  obtain ⟨r, e1, k1⟩ := h1
  obtain ⟨q, e2, k2⟩ := h2
  obtain ⟨t, e3, k3, _⟩ := (C92_order hu hd).trans a b c r q ⟨_, ha⟩ ⟨_, hb⟩ ⟨_, hc⟩ e1 e2 k1 k2
  exact ⟨t, e3, k3⟩

theorem nearest_below {lo j : Nat} {a : Bytes} (hj : j < lo) (ha : lookup s j = some a) :
    ∃ j' a', j ≤ j' ∧ j' < lo ∧ lookup s j' = some a' ∧ ∀ k, j' < k → k < lo → lookup s k = none := by
  induction hn : lo - j using Nat.strongRecOn generalizing j a with
  | _ n ih =>
    by_cases hx : ∃ k b, j < k ∧ k < lo ∧ lookup s k = some b
    · obtain ⟨k, b, k1, k2, k3⟩ := hx
      obtain ⟨j', a', q1, q2⟩ := ih (lo - k) (by omega) k2 k3 rfl
      exact ⟨j', a', by omega, q2⟩
    · refine ⟨j, a, Nat.le_refl _, hj, ha, fun k k1 k2 => ?_⟩
      cases hl : lookup s k with
      | none => rfl
      | some b => exact absurd ⟨k, b, k1, k2, hl⟩ hx

theorem nearest_above {hi j : Nat} {a : Bytes} (hj : hi ≤ j) (ha : lookup s j = some a) :
    ∃ j' a', hi ≤ j' ∧ j' ≤ j ∧ lookup s j' = some a' ∧ ∀ k, hi ≤ k → k < j' → lookup s k = none := by
  induction j using Nat.strongRecOn generalizing a with
  | _ j ih =>
    by_cases hx : ∃ k b, hi ≤ k ∧ k < j ∧ lookup s k = some b
    · obtain ⟨k, b, k1, k2, k3⟩ := hx
      obtain ⟨j', a', q1, q2, q3⟩ := ih k k2 k1 k3
      exact ⟨j', a', q1, by omega, q3⟩
    · refine ⟨j, a, hj, Nat.le_refl _, ha, fun k k1 k2 => ?_⟩
      cases hl : lookup s k with
      | none => rfl
      | some b => exact absurd ⟨k, b, k1, k2, hl⟩ hx

theorem between_all (hu : Usable ty) (hd : ∀ p ∈ ks, p.2 = 1 ∨ p.2 = -1) (hs : SortedPage ty ks s) (ht : AllTyped ty s) {lo hi : Nat}
    {t : Bytes} (htt : Typed ty t) (hb : Between ty ks s lo hi t) :
    (∀ j a, j < lo → lookup s j = some a → NotAbove ty ks a t) ∧ (∀ j a, hi ≤ j → lookup s j = some a → NotAbove ty ks t a) := by
  constructor
  · intro j a hj ha
    obtain ⟨j', a', q1, q2, q3, q4⟩ := nearest_below hj ha
    have := hb.1 j' a' q2 q3 q4
    rcases Nat.eq_or_lt_of_le q1 with rfl | hlt
    · rw [ha] at q3; cases q3; exact this
    · exact (hs j j' a a' hlt ha q3).trans hu hd (ht _ _ ha) (ht _ _ q3) htt this
  · intro j a hj ha
    obtain ⟨j', a', q1, q2, q3, q4⟩ := nearest_above hj ha
    have := hb.2 j' a' q1 q3 q4
    rcases Nat.eq_or_lt_of_le q2 with rfl | hlt
    · rw [ha] at q3; cases q3; exact this
    · exact this.trans hu hd htt (ht _ _ q3) (ht _ _ ha) (hs j' j a' a hlt q3 ha)

theorem lookup_insert {i : Nat} (hi : i ≤ s.length) (x : Option Bytes) (k : Nat) :
    lookup (s.take i ++ x :: s.drop i) k = if k < i then lookup s k else if k = i then x else lookup s (k - 1) := by
  unfold lookup
  have hl : (s.take i).length = i := by simp; omega
  split
  · rw [List.getElem?_append_left (by omega), List.getElem?_take_of_lt (by assumption)]
  · rw [List.getElem?_append_right (by omega), hl]
    split
    · rename_i _ h; subst h; simp
    · obtain ⟨n, hn⟩ : ∃ n, k - i = n + 1 := ⟨k - i - 1, by omega⟩
      rw [hn, List.getElem?_cons_succ, List.getElem?_drop]
      have : i + n = k - 1 := by omega
      rw [this]

theorem lookup_set {i : Nat} (hi : i < s.length) (x : Option Bytes) (k : Nat) :
    lookup (s.set i x) k = if k = i then x else lookup s k := by
  unfold lookup
  rw [List.getElem?_set]
  by_cases hk : i = k
  · subst hk; simp [hi]
  · simp [hk, Ne.symm hk]

/-- A page whose tuples are some of those of a sorted page, in the same order, is sorted. -/
theorem sorted_sub (hs : SortedPage ty ks s) (f : Nat → Nat) (hf : ∀ i a, lookup s' i = some a → lookup s (f i) = some a)
    (hm : ∀ i j a b, i < j → lookup s' i = some a → lookup s' j = some b → f i < f j) : SortedPage ty ks s' :=
  fun i j a b hij ha hb => hs (f i) (f j) a b (hm i j a b hij ha hb) (hf i a ha) (hf j b hb)

theorem sorted_insert_iff (hu : Usable ty) (hd : ∀ p ∈ ks, p.2 = 1 ∨ p.2 = -1) (hs : SortedPage ty ks s) (ht : AllTyped ty s) {i : Nat}
    (hi : i ≤ s.length) {t : Bytes} (htt : Typed ty t) :
    SortedPage ty ks (s.take i ++ some t :: s.drop i) ↔ Between ty ks s i i t := by
  have hl := lookup_insert hi (some t)
  constructor
  · intro h
    constructor
    · intro j a hj ha _
      exact h j i a t hj (by rw [hl, if_pos hj]; exact ha) (by rw [hl]; simp)
    · intro j a hj ha _
      exact h i (j + 1) t a (by omega) (by rw [hl]; simp) (by rw [hl, if_neg (by omega), if_neg (by omega)]; exact ha)
  · intro hb
    obtain ⟨b1, b2⟩ := between_all hu hd hs ht htt hb
    intro p q a b hpq hp hq
    rw [hl] at hp hq
    by_cases hpi : p < i
    · rw [if_pos hpi] at hp
      by_cases hqi : q < i
      · rw [if_pos hqi] at hq
        exact hs p q a b hpq hp hq
      · rw [if_neg hqi] at hq
        by_cases hqe : q = i
        · rw [if_pos hqe] at hq
          cases hq
          exact b1 p a hpi hp
        · rw [if_neg hqe] at hq
          exact hs p (q - 1) a b (by omega) hp hq
    · rw [if_neg hpi] at hp
      rw [if_neg (by omega), if_neg (by omega)] at hq
      by_cases hpe : p = i
      · rw [if_pos hpe] at hp
        cases hp
        exact b2 (q - 1) b (by omega) hq
      · rw [if_neg hpe] at hp
        exact hs (p - 1) (q - 1) a b (by omega) hp hq

theorem sorted_set_iff (hu : Usable ty) (hd : ∀ p ∈ ks, p.2 = 1 ∨ p.2 = -1) (hs : SortedPage ty ks s) (ht : AllTyped ty s) {i : Nat}
    (hi : i < s.length) {t : Bytes} (htt : Typed ty t) :
    SortedPage ty ks (s.set i (some t)) ↔ Between ty ks s i (i + 1) t := by
  have hl := lookup_set hi (some t)
  constructor
  · intro h
    constructor
    · intro j a hj ha _
      exact h j i a t hj (by rw [hl, if_neg (by omega)]; exact ha) (by rw [hl]; simp)
    · intro j a hj ha _
      exact h i j t a (by omega) (by rw [hl]; simp) (by rw [hl, if_neg (by omega)]; exact ha)
  · intro hb
    obtain ⟨b1, b2⟩ := between_all hu hd hs ht htt hb
    intro p q a b hpq hp hq
    rw [hl] at hp hq
    by_cases hpi : p = i
    · rw [if_pos hpi] at hp
      rw [if_neg (by omega)] at hq
      cases hp
      exact b2 q b (by omega) hq
    · rw [if_neg hpi] at hp
      by_cases hqi : q = i
      · rw [if_pos hqi] at hq
        cases hq
        exact b1 p a (by omega) hp
      · rw [if_neg hqi] at hq
        exact hs p q a b hpq hp hq

/-- C92. Setting an element that has nothing to do with the positions compared changes no comparison of the tuple, on either side. -/
theorem C92_other_elements {d : Dti} {m m' : Bytes} {S inc : Nat} {v : Datum} {pa : List Nat} {q : Bool} (ha : SetArgs d m S pa v inc)
    (hset : d.setElem m pa v inc = some (m', q)) (hd : ∀ p ∈ ks, p.2 = 1 ∨ p.2 = -1)
    (hk : ∀ p ∈ ks, ¬ pa <+: p.1 ∧ ¬ p.1 <+: pa) {x : Bytes} {S' : Nat} (hx : IsTuple d x S') :
    compareTuples2 m' x d ks = compareTuples2 m x d ks ∧ compareTuples2 x m' d ks = compareTuples2 x m d ks := by
  have hd' : Dirs (ks.map (·.2)) := by
    intro y hy
    simp only [List.mem_map] at hy
    obtain ⟨p, hp, rfl⟩ := hy
    exact hd p hp
  obtain ⟨hS, val, he⟩ := ha.tuple
  obtain ⟨m2, q2, S2, val', k1, k2, k3, k4, k5, k6, k7, k8, k9⟩ := setElem_main ha.usable.ok hS he ha.datum ha.room
  rw [hset] at k1
  cases k1
  have hkey : (ks.map (·.1)).map (posVal d val) = (ks.map (·.1)).map (posVal d val') := by
    rw [List.map_map, List.map_map]
    refine List.map_congr_left fun p hp => ?_
    have : val'.at' p.1 = val.at' p.1 := by
      cases q with
      | false => rw [(k8 rfl).2]
      | true =>
        obtain ⟨g1, t', y, g2, g3, g4⟩ := k9 rfl
        rw [g4]; exact Val.at_upd_other val pa p.1 y (hk p hp).1 (hk p hp).2
    simp only [Function.comp, posVal, this]
  have h1 : KeyOf d (ks.map (·.1)) m ((ks.map (·.1)).map (posVal d val)) := ⟨S, val, hS, he, rfl⟩
  have h2 : KeyOf d (ks.map (·.1)) m' ((ks.map (·.1)).map (posVal d val)) := ⟨S2, val', by omega, k5, hkey⟩
  obtain ⟨k, h3⟩ := KeyOf.exists hx (ks.map (·.1))
  exact ⟨by rw [compare2_key ha.usable hd' h2 h3, compare2_key ha.usable hd' h1 h3],
    by rw [compare2_key ha.usable hd' h3 h2, compare2_key ha.usable hd' h3 h1]⟩

/-- Comparing the bytes of the tuple alone gives the same. -/
theorem compare2_take (hu : Usable ty) (hd : ∀ p ∈ ks, p.2 = 1 ∨ p.2 = -1) {m x : Bytes} {n S : Nat} (hm : IsTuple ty m n) (hx : IsTuple ty x S) :
    compareTuples2 (m.take n) x ty ks = compareTuples2 m x ty ks ∧ compareTuples2 x (m.take n) ty ks = compareTuples2 x m ty ks := by
  have hd' : Dirs (ks.map (·.2)) := by
    intro y hy
    simp only [List.mem_map] at hy
    obtain ⟨p, hp, rfl⟩ := hy
    exact hd p hp
  obtain ⟨hn, val, he⟩ := hm
  have h1 : KeyOf ty (ks.map (·.1)) m ((ks.map (·.1)).map (posVal ty val)) := ⟨n, val, hn, he, rfl⟩
  have h2 : KeyOf ty (ks.map (·.1)) (m.take n) ((ks.map (·.1)).map (posVal ty val)) :=
    ⟨n, val, by simp; omega, by rw [List.take_take, Nat.min_self]; exact he, rfl⟩
  obtain ⟨k, h3⟩ := KeyOf.exists hx (ks.map (·.1))
  exact ⟨by rw [compare2_key hu hd' h2 h3, compare2_key hu hd' h1 h3], by rw [compare2_key hu hd' h3 h2, compare2_key hu hd' h3 h1]⟩

/-- The calls that a user keeping a page sorted makes: tuples are put between their neighbours, elements that are updated in place are none
of those compared, and nothing is swapped. Everything else is allowed. -/
def KeepsOrder (ty : Dti) (ks : List (List Nat × Int)) (s : Slots) : Op → Prop
  | .append (some t) => Between ty ks s s.length s.length t
  | .insert i (some t) => Between ty ks s i i t
  | .update i (some t) => Between ty ks s i (i + 1) t
  | .swap i j => i = j
  | .setElem _ e => ∃ pa v, e = elemEdit ty pa v ∧ (∀ x, ty.typeAt pa = some x → Accepts x v) ∧
      ∀ p ∈ ks, ¬ pa <+: p.1 ∧ ¬ p.1 <+: pa
  | _ => True

theorem lookup_erase {i : Nat} (k : Nat) : lookup (s.eraseIdx i) k = if k < i then lookup s k else lookup s (k + 1) := by
  unfold lookup
  rw [List.getElem?_eraseIdx]
  split <;> rfl

theorem lookup_dropTrailing {k : Nat} {a : Bytes} (h : lookup (dropTrailing s) k = some a) : lookup s k = some a := by
  have := dropTrailing_append s
  rw [lookup_eq_some] at h ⊢
  rw [this, List.getElem?_append_left]
  · exact h
  · exact (List.getElem?_eq_some_iff.mp h).1

/-- C92. A page of tuples of one type that is sorted stays so with every such call, whether it succeeds or not. -/
theorem C92_page (l : Legal ps h sd) (hu : Usable ty) (hsd : sizeDefOf d0 ty = some sd) (hd : ∀ p ∈ ks, p.2 = 1 ∨ p.2 = -1)
    (hr : TReach ps h ty sd pg s) (hs : SortedPage ty ks s) {op : Op} (ho : TypedOp h ty op) (hk : KeepsOrder ty ks s op) :
    ∃ pg' r s', step ps sd pg op = some (pg', r) ∧ TReach ps h ty sd pg' s' ∧ Observe ps sd pg' s' ∧ SortedPage ty ks s' := by
  obtain ⟨ht, _, hall⟩ := C53_typed_pages l hu hsd hr
  obtain ⟨pg', r, s', h1, h2, h3⟩ := hall op ho
  refine ⟨pg', r, s', h1, h3, (C53_typed_pages l hu hsd h3).2.1, ?_⟩
  have none_ins : ∀ i, i ≤ s.length → SortedPage ty ks (s.take i ++ none :: s.drop i) := by
    intro i hi
    have hl := lookup_insert hi none
    refine sorted_sub hs (fun k => if k < i then k else k - 1) (fun k a ha => ?_) (fun p q a b hpq hp hq => ?_)
    · rw [hl] at ha
      by_cases k1 : k < i
      · simpa [k1] using ha
      · rw [if_neg k1] at ha
        by_cases k2 : k = i
        · rw [if_pos k2] at ha; cases ha
        · rw [if_neg k2] at ha; simpa [k1] using ha
    · rw [hl] at hp hq
      by_cases q1 : q = i
      · rw [if_neg (by omega), if_pos q1] at hq; cases hq
      · by_cases p1 : p = i
        · rw [if_neg (by omega), if_pos p1] at hp; cases hp
        · split <;> split <;> omega
  cases op with
  | append ext =>
    rcases h2 with ⟨_, rfl⟩ | ⟨_, rfl⟩
    · have e : s ++ [ext] = s.take s.length ++ ext :: s.drop s.length := by simp
      rw [e]
      cases ext with
      | none => exact none_ins _ (Nat.le_refl _)
      | some t => exact (sorted_insert_iff hu hd hs ht (Nat.le_refl _) (ho t rfl)).mpr hk
    · exact hs
  | insert i ext =>
    rcases h2 with ⟨_, hi, rfl⟩ | ⟨_, rfl⟩
    · cases ext with
      | none => exact none_ins _ hi
      | some t => exact (sorted_insert_iff hu hd hs ht hi (ho t rfl)).mpr hk
    · exact hs
  | update i ext =>
    rcases h2 with ⟨_, hi, rfl⟩ | ⟨_, rfl⟩
    · cases ext with
      | none =>
        refine sorted_sub hs id (fun k a ha => ?_) (fun p q a b hpq _ _ => hpq)
        rw [lookup_set hi] at ha
        by_cases hki : k = i
        · rw [if_pos hki] at ha; cases ha
        · rwa [if_neg hki] at ha
      | some t => exact (sorted_set_iff hu hd hs ht hi (ho t rfl)).mpr hk
    · exact hs
  | discard i =>
    rcases h2 with ⟨_, _, rfl⟩ | ⟨_, _, rfl⟩
    · refine sorted_sub hs (fun k => if k < i then k else k + 1) (fun k a ha => ?_) (fun p q a b hpq _ _ => ?_)
      · rw [lookup_erase] at ha
        split at ha <;> rename_i hki <;> simpa [hki] using ha
      · split <;> split <;> omega
    · exact hs
  | discardAll => rw [h2.2]; intro i j a b _ ha; simp [lookup] at ha
  | discardTrailing =>
    rw [h2.2]
    exact sorted_sub hs id (fun k a ha => lookup_dropTrailing ha) (fun p q a b hpq _ _ => hpq)
  | swap i j =>
    rcases h2 with ⟨_, hi, hj, rfl⟩ | ⟨_, _, rfl⟩
    · have : i = j := hk
      subst this
      have e : swapSlots s i i = s := by
        simp only [swapSlots, List.getElem?_eq_getElem hi, List.set_set]
        exact List.set_getElem_self hi
      rw [e]; exact hs
    · exact hs
  | compact mem => rw [h2.2.2]; exact hs
  | zeroOut => rw [h2.2]; exact hs
  | writeHeader off bs => rw [h2.2]; exact hs
  | setElem i e =>
    obtain ⟨pa, v, rfl, hv, hkp⟩ := hk
    rcases h2 with ⟨_, _, rfl⟩ | ⟨t, t', a1, a2, rfl⟩
    · exact hs
    · have hi : i < s.length := (List.getElem?_eq_some_iff.mp (lookup_eq_some.mp a1)).1
      have htt := ht i t a1
      obtain ⟨m, q, n, k1, k2, k3, k4, k5, k6, k7, k8, ka⟩ := elemEdit_spec hu htt hv
      have same : ∀ {x : Bytes}, Typed ty x → compareTuples2 t' x ty ks = compareTuples2 t x ty ks ∧ compareTuples2 x t' ty ks = compareTuples2 x t ty ks := by
        intro x hx
        unfold EditEffect at a2
        split at a2
        · rw [a2.2]; exact ⟨rfl, rfl⟩
        · obtain ⟨m2, ok, n2, b1, b2, b3, b4⟩ := a2
          simp only [elemEdit, k1, Option.some.injEq, Prod.mk.injEq] at b1
          obtain ⟨rfl, rfl⟩ := b1
          rw [getSize_sizeDef hsd, k6] at b2
          cases b2
          have hm : IsTuple ty m n := by
            obtain ⟨c1, val, c2⟩ := k5
            have hl : (m.take n).length = n := by simp; omega
            rw [hl, List.take_take, Nat.min_self] at c2
            exact ⟨by omega, val, c2⟩
          obtain ⟨e1, e2⟩ := compare2_take hu hd hm hx
          obtain ⟨e3, e4⟩ := C92_other_elements ka k1 hd hkp hx
          rw [b3, e1, e2, e3, e4]
          exact ⟨rfl, rfl⟩
      intro p j a b hpj ha hb
      rw [lookup_set hi] at ha hb
      by_cases hpi : p = i
      · rw [if_pos hpi] at ha
        rw [if_neg (by omega)] at hb
        cases ha
        unfold NotAbove
        rw [(same (ht j b hb)).1]
        exact hs i j t b (by omega) a1 hb
      · rw [if_neg hpi] at ha
        by_cases hji : j = i
        · rw [if_pos hji] at hb
          cases hb
          unfold NotAbove
          rw [(same (ht p a ha)).2]
          exact hs p i a t (by omega) ha a1
        · rw [if_neg hji] at hb
          exact hs p j a b hpj ha hb

/-- C92. A tuple may be put at an index of a sorted page exactly if it is not below its nearest neighbour there and not above the next one: if
the insertion succeeds then the page is sorted exactly in this case. -/
theorem C92_insert (l : Legal ps h sd) (hu : Usable ty) (hsd : sizeDefOf d0 ty = some sd) (hd : ∀ p ∈ ks, p.2 = 1 ∨ p.2 = -1)
    (hr : TReach ps h ty sd pg s) (hs : SortedPage ty ks s) {i : Nat} {t : Bytes} (ht : Typed ty t)
    (hi : Api.insert pg ps sd i (some t) = some (pg', true)) :
    ∃ s', Observe ps sd pg' s' ∧ (SortedPage ty ks s' ↔ Between ty ks s i i t) := by
  obtain ⟨htt, _, hall⟩ := C53_typed_pages l hu hsd hr
  obtain ⟨pg2, r, s', h1, h2, h3⟩ := hall (.insert i (some t)) (fun u hu => by cases hu; exact ht)
  simp only [step, hi, Option.bind_eq_bind, Option.bind_some, Option.pure_def, Option.some.injEq, Prod.mk.injEq] at h1
  obtain ⟨rfl, rfl⟩ := h1
  refine ⟨s', (C53_typed_pages l hu hsd h3).2.1, ?_⟩
  rcases h2 with ⟨_, hle, rfl⟩ | ⟨h0, _⟩
  · exact sorted_insert_iff hu hd hs htt hle ht
  · cases h0

/-- The page was obtained from `init_page` by calls that keep it sorted. -/
inductive SortedReach (ps h : Nat) (ty : Dti) (sd : SizeDef) (ks : List (List Nat × Int)) : Bytes → Slots → Prop
  | init {pg0 pg1 : Bytes} : pg0.length = ps → Api.initPage pg0 ps h sd = some (pg1, true) → SortedReach ps h ty sd ks pg1 []
  | step {pg pg' : Bytes} {s s' : Slots} {op : Op} {r : Nat} : SortedReach ps h ty sd ks pg s → TypedOp h ty op → KeepsOrder ty ks s op →
      step ps sd pg op = some (pg', r) → SpecStep sd s op r s' → SortedReach ps h ty sd ks pg' s'

/-- C92. After any history of such calls the page is sorted. -/
theorem C92_history (l : Legal ps h sd) (hu : Usable ty) (hsd : sizeDefOf d0 ty = some sd) (hd : ∀ p ∈ ks, p.2 = 1 ∨ p.2 = -1)
    (hr : SortedReach ps h ty sd ks pg s) : TReach ps h ty sd pg s ∧ SortedPage ty ks s := by
  induction hr with
  | init h1 h2 => exact ⟨.init h1 h2, fun i j a b _ ha => by simp [lookup] at ha⟩
  | step _ ho hk h1 h2 ih =>
    obtain ⟨pg2, r2, s2, e1, e2, e3, e4⟩ := C92_page l hu hsd hd ih.1 ih.2 ho hk
    rw [h1] at e1
    cases e1
    have h3 := TReach.step ih.1 ho h1 h2
    refine ⟨h3, ?_⟩
    have o1 := (C53_typed_pages l hu hsd h3).2.1
    intro i j a b hij ha hb
    have r1 := o1.read i
    have r2 := o1.read j
    rw [e3.read i, Option.some.injEq] at r1
    rw [e3.read j, Option.some.injEq] at r2
    exact e4 i j a b hij (r1.trans ha) (r2.trans hb)

theorem cut {n : Nat} (live P : Nat → Prop) (hlt : ∀ i, live i → i < n) (hdown : ∀ i j, live i → live j → i < j → P j → P i) :
    ∃ c, c ≤ n ∧ (∀ i, live i → (P i ↔ i < c)) ∧ (c = 0 ∨ live (c - 1) ∧ P (c - 1)) := by
  induction n generalizing live with
  | zero => exact ⟨0, Nat.le_refl _, fun i hi => absurd (hlt i hi) (by omega), .inl rfl⟩
  | succ n ih =>
    by_cases hn : live n ∧ P n
    · refine ⟨n + 1, Nat.le_refl _, fun i hi => ⟨fun _ => hlt i hi, fun _ => ?_⟩, .inr hn⟩
      rcases Nat.lt_or_ge i n with h | h
      · exact hdown i n hi hn.1 h hn.2
      · have := hlt i hi
        have : i = n := by omega
        subst this; exact hn.2
    · obtain ⟨c, c1, c2, c3⟩ := ih (fun i => live i ∧ i < n) (fun i h => h.2) (fun i j h1 h2 => hdown i j h1.1 h2.1)
      refine ⟨c, by omega, fun i hi => ?_, c3.imp_right fun h => ⟨h.1.1, h.2⟩⟩
      rcases Nat.lt_or_ge i n with h | h
      · exact c2 i ⟨hi, h⟩
      · have := hlt i hi
        have : i = n := by omega
        subst this
        exact ⟨fun hp => absurd ⟨hi, hp⟩ hn, fun hc => by omega⟩

/-- C92. On a sorted page the tuples below a key come first, then those equal to it, then those above, so that bisection finds them: for a
key of data of any types that can be compared with the elements, over the positions the page is sorted by or the first few of them. -/
theorem C92_find (l : Legal ps h sd) (hu : Usable ty) (hsd : sizeDefOf d0 ty = some sd)
    {key : List (List Nat × Bool × Datum × Dti × Int)} (hks : key.map (fun p => (p.1, p.2.2.2.2)) <+: ks) (hd : ∀ p ∈ ks, p.2 = 1 ∨ p.2 = -1)
    (hkey : ∀ p ∈ key, Usable p.2.2.2.1 ∧ Proper p.2.2.2.1 p.2.2.1) (hsame : ∀ p ∈ key, p.2.1 = true → ty.typeAt p.1 = some p.2.2.2.1)
    (hc : ∀ p ∈ key, ∀ t, ty.typeAt p.1 = some t → canCompare t p.2.2.2.1 = some true)
    (hr : TReach ps h ty sd pg s) (hs : SortedPage ty ks s) :
    ∃ lo hi, lo ≤ hi ∧ hi ≤ s.length ∧ ∀ i t, Api.readNth pg ps sd i = some (some t) → ∃ r, compareTupleDatum t ty key = some r ∧
      (r = -1 ∨ r = 0 ∨ r = 1) ∧ (r = -1 ↔ i < lo) ∧ (r = 0 ↔ lo ≤ i ∧ i < hi) ∧ (r = 1 ↔ hi ≤ i) := by
  obtain ⟨htt, hobs, _⟩ := C53_typed_pages l hu hsd hr
  obtain ⟨rest, hrest⟩ := hks
  have hdk : ∀ p ∈ key, p.2.2.2.2 = 1 ∨ p.2.2.2.2 = -1 := by
    intro p hp
    refine hd (p.1, p.2.2.2.2) ?_
    rw [← hrest]
    exact List.mem_append_left _ (List.mem_map_of_mem hp)
  have self : ∀ {t : Bytes}, Typed ty t → ∃ r, compareTupleDatum t ty key = some r ∧ (r = -1 ∨ r = 0 ∨ r = 1) := by
    intro t ht
    have h0 := (C92_order hu (ps := key.map (fun p => (p.1, p.2.2.2.2))) (by
      intro p hp
      simp only [List.mem_map] at hp
      obtain ⟨q, hq, rfl⟩ := hp
      exact hdk q hq)).refl t ⟨_, ht⟩
    obtain ⟨x, y, g1, _, g3, _⟩ := C92_search hu hdk hkey hsame hc ht ht h0 (Int.le_refl 0)
    exact ⟨x, g1, g3⟩
  have mono : ∀ i j a b x y, i < j → lookup s i = some a → lookup s j = some b → compareTupleDatum a ty key = some x →
      compareTupleDatum b ty key = some y → x ≤ y := by
    intro i j a b x y hij ha hb hx hy
    obtain ⟨r, e1, e2⟩ := hs i j a b hij ha hb
    obtain ⟨r', z, f1, f2, f3⟩ := C92_prefix hu (ps := key.map (fun p => (p.1, p.2.2.2.2))) (qs := rest) (by rw [hrest]; exact hd) (htt i a ha) (htt j b hb)
    rw [hrest, e1] at f1
    cases f1
    obtain ⟨x', y', g1, g2, _, _, g5, _⟩ := C92_search hu hdk hkey hsame hc (htt i a ha) (htt j b hb) f2 (by omega)
    rw [hx] at g1; rw [hy] at g2
    cases g1; cases g2
    exact g5
  have low : ∀ n : Int, ∀ i j : Nat, (∃ a, lookup s i = some a) → (∃ b, lookup s j = some b) → i < j →
      (∃ b y, lookup s j = some b ∧ compareTupleDatum b ty key = some y ∧ y < n) →
      (∃ a x, lookup s i = some a ∧ compareTupleDatum a ty key = some x ∧ x < n) := by
    rintro n i j ⟨a, ha⟩ _ hij ⟨b, y, hb, hy, hlt⟩
    obtain ⟨x, hx, _⟩ := self (htt i a ha)
    have := mono i j a b x y hij ha hb hx hy
    exact ⟨a, x, ha, hx, by omega⟩
  have hlt : ∀ i, (∃ a, lookup s i = some a) → i < s.length := fun i ⟨a, ha⟩ =>
    (List.getElem?_eq_some_iff.mp (lookup_eq_some.mp ha)).1
  obtain ⟨lo, l1, l2, l3⟩ := cut (fun i => ∃ a, lookup s i = some a) _ hlt (low 0)
  obtain ⟨hi, u1, u2, u3⟩ := cut (fun i => ∃ a, lookup s i = some a) _ hlt (low 1)
  refine ⟨lo, hi, ?_, u1, fun i t hit => ?_⟩
  · rcases l3 with h0 | ⟨⟨a, ha⟩, b, y, hb, hy, hyl⟩
    · omega
    · have := (u2 (lo - 1) ⟨a, ha⟩).mp ⟨b, y, hb, hy, by omega⟩
      omega
  · rw [hobs.read i, Option.some.injEq] at hit
    obtain ⟨r, hr1, hr2⟩ := self (htt i t hit)
    have k1 := l2 i ⟨t, hit⟩
    have k2 := u2 i ⟨t, hit⟩
    have w : ∀ n : Int, (∃ a x, lookup s i = some a ∧ compareTupleDatum a ty key = some x ∧ x < n) ↔ r < n := by
      intro n
      constructor
      · rintro ⟨a, x, ha, hx, hlt⟩
        rw [hit] at ha; cases ha
        rw [hr1] at hx; cases hx
        exact hlt
      · intro hn; exact ⟨t, r, hit, hr1, hn⟩
    rw [w] at k1 k2
    exact ⟨r, hr1, hr2, by omega, by omega, by omega⟩

/-! ### example: a sorted page -/

/-- Tuples of the example type with the integers -7 and 3. -/
def exSeven : Bytes := [11, 0, 64, 249, 255, 255, 255, 0, 0, 0, 0]
def exThree : Bytes := [11, 0, 64, 3, 0, 0, 0, 0, 0, 0, 0]

theorem exSeven_typed : Typed exFinal exSeven := (C81_check exFinal_usable).mpr ⟨by decide, by decide +kernel⟩
theorem exThree_typed : Typed exFinal exThree := (C81_check exFinal_usable).mpr ⟨by decide, by decide +kernel⟩

/-- A page initialised, with one tuple, and with two. -/
def exSort0 : Bytes := ((Api.initPage (List.replicate 128 85) 128 4 exSd).getD ([], false)).1
def exSort1 : Bytes := ((Api.append exSort0 128 exSd (some exThree)).getD ([], false)).1
def exSort2 : Bytes := ((Api.insert exSort1 128 exSd 0 (some exSeven)).getD ([], false)).1

/-- Sorted by the integer, and downwards by the string. -/
def exKeys : List (List Nat × Int) := [([1], 1), ([2], -1)]

theorem exSort2_reach : SortedReach 128 4 exFinal exSd exKeys exSort2 [some exSeven, some exThree] := by
  have r0 : SortedReach 128 4 exFinal exSd exKeys exSort0 [] := .init (pg0 := List.replicate 128 85) (by simp) (by decide +kernel)
  have r1 : SortedReach 128 4 exFinal exSd exKeys exSort1 [some exThree] :=
    .step (op := .append (some exThree)) (r := 1) r0 (fun t ht => by cases ht; exact exThree_typed)
      ⟨fun j a hj => by simp at hj, fun j a _ ha => by simp [lookup] at ha⟩ (by decide +kernel) (.inl ⟨rfl, rfl⟩)
  refine .step (op := .insert 0 (some exSeven)) (r := 1) r1 (fun t ht => by cases ht; exact exSeven_typed)
    ⟨fun j a hj => by omega, fun j a _ ha _ => ?_⟩ (by decide +kernel) (.inl ⟨rfl, by decide, rfl⟩)
  cases j with
  | zero => cases ha; exact ⟨-1, by decide +kernel, by decide⟩
  | succ j => simp [lookup] at ha

/-- For `C92_page`, `C92_insert` and `C92_history`: the third tuple may go between the two, but not behind them. -/
example : Legal 128 4 exSd ∧ Usable exFinal ∧ sizeDefOf ⟨false, 0, 0, false, false, false, false, 0⟩ exFinal = some exSd ∧
    (∀ p ∈ exKeys, p.2 = 1 ∨ p.2 = -1) ∧ TReach 128 4 exFinal exSd exSort2 [some exSeven, some exThree] ∧
    SortedPage exFinal exKeys [some exSeven, some exThree] ∧ KeepsOrder exFinal exKeys [some exSeven, some exThree] (.insert 1 (some exSeven)) ∧
    (Api.insert exSort2 128 exSd 1 (some exSeven)).map Prod.snd = some true ∧
    ¬ KeepsOrder exFinal exKeys [some exSeven, some exThree] (.append (some exSeven)) ∧
    KeepsOrder exFinal exKeys [some exSeven, some exThree] (.setElem 0 (elemEdit exFinal [0] (.uint 3))) := by
  obtain ⟨h1, h2⟩ := C92_history exPage_legal exFinal_usable exSd_of (by decide) exSort2_reach
  refine ⟨exPage_legal, exFinal_usable, exSd_of, by decide, h1, h2, ⟨fun j a hj ha _ => ?_, fun j a hj ha _ => ?_⟩, by decide +kernel, fun hk => ?_,
    [0], .uint 3, rfl, fun x hx => ?_, by decide⟩
  · have : j = 0 := by omega
    subst this; cases ha
    exact ⟨0, by decide +kernel, by decide⟩
  · match j, hj with
    | 1, _ => cases ha; exact ⟨-1, by decide +kernel, by decide⟩
    | j + 2, _ => simp [lookup] at ha
  · obtain ⟨r, e, k⟩ := hk.1 1 exThree (by decide) rfl (fun k h1 h2 => by simp at h2; omega)
    have : compareTuples2 exThree exSeven exFinal exKeys = some 1 := by decide +kernel
    rw [this] at e; cases e; omega
  · cases hx; exact .inr (.inr ⟨3, rfl⟩)

/-- For `C92_find`: a search for the integer 0 of two bytes. -/
example : (([([1], false, .int 0, .prim .int { isFinal := true, size := 2 }, 1)] : List (List Nat × Bool × Datum × Dti × Int)).map
      (fun p => (p.1, p.2.2.2.2))) <+: exKeys ∧ Proper (.prim .int { isFinal := true, size := 2 }) (.int 0) ∧
    Usable (.prim .int { isFinal := true, size := 2 }) ∧
    canCompare (.prim .int { isFinal := true, nullable := true, size := 4 }) (.prim .int { isFinal := true, size := 2 }) = some true ∧
    compareTupleDatum exSeven exFinal [([1], false, .int 0, .prim .int { isFinal := true, size := 2 }, 1)] = some (-1) ∧
    compareTupleDatum exThree exFinal [([1], false, .int 0, .prim .int { isFinal := true, size := 2 }, 1)] = some 1 :=
  ⟨⟨[([2], -1)], rfl⟩, .inr ⟨rfl, _, rfl⟩, ⟨.prim .int { size := 2 }, .prim _ _ rfl, rfl, .prim _ _⟩, by decide +kernel, by decide +kernel, by decide +kernel⟩

end Props
end TS
