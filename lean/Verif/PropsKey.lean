import Verif.PropsTupCmp
import Verif.PropsInPlace
/-
Tuples ordered by some of their elements: that `compare_tuples` is a total preorder, that searching by a key or by a part of one is
compatible with it, and that a page can be kept sorted.
-/
namespace TS
namespace Props

open Dti

/-! ### Comparison of lists of values, each with a direction -/

/-- The first difference decides, times its direction. -/
def lexOrd : List Int → List SVal → List SVal → Int
  | d :: ds, a :: as, b :: bs => if a.ord b = 0 then lexOrd ds as bs else a.ord b * d
  | _, _, _ => 0

/-- All directions are 1 or -1. -/
def Dirs (ds : List Int) : Prop := ∀ d ∈ ds, d = 1 ∨ d = -1

theorem lexOrd_range (ds : List Int) (hd : Dirs ds) : ∀ a b, lexOrd ds a b = -1 ∨ lexOrd ds a b = 0 ∨ lexOrd ds a b = 1 := by
  induction ds with
  | nil => intro a b; simp [lexOrd]
  | cons d ds ih =>
    have ih := ih (fun x hx => hd x (by simp [hx]))
    intro a b
    match a, b with
    | [], _ => simp [lexOrd]
    | _ :: _, [] => simp [lexOrd]
    | a :: as, b :: bs =>
      simp only [lexOrd]
      split
      · exact ih as bs
      · have := SVal.ord_range a b
        have := hd d (by simp)
        rcases this with rfl | rfl <;> omega

theorem lexOrd_self (ds : List Int) : ∀ a, lexOrd ds a a = 0 := by
  induction ds with
  | nil => intro a; simp [lexOrd]
  | cons d ds ih =>
    intro a
    cases a with
    | nil => simp [lexOrd]
    | cons a as => simp [lexOrd, SVal.ord_self, ih]

theorem lexOrd_swap (ds : List Int) : ∀ a b, lexOrd ds b a = - lexOrd ds a b := by
  induction ds with
  | nil => intro a b; simp [lexOrd]
  | cons d ds ih =>
    intro a b
    match a, b with
    | [], [] => simp [lexOrd]
    | [], _ :: _ => simp [lexOrd]
    | _ :: _, [] => simp [lexOrd]
    | a :: as, b :: bs =>
      simp only [lexOrd, SVal.ord_swap a b, Int.neg_eq_zero, ih as bs]
      split
      · rfl
      · rw [Int.neg_mul]

theorem lexOrd_trans (ds : List Int) (hd : Dirs ds) : ∀ a b c, a.length = ds.length → b.length = ds.length → c.length = ds.length →
    lexOrd ds a b ≤ 0 → lexOrd ds b c ≤ 0 → lexOrd ds a c ≤ 0 ∧ (lexOrd ds a b < 0 ∨ lexOrd ds b c < 0 → lexOrd ds a c < 0) := by
  induction ds with
  | nil => intro a b c _ _ _; simp [lexOrd]
  | cons d ds ih =>
    have ih := ih (fun x hx => hd x (by simp [hx]))
    have hd := hd d (by simp)
    intro a b c l1 l2 l3
    match a, b, c with
    | a :: as, b :: bs, c :: cs =>
      simp only [List.length_cons, Nat.add_right_cancel_iff] at l1 l2 l3
      have ih := ih as bs cs l1 l2 l3
      by_cases h1 : a.ord b = 0
      · have := SVal.ord_eq_zero a b h1
        subst this
        by_cases h2 : a.ord c = 0
        · simp only [lexOrd, h1, h2, if_true]; exact ih
        · simp only [lexOrd, h1, h2, if_true, if_false]
          intro h3 h4
          refine ⟨h4, fun _ => ?_⟩
          rcases hd with rfl | rfl <;> omega
      · by_cases h2 : b.ord c = 0
        · have := SVal.ord_eq_zero b c h2
          subst this
          simp only [lexOrd, h1, h2, if_true, if_false]
          intro h3 h4
          refine ⟨h3, fun _ => ?_⟩
          rcases hd with rfl | rfl <;> omega
        · simp only [lexOrd, h1, h2, if_false]
          intro h3 h4
          have k := SVal.ord_trans a b c
          have k' := SVal.ord_trans c b a
          rw [SVal.ord_swap b c, SVal.ord_swap a b, SVal.ord_swap a c] at k'
          have : a.ord c * d < 0 := by
            rcases hd with rfl | rfl
            · have := (k (by omega) (by omega)).2 (by omega); omega
            · have := (k' (by omega) (by omega)).2 (by omega); omega
          have hne : a.ord c ≠ 0 := by intro h0; rw [h0] at this; simp at this
          simp only [hne, if_false]
          exact ⟨by omega, fun _ => this⟩

/-- Comparing with a third list goes with the order. -/
theorem lexOrd_mono (ds : List Int) (hd : Dirs ds) {a b c : List SVal} (la : a.length = ds.length) (lb : b.length = ds.length)
    (lc : c.length = ds.length) (h : lexOrd ds a b ≤ 0) :
    lexOrd ds a c ≤ lexOrd ds b c ∧ (lexOrd ds a b < 0 → lexOrd ds a c = 0 → 0 < lexOrd ds b c) := by
  have r1 := lexOrd_range ds hd a c
  have r2 := lexOrd_range ds hd b c
  have t := lexOrd_trans ds hd a b c la lb lc h
  have t2 := lexOrd_trans ds hd c a b lc la lb
  rw [lexOrd_swap ds a c, lexOrd_swap ds b c] at t2
  omega

theorem lexOrd_prefix (ds es : List Int) : ∀ a b a' b' : List SVal, a.length = ds.length → b.length = ds.length →
    lexOrd ds a b ≠ 0 → lexOrd (ds ++ es) (a ++ a') (b ++ b') = lexOrd ds a b := by
  induction ds with
  | nil => intro a b a' b' _ _ h; simp [lexOrd] at h
  | cons d ds ih =>
    intro a b a' b' h1 h2 h
    match a, b with
    | a :: as, b :: bs =>
      simp only [List.length_cons, Nat.add_right_cancel_iff] at h1 h2
      simp only [lexOrd, List.cons_append] at h ⊢
      by_cases h0 : a.ord b = 0
      · simp only [h0, if_true] at h ⊢
        exact ih as bs a' b' h1 h2 h
      · simp only [h0, if_false]

/-- What `cmpMany` computes if all can be compared. -/
theorem cmpMany_lexOrd {α : Type} (f : α → Option Int × Int) (x y : α → SVal) (d : α → Int) (xs : List α)
    (hf : ∀ p ∈ xs, f p = (some ((x p).ord (y p)), d p)) (hd : Dirs (xs.map d)) :
    cmpMany (xs.map f) = some (lexOrd (xs.map d) (xs.map x) (xs.map y)) := by
  induction xs with
  | nil => rfl
  | cons p xs ih =>
    have ih := ih (fun q hq => hf q (by simp [hq])) (fun q hq => hd q (by simp at hq ⊢; exact .inr hq))
    have hdp := hd (d p) (by simp)
    have hr := SVal.ord_range (x p) (y p)
    simp only [List.map_cons, hf p (by simp), cmpMany, Option.bind_eq_bind, Option.bind_some, lexOrd]
    rw [if_neg (by omega)]
    by_cases h0 : (x p).ord (y p) = 0
    · simp [h0, ih]
    · rw [if_neg h0, if_neg]
      · rfl
      · rcases hdp with h | h <;> rw [h] <;> omega

/-! ### Tuples of one type -/

/-- The values at the positions `ps` of a tuple. -/
def KeyOf (d : Dti) (ps : List (List Nat)) (m : Bytes) (k : List SVal) : Prop :=
  ∃ S val, S ≤ m.length ∧ Enc d (m.take S) val ∧ k = ps.map (posVal d val)

theorem KeyOf.exists {d : Dti} {m : Bytes} {S : Nat} (h : IsTuple d m S) (ps : List (List Nat)) : ∃ k, KeyOf d ps m k :=
  ⟨_, S, h.2.choose, h.1, h.2.choose_spec, rfl⟩

theorem KeyOf.length {d : Dti} {ps : List (List Nat)} {m : Bytes} {k : List SVal} (h : KeyOf d ps m k) : k.length = ps.length := by
  obtain ⟨_, _, _, _, rfl⟩ := h; simp

theorem compare2_key {d : Dti} (hu : Usable d) {ps : List (List Nat × Int)} (hd : Dirs (ps.map (·.2))) {a b : Bytes} {k l : List SVal}
    (h1 : KeyOf d (ps.map (·.1)) a k) (h2 : KeyOf d (ps.map (·.1)) b l) :
    compareTuples2 a b d ps = some (lexOrd (ps.map (·.2)) k l) := by
  obtain ⟨S1, v1, l1, e1, rfl⟩ := h1
  obtain ⟨S2, v2, l2, e2, rfl⟩ := h2
  unfold compareTuples2
  rw [List.map_map, List.map_map]
  refine cmpMany_lexOrd _ _ _ _ ps (fun p hp => ?_) hd
  obtain ⟨x1, q1, g1, g1'⟩ := elemOrNull_means hu.ok l1 e1 p.1
  obtain ⟨x2, q2, g2, g2'⟩ := elemOrNull_means hu.ok l2 e2 p.1
  have := compare_pos (same := true) (fun _ => rfl) g1 g1' g2 g2' (by unfold PosComparable; split <;> simp)
  simp only [if_true] at this
  simp only [compareElems2, q1, q2, Option.bind_eq_bind, Option.bind_some, this, Function.comp]

/-- A relation to lists of values makes a preorder. -/
theorem preorder_lex {α : Type} {P : α → Prop} {cmp : α → α → Option Int} {ds : List Int} (hd : Dirs ds) (M : α → List SVal → Prop)
    (hp : ∀ a, P a → ∃ s, M a s ∧ s.length = ds.length) (hc : ∀ a b s t, M a s → M b t → cmp a b = some (lexOrd ds s t)) :
    TotalPreorder P cmp where
  refl a ha := by
    obtain ⟨s, hs, _⟩ := hp a ha
    rw [hc a a s s hs hs, lexOrd_self]
  total a b ha hb := by
    obtain ⟨s, hs, _⟩ := hp a ha
    obtain ⟨t, ht, _⟩ := hp b hb
    exact ⟨lexOrd ds s t, lexOrd_range ds hd s t, hc a b s t hs ht, by rw [hc b a t s ht hs, lexOrd_swap]⟩
  trans a b c r q ha hb hc' h1 h2 h3 h4 := by
    obtain ⟨s, hs, l1⟩ := hp a ha
    obtain ⟨t, ht, l2⟩ := hp b hb
    obtain ⟨u, hu, l3⟩ := hp c hc'
    rw [hc a b s t hs ht] at h1; cases h1
    rw [hc b c t u ht hu] at h2; cases h2
    obtain ⟨k1, k2⟩ := lexOrd_trans ds hd s t u l1 l2 l3 h3 h4
    exact ⟨_, hc a c s u hs hu, k1, k2⟩

/-- C92. `compare_tuples2`, and `compare_tuples` of one type, is a total preorder on the tuples of a type, whatever the positions and the
directions, 1 or -1 for each; positions need not exist. -/
theorem C92_order {d : Dti} (hu : Usable d) {ps : List (List Nat × Int)} (hd : ∀ p ∈ ps, p.2 = 1 ∨ p.2 = -1) :
    TotalPreorder (fun m => ∃ S, IsTuple d m S) (fun a b => compareTuples2 a b d ps) := by
  have hd' : Dirs (ps.map (·.2)) := by
    intro x hx
    simp only [List.mem_map] at hx
    obtain ⟨p, hp, rfl⟩ := hx
    exact hd p hp
  refine preorder_lex hd' (KeyOf d (ps.map (·.1))) (fun a ⟨S, ha⟩ => ?_) (fun a b s t h1 h2 => compare2_key hu hd' h1 h2)
  obtain ⟨k, hk⟩ := KeyOf.exists ha (ps.map (·.1))
  exact ⟨k, hk, by simp [hk.length]⟩

example : Usable exFinal ∧ (∃ S, IsTuple exFinal exMem S) ∧ (∀ p ∈ ([([1], 1), ([2], -1), ([9], 1)] : List (List Nat × Int)), p.2 = 1 ∨ p.2 = -1) ∧
    (exFinal.setElem exMem [2] (.bytes [98]) 20).bind (fun x => compareTuples2 x.1 exMem exFinal [([1], 1), ([2], -1), ([9], 1)]) = some (-1) :=
  ⟨exFinal_usable, ⟨11, exMem_tuple⟩, by decide, by decide +kernel⟩

/-! ### Tuples of several types -/

/-- The positions given to `compare_tuples`: those of the first tuple, those of the second, whether the types of two positions are the
same pointer, the directions. -/
def keyPos (same : List Nat → List Nat → Bool) : List Int → List (List Nat) → List (List Nat) → List CmpPos
  | d :: ds, p :: ps, q :: qs => ⟨p, q, same p q, d⟩ :: keyPos same ds ps qs
  | _, _, _ => []

/-- A tuple, its type, and the positions in it that are compared. -/
structure Keyed where
  mem : Bytes
  ty : Dti
  pos : List (List Nat)

/-- All the types and positions that are compared with each other. -/
structure KeyKinds (T : Dti → List (List Nat) → Prop) (n : Nat) : Prop where
  usable : ∀ d ps, T d ps → Usable d
  count : ∀ d ps, T d ps → ps.length = n
  comparable : ∀ d ps e qs, T d ps → T e qs → ∀ (i : Nat) (p q : List Nat) (t u : Dti), ps[i]? = some p → qs[i]? = some q →
    d.typeAt p = some t → e.typeAt q = some u → canCompare t u = some true

theorem compare_keyed {d1 d2 : Dti} (h1 : Usable d1) (h2 : Usable d2) {m1 m2 : Bytes} {S1 S2 : Nat} {v1 v2 : Val} (l1 : S1 ≤ m1.length)
    (l2 : S2 ≤ m2.length) (e1 : Enc d1 (m1.take S1) v1) (e2 : Enc d2 (m2.take S2) v2) (same : List Nat → List Nat → Bool)
    (hs : ∀ p q, same p q = true → d1.typeAt p = d2.typeAt q) (ds : List Int) (hd : Dirs ds) : ∀ (ps qs : List (List Nat)),
    ps.length = ds.length → qs.length = ds.length →
    (∀ (i : Nat) (p q : List Nat) (t u : Dti), ps[i]? = some p → qs[i]? = some q → d1.typeAt p = some t → d2.typeAt q = some u →
      canCompare t u = some true) →
    compareTuples m1 d1 m2 d2 (keyPos same ds ps qs) = some (lexOrd ds (ps.map (posVal d1 v1)) (qs.map (posVal d2 v2))) := by
  induction ds with
  | nil =>
    intro ps qs _ _ _
    cases ps <;> cases qs <;> rfl
  | cons d ds ih =>
    intro ps qs k1 k2 hc
    match ps, qs with
    | p :: ps, q :: qs =>
      have ih := ih (fun x hx => hd x (by simp [hx])) ps qs (by simpa using k1) (by simpa using k2)
        (fun i p q t u a b => hc (i + 1) p q t u (by simpa using a) (by simpa using b))
      have hdp := hd d (by simp)
      obtain ⟨x1, q1, g1, g1'⟩ := elemOrNull_means h1.ok l1 e1 p
      obtain ⟨x2, q2, g2, g2'⟩ := elemOrNull_means h2.ok l2 e2 q
      have := compare_pos (same := same p q) (hs p q) g1 g1' g2 g2' (by
        unfold PosComparable
        split
        · rename_i t u ht hu'
          exact .inr (hc 0 p q t u rfl rfl ht hu')
        · trivial)
      have hun : compareElems (same p q) m1 d1 p m2 d2 q = some ((posVal d1 v1 p).ord (posVal d2 v2 q)) := by
        simp only [compareElems, q1, q2, Option.bind_eq_bind, Option.bind_some]
        exact this
      have hr := SVal.ord_range (posVal d1 v1 p) (posVal d2 v2 q)
      unfold compareTuples at ih ⊢
      simp only [keyPos, List.map_cons, hun, cmpMany, Option.bind_eq_bind, Option.bind_some, lexOrd]
      rw [if_neg (by omega)]
      by_cases h0 : (posVal d1 v1 p).ord (posVal d2 v2 q) = 0
      · simp [h0, ih]
      · rw [if_neg h0, if_neg]
        · rfl
        · rcases hdp with h | h <;> rw [h] <;> omega

/-- C92. So is `compare_tuples` on tuples of different types, each with positions of its own, if the elements at corresponding positions can
be compared. Whether two types are the same pointer makes no difference. -/
theorem C92_order_across {T : Dti → List (List Nat) → Prop} {ds : List Int} (hT : KeyKinds T ds.length) (hd : ∀ d ∈ ds, d = 1 ∨ d = -1)
    (same : Dti → Dti → List Nat → List Nat → Bool) (hs : ∀ d e p q, same d e p q = true → d.typeAt p = e.typeAt q) :
    TotalPreorder (fun a : Keyed => T a.ty a.pos ∧ ∃ S, IsTuple a.ty a.mem S)
      (fun a b => compareTuples a.mem a.ty b.mem b.ty (keyPos (same a.ty b.ty) ds a.pos b.pos)) := by
  refine preorder_lex (ds := ds) hd (fun a k => T a.ty a.pos ∧ KeyOf a.ty a.pos a.mem k) (fun a ⟨ht, S, ha⟩ => ?_) ?_
  · obtain ⟨k, hk⟩ := KeyOf.exists ha a.pos
    exact ⟨k, ⟨ht, hk⟩, by rw [hk.length, hT.count _ _ ht]⟩
  · rintro a b s t ⟨ta, S1, v1, l1, e1, rfl⟩ ⟨tb, S2, v2, l2, e2, rfl⟩
    exact compare_keyed (hT.usable _ _ ta) (hT.usable _ _ tb) l1 l2 e1 e2 _ (hs _ _) ds hd _ _ (hT.count _ _ ta) (hT.count _ _ tb)
      (hT.comparable _ _ _ _ ta tb)

/-- An array of two UINTs of two bytes. -/
def exTwo16' : Dti := .arr { isFinal := true, count := 2, size := 4 } (.prim .uint { isFinal := true, size := 2 })

/-- Tuples compared by their integer with arrays compared by their first element. -/
example : KeyKinds (fun d ps => (d = exFinal ∧ ps = [[1]]) ∨ (d = exTwo16' ∧ ps = [[0]])) 1 ∧ IsTuple exTwo16' [7, 0, 3, 0] 4 ∧
    compareTuples exMem exFinal [7, 0, 3, 0] exTwo16' (keyPos (fun _ _ => false) [-1] [[1]] [[0]]) = some 1 := by
  have hu : Usable exTwo16' :=
    ⟨.arr { count := 2 } (.prim .uint { size := 2 }), .arr _ _ rfl (.prim _ _ rfl), rfl, .arr _ _ (.prim _ _) (by decide) (by decide)⟩
  refine ⟨⟨?_, ?_, ?_⟩, ⟨by decide, fixed_enc exTwo16' _ hu.ok rfl rfl (by decide)⟩, by decide +kernel⟩
  · rintro d ps (⟨rfl, rfl⟩ | ⟨rfl, rfl⟩)
    · exact exFinal_usable
    · exact hu
  · rintro d ps (⟨rfl, rfl⟩ | ⟨rfl, rfl⟩) <;> rfl
  · rintro d ps e qs (⟨rfl, rfl⟩ | ⟨rfl, rfl⟩) (⟨rfl, rfl⟩ | ⟨rfl, rfl⟩) i p q t u h1 h2 h3 h4 <;> cases i <;> simp at h1 h2 <;>
      subst h1 <;> subst h2 <;> cases h3 <;> cases h4 <;> decide +kernel

/-! ### Searching -/

/-- C92. If one tuple is not above another one, then its comparison with a key (`compare_tuple_with_datum`, data of any types that can be
compared with the elements) is not above that of the other one; and if it is below it, then only one of them can be equal to the key. -/
theorem C92_search {d : Dti} (hu : Usable d) {ks : List (List Nat × Bool × Datum × Dti × Int)}
    (hdir : ∀ p ∈ ks, p.2.2.2.2 = 1 ∨ p.2.2.2.2 = -1) (hk : ∀ p ∈ ks, Usable p.2.2.2.1 ∧ Proper p.2.2.2.1 p.2.2.1)
    (hs : ∀ p ∈ ks, p.2.1 = true → d.typeAt p.1 = some p.2.2.2.1)
    (hc : ∀ p ∈ ks, ∀ t, d.typeAt p.1 = some t → canCompare t p.2.2.2.1 = some true)
    {a b : Bytes} {S1 S2 : Nat} (h1 : IsTuple d a S1) (h2 : IsTuple d b S2)
    {r : Int} (hr : compareTuples2 a b d (ks.map (fun p => (p.1, p.2.2.2.2))) = some r) (hle : r ≤ 0) :
    ∃ x y, compareTupleDatum a d ks = some x ∧ compareTupleDatum b d ks = some y ∧ (x = -1 ∨ x = 0 ∨ x = 1) ∧ (y = -1 ∨ y = 0 ∨ y = 1) ∧
      x ≤ y ∧ (r < 0 → x = 0 → y = 1) := by
  have hd : Dirs ((ks.map (fun p => (p.1, p.2.2.2.2))).map (·.2)) := by
    intro x hx
    simp only [List.mem_map, List.map_map] at hx
    obtain ⟨p, hp, rfl⟩ := hx
    exact hdir p hp
  -- the values of the key
  have hkey : ∃ sv : List Nat × Bool × Datum × Dti × Int → SVal, ∀ p ∈ ks, Means p.2.2.2.1 p.2.2.1 (sv p) := by
    have : ∀ p, ∃ s, p ∈ ks → Means p.2.2.2.1 p.2.2.1 s := by
      intro p
      by_cases hp : p ∈ ks
      · exact (hk p hp).2.means.imp fun _ h _ => h
      · exact ⟨.null, fun h => absurd h hp⟩
    exact ⟨fun p => (this p).choose, fun p hp => (this p).choose_spec hp⟩
  obtain ⟨sv, hsv⟩ := hkey
  have cmp : ∀ {m : Bytes} {S : Nat} {val : Val}, S ≤ m.length → Enc d (m.take S) val → compareTupleDatum m d ks =
      some (lexOrd ((ks.map (fun p => (p.1, p.2.2.2.2))).map (·.2)) (((ks.map (fun p => (p.1, p.2.2.2.2))).map (·.1)).map (posVal d val)) (ks.map sv)) := by
    intro m S val hl he
    unfold compareTupleDatum
    simp only [List.map_map]
    refine cmpMany_lexOrd _ _ sv _ ks (fun p hp => ?_) (by simpa [List.map_map] using hd)
    obtain ⟨v1, q1, g1, g1'⟩ := elemOrNull_means hu.ok hl he p.1
    have := compare_pos (same := p.2.1) (hs p hp) g1 g1' (t2 := some p.2.2.2.1) (v2 := p.2.2.1) (s2 := sv p)
      (by intro t ht; cases ht; exact ⟨(hk p hp).1.ok, hsv p hp⟩) (by intro h; cases h) (by
        unfold PosComparable
        split
        · rename_i t u ht hu'
          cases hu'
          exact .inr (hc p hp t ht)
        · trivial)
    simp only [compareElemDatum, q1, Option.bind_eq_bind, Option.bind_some, this, Function.comp]
  obtain ⟨l1, v1, e1⟩ := h1
  obtain ⟨l2, v2, e2⟩ := h2
  rw [compare2_key hu hd ⟨S1, v1, l1, e1, rfl⟩ ⟨S2, v2, l2, e2, rfl⟩, Option.some.injEq] at hr
  subst hr
  have g := lexOrd_mono _ hd (c := ks.map sv) (by simp) (by simp) (by simp) hle
  have r1 := lexOrd_range _ hd (((ks.map (fun p => (p.1, p.2.2.2.2))).map (·.1)).map (posVal d v1)) (ks.map sv)
  have r2 := lexOrd_range _ hd (((ks.map (fun p => (p.1, p.2.2.2.2))).map (·.1)).map (posVal d v2)) (ks.map sv)
  exact ⟨_, _, cmp l1 e1, cmp l2 e2, r1, r2, g.1, fun k1 k2 => by have := g.2 k1 k2; omega⟩

/-- C92. Tuples that are sorted by some positions are sorted by the first few of them: comparing by fewer positions gives the same result or 0. -/
theorem C92_prefix {d : Dti} (hu : Usable d) {ps qs : List (List Nat × Int)} (hd : ∀ p ∈ ps ++ qs, p.2 = 1 ∨ p.2 = -1)
    {a b : Bytes} {S1 S2 : Nat} (h1 : IsTuple d a S1) (h2 : IsTuple d b S2) :
    ∃ r x, compareTuples2 a b d (ps ++ qs) = some r ∧ compareTuples2 a b d ps = some x ∧ (x = r ∨ x = 0) := by
  have hdd : ∀ l : List (List Nat × Int), (∀ p ∈ l, p ∈ ps ++ qs) → Dirs (l.map (·.2)) := by
    intro l hl x hx
    simp only [List.mem_map] at hx
    obtain ⟨p, hp, rfl⟩ := hx
    exact hd p (hl p hp)
  obtain ⟨l1, v1, e1⟩ := h1
  obtain ⟨l2, v2, e2⟩ := h2
  have c1 := compare2_key hu (hdd (ps ++ qs) (fun _ h => h)) ⟨S1, v1, l1, e1, rfl⟩ ⟨S2, v2, l2, e2, rfl⟩
  have c2 := compare2_key hu (hdd ps (fun p h => by simp [h])) ⟨S1, v1, l1, e1, rfl⟩ ⟨S2, v2, l2, e2, rfl⟩
  refine ⟨_, _, c1, c2, ?_⟩
  by_cases h0 : lexOrd (ps.map (·.2)) ((ps.map (·.1)).map (posVal d v1)) ((ps.map (·.1)).map (posVal d v2)) = 0
  · exact .inr h0
  · left
    have := lexOrd_prefix (ps.map (·.2)) (qs.map (·.2)) _ _ ((qs.map (·.1)).map (posVal d v1))
      ((qs.map (·.1)).map (posVal d v2)) (by simp) (by simp) h0
    simp only [List.map_append]
    exact this.symm

/-- The string "b" is searched for by its own type, first in the tuple with the string "b", then in the minimal tuple. -/
example : Usable exFinal ∧ IsTuple exFinal exMem 11 ∧ Usable exStr ∧ Proper exStr (.bytes [98]) ∧ exFinal.typeAt [2] = some (.str false
      { isFinal := true, isVar := true, varCount := true, maxSize := 200, size := 1 }) ∧
    canCompare (.str false { isFinal := true, isVar := true, varCount := true, maxSize := 200, size := 1 }) exStr = some true ∧
    compareTupleDatum exMem exFinal [([2], false, .bytes [98], exStr, 1)] = some (-1) ∧
    (exFinal.setElem exMem [2] (.bytes [98]) 20).bind (fun x => compareTuples2 exMem x.1 exFinal [([2], 1)]) = some (-1) ∧
    (exFinal.setElem exMem [2] (.bytes [98]) 20).bind (fun x => compareTupleDatum x.1 exFinal [([2], false, .bytes [98], exStr, 1)]) = some 0 :=
  ⟨exFinal_usable, exMem_tuple, exStr_usable, .inr ⟨rfl, _, rfl⟩, rfl, by decide +kernel, by decide +kernel, by decide +kernel, by decide +kernel⟩

end Props
end TS
