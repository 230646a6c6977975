import Verif.WalkProof
import Verif.PropsNested
/-
Property C55: the documented traversal with positional accessors.
-/
namespace TS
namespace Dti
open Pa

/-- Fewer than 2^32 elements in any container. -/
theorem node_count {t : Dti} {b : Bytes} {vs : List Val} (ht : TyOk t) (he : Enc t b (.node vs)) :
    t.isCont = true ∧ CountOk t vs.length ∧ vs.length < 2 ^ 32 := by
  have hc : t.isCont = true := by
    cases he with
    | cont h => exact h
  obtain ⟨cs, o, vs', h1, r, hv⟩ := enc_cont hc he
  cases h1
  rw [hv.1]
  refine ⟨hc, r.countOk, ?_⟩
  cases hvc : t.isVarCount with
  | true =>
    rw [← r.cntV hvc]
    have h1 := leDec_lt (rd b t.offCountP t.w)
    have h2 : (rd b t.offCountP t.w).length ≤ 4 := by
      have := vsz_le t.hdr.maxSize
      simp only [rd, List.length_take, w]
      omega
    have h3 : 256 ^ (rd b t.offCountP t.w).length ≤ 256 ^ 4 := Nat.pow_le_pow_right (by decide) h2
    unfold word
    omega
  | false =>
    rw [r.cntF hvc]
    have : lim < 2 ^ 32 := by decide
    cases ht with
    | prim => cases hc
    | str b h a1 a2 a3 a4 =>
      have := (a3 (by simpa [isVarCount] using hvc)).2.2
      simp only [hdr]; omega
    | tup => simp only [hdr]; omega
    | arr h c a1 a2 a3 a4 a5 =>
      simp only [isVarCount, Bool.and_eq_false_iff] at hvc
      have hv : h.varCount = false := by
        rcases hvc with e | e
        · rw [a3] at e; simp at e; exact e.1
        · exact e
      have := (a4 hv).2.1
      simp only [hdr]; omega

/-- Number of elements below a path. -/
def cntOf (val : Val) (p : List Nat) : Nat :=
  match val.at' p with
  | some (.node vs) => vs.length
  | _ => 0

/-- What is chosen at a path. -/
def chOf (d : Dti) (m : Bytes) (choose : List Nat → Datum → Choice) (p : List Nat) : Choice :=
  match d.getElem m p with
  | some (some v) => choose p v
  | _ => .next

theorem at_child {val : Val} {p : List Nat} {vs : List Val} (h : val.at' p = some (.node vs)) (i : Nat) :
    val.at' (p ++ [i]) = vs[i]? := by
  rw [at_append' val p [i] h]
  simp only [Val.at']
  cases vs[i]? <;> rfl

theorem elems_agree {d : Dti} {m : Bytes} {S : Nat} {val : Val} (choose : List Nat → Datum → Choice) (hd : TyOk d)
    (hS : S ≤ m.length) (he : Enc d (m.take S) val) : ∀ (n : Nat) (p : List Nat) (t : Dti) (y : Val), d.typeAt p = some t →
    val.at' p = some y →
    Agrees (fun p => d.getElem m p) (fun p v => do pure ((← d.typeAt p).isCont && !v.isNull)) choose (chOf d m choose) (cntOf val) n p := by
  intro n
  induction n with
  | zero =>
    intro p t y ht hy
    have hg := getElem_ok p hd hS he
    unfold GetOk at hg
    rw [hy] at hg
    simp only at hg
    rcases hg with ⟨_, hg⟩ | ⟨_, dt, _, hg, _⟩
    · exact ⟨_, hg, by simp [chOf, hg]⟩
    · exact ⟨_, hg, by simp [chOf, hg]⟩
  | succ n ih =>
    intro p t y ht hy
    have hg := getElem_ok p hd hS he
    unfold GetOk at hg
    rw [hy] at hg
    simp only at hg
    have hh := held_at p hd (.inr (.inr ⟨_, he⟩)) hy ht
    have hto := (typeAt_ok p hd ht).1
    rcases hg with ⟨rfl, hg⟩ | ⟨t', dt, ht', hg, hs⟩
    · exact ⟨_, hg, by simp [chOf, hg], .inl ⟨by simp [ht, Datum.isNull], by simp [cntOf, hy]⟩⟩
    · rw [ht] at ht'
      cases ht'
      refine ⟨dt, hg, by simp [chOf, hg], ?_⟩
      cases y with
      | null =>
        simp only [Shows] at hs
        subst hs
        exact .inl ⟨by simp [ht, Datum.isNull], by simp [cntOf, hy]⟩
      | bits v =>
        refine .inl ⟨?_, by simp [cntOf, hy]⟩
        have : t.isCont = false := by
          cases t with
          | prim => rfl
          | _ => simp [Shows, isBit] at hs
        simp [ht, this]
      | raw b =>
        refine .inl ⟨?_, by simp [cntOf, hy]⟩
        have : t.isCont = false := by
          cases t with
          | prim => rfl
          | _ => simp [Shows] at hs
        simp [ht, this]
      | node vs =>
        rcases hh with hh | ⟨_, hh, _⟩ | ⟨b, hb⟩
        · cases hh
        · cases hh
        obtain ⟨h1, h2, h3⟩ := node_count hto hb
        have hc : cntOf val p = vs.length := by simp [cntOf, hy]
        have hnn : dt.isNull = false := by
          cases t with
          | prim => simp [Shows] at hs
          | str bb h => obtain ⟨x, _, rfl⟩ := hs; rfl
          | tup => obtain ⟨x, _, rfl, _⟩ := hs; rfl
          | arr => obtain ⟨x, _, rfl, _⟩ := hs; rfl
        refine .inr ⟨by simp [ht, h1, hnn], by rw [hc]; exact h3, ?_, ?_⟩
        · have hg := getElem_ok (p ++ [cntOf val p]) hd hS he
          unfold GetOk at hg
          rw [at_child hy, hc, List.getElem?_eq_none (Nat.le_refl _)] at hg
          rw [hc]
          exact hg
        · intro i hi
          rw [hc] at hi
          refine ih (p ++ [i]) (posOf t vs.length i).ty (vs[i]) ?_ ?_
          · rw [Props.typeAt_append, ht]
            simp only [Option.bind_some, typeAt, Option.bind_eq_bind, tyAtNoData_pos hto h1 h2 hi]
          · rw [at_child hy]; exact List.getElem?_eq_getElem hi

/-- A whole traversal, from the loop. -/
theorem walk_of_runs {β : Type} {look : List Nat → Option (Option β)} {down : List Nat → β → Option Bool}
    {choose : List Nat → β → Choice} {base : Pa} {rel : Nat} {l : List (List Nat)} (junk : Nat → Nat) (hb : base.len ≤ base.cells.length)
    (hcap : base.len + rel < 2 ^ 32) (h : Runs look down choose base.len (base.len + rel) base.path l) :
    ∃ fuel, walk look down choose base rel junk fuel = some l := by
  have hl : base.path.length = base.len := by simp [path]; omega
  have h0 : Holds (base.len + rel) ⟨(List.range (base.len + rel)).map junk, 0⟩ [] := ⟨by simp, rfl, rfl⟩
  obtain ⟨a, h1, h2⟩ := append_ok h0 (c := base.cells.length) (t := base) (q := base.path) ⟨rfl, hl.symm, rfl⟩ (by rw [hl]; simp)
  obtain ⟨f, hf⟩ := h a h2
  refine ⟨f, ?_⟩
  simp only [walk, Nat.mod_eq_of_lt hcap, h1, Option.bind_eq_bind, Option.bind_some, hf]

end Dti

namespace Props
open Dti Pa

/-- The element at `q` must be visited by a traversal from `base`: it is at most `rel` levels below it, the elements on
the way to it are not NULL and were left by going to the next element, and none of the siblings before it, or before
an element above it, asked to skip its siblings. -/
def Reached (d : Dti) (m : Bytes) (choose : List Nat → Datum → Choice) (base : List Nat) (rel : Nat) (q : List Nat) : Prop :=
  ∃ r, q = base ++ r ∧ r.length ≤ rel ∧ (∃ v, d.getElem m q = some (some v)) ∧ ∀ s i u, r = s ++ i :: u →
    (∃ v, d.getElem m (base ++ s) = some (some v) ∧ v ≠ .null ∧ choose (base ++ s) v = .next) ∧
    ∀ j v, j < i → d.getElem m (base ++ s ++ [j]) = some (some v) → choose (base ++ s ++ [j]) v ≠ .skipSiblings

end Props
namespace Dti
open Pa Props

theorem at_some_iff {d : Dti} {m : Bytes} {S : Nat} {val : Val} {q : List Nat} (hd : TyOk d) (hS : S ≤ m.length)
    (he : Enc d (m.take S) val) : (∃ y, val.at' q = some y) ↔ ∃ v, d.getElem m q = some (some v) := by
  have hg := getElem_ok q hd hS he
  unfold GetOk at hg
  cases ha : val.at' q with
  | none => rw [ha] at hg; simp only at hg; simp [hg]
  | some y =>
    rw [ha] at hg
    simp only at hg
    rcases hg with ⟨_, hg⟩ | ⟨_, _, _, hg, _⟩ <;> simp [hg]

theorem reach_iff {d : Dti} {m : Bytes} {S : Nat} {val : Val} (choose : List Nat → Datum → Choice) (hd : TyOk d)
    (hS : S ≤ m.length) (he : Enc d (m.take S) val) {base q : List Nat} {rel : Nat} {y : Val} (hb : val.at' base = some y) :
    Pa.Reach (chOf d m choose) (cntOf val) rel base q ↔ Reached d m choose base rel q := by
  constructor
  · rintro ⟨r, rfl, h1, h2⟩
    -- all elements on the way exist
    have hall : ∀ (k : Nat) (s : List Nat) (u : List Nat), s.length = k → r = s ++ u → ∃ y, val.at' (base ++ s) = some y := by
      intro k
      induction k with
      | zero => intro s u hs _; rw [List.length_eq_zero_iff.mp hs]; exact ⟨y, by simpa using hb⟩
      | succ k ih =>
        intro s u hs e
        rcases List.eq_nil_or_concat s with rfl | ⟨s, i, rfl⟩
        · cases hs
        obtain ⟨z, hz⟩ := ih s (i :: u) (by simpa using hs) (by simpa using e)
        have hi := (h2 s i u (by simpa using e)).1
        unfold cntOf at hi
        rw [hz] at hi
        cases z with
        | node vs =>
          simp only at hi
          exact ⟨vs[i], by rw [List.concat_eq_append, ← List.append_assoc, at_child hz]; exact List.getElem?_eq_getElem hi⟩
        | _ => simp at hi
    refine ⟨r, rfl, h1, (at_some_iff hd hS he).mp (hall _ r [] rfl (by simp)), ?_⟩
    intro s i u e
    obtain ⟨g1, g2, g3⟩ := h2 s i u e
    obtain ⟨v, hv⟩ := (at_some_iff hd hS he).mp (hall _ s _ rfl e)
    refine ⟨⟨v, hv, ?_, ?_⟩, ?_⟩
    · rintro rfl
      have := (at_null_iff hd hS he).mpr hv
      simp [cntOf, this] at g1
    · simpa [chOf, hv] using g2
    · intro j v hj hv
      have := g3 j hj
      simpa only [chOf, hv] using this
  · rintro ⟨r, rfl, h1, h2, h3⟩
    refine ⟨r, rfl, h1, ?_⟩
    intro s i u e
    obtain ⟨⟨v, g1, g2, g3⟩, g4⟩ := h3 s i u e
    obtain ⟨z, hz⟩ := (at_some_iff hd hS he).mpr ⟨v, g1⟩
    obtain ⟨z', hz'⟩ := (at_some_iff hd hS he).mpr h2
    have hcnt : i < cntOf val (base ++ s) := by
      rw [e, ← List.append_assoc, at_append' val (base ++ s) (i :: u) hz] at hz'
      cases z with
      | null =>
        have := (at_null_iff hd hS he).mp hz
        rw [this] at g1
        cases g1
        exact absurd rfl g2
      | bits => simp [Val.at'] at hz'
      | raw => simp [Val.at'] at hz'
      | node vs =>
        simp only [cntOf, hz]
        simp only [Val.at'] at hz'
        cases hx : vs[i]? with
        | none => simp [hx] at hz'
        | some x => exact (List.getElem?_eq_some_iff.mp hx).1
    refine ⟨hcnt, by simp [chOf, g1, g3], ?_⟩
    intro j hj
    cases hz2 : val.at' (base ++ s ++ [j]) with
    | none =>
      exfalso
      unfold cntOf at hcnt
      rw [hz] at hcnt
      cases z with
      | node vs =>
        simp only at hcnt
        rw [at_child hz, List.getElem?_eq_none_iff] at hz2
        omega
      | _ => simp at hcnt
    | some z2 =>
      obtain ⟨v2, hv2⟩ := (at_some_iff hd hS he).mp ⟨z2, hz2⟩
      simp only [chOf, hv2]
      exact g4 j v2 hj hv2

end Dti
namespace Props
open Dti Pa

/-- C55. The traversal of the elements below `base` ends and does not fault. It visits paths in strictly ascending
lexicographic order (pre-order, none twice), only elements that are to be visited, all of them unless an element
before them was the one sought, and nothing behind the element sought. -/
theorem C55_elements {d t : Dti} {m : Bytes} {S rel : Nat} {base : Pa} (hd : Usable d) (hm : IsTuple d m S)
    (choose : List Nat → Datum → Choice) (hb : base.len ≤ base.cells.length) (ht : d.typeAt base.path = some t)
    (hcap : base.len + rel < 2 ^ 32) (junk : Nat → Nat) :
    ∃ fuel l, d.walkElems m choose base rel junk fuel = some l ∧ l.Pairwise (· < ·) ∧
      (∀ q, q ∈ l → Reached d m choose base.path rel q) ∧
      (∀ q, Reached d m choose base.path rel q →
        q ∈ l ∨ ∃ q' v, q' ∈ l ∧ q' < q ∧ d.getElem m q' = some (some v) ∧ choose q' v = .found) ∧
      (∀ q q' v, q ∈ l → q' ∈ l → d.getElem m q' = some (some v) → choose q' v = .found → ¬ q' < q) := by
  obtain ⟨hS, val, he⟩ := hm
  have hl : base.path.length = base.len := by simp [path]; omega
  cases hy : val.at' base.path with
  | none =>
    have hg := getElem_ok base.path hd.ok hS he
    unfold GetOk at hg
    rw [hy] at hg
    have hr : Runs (fun p => d.getElem m p) (fun p v => do pure ((← d.typeAt p).isCont && !v.isNull)) choose base.len
        (base.len + rel) base.path [] := by
      refine runs_end (v := none) (fun a ha => ?_)
      rw [step_miss hg ha, uncleOr_end ha (by omega)]
      rfl
    obtain ⟨fuel, hf⟩ := walk_of_runs junk hb hcap hr
    refine ⟨fuel, [], hf, by simp, by simp, ?_, by simp⟩
    rintro q ⟨r, rfl, h1, ⟨v, h2⟩, h3⟩
    exfalso
    cases r with
    | nil => rw [List.append_nil, hg] at h2; simp at h2
    | cons i r =>
      obtain ⟨⟨v, h4, _⟩, _⟩ := h3 [] i r rfl
      rw [List.append_nil, hg] at h4
      simp at h4
  | some y =>
    obtain ⟨fuel, hf⟩ := walk_of_runs junk hb hcap
      (base_runs hl (by rw [hl]) (elems_agree choose hd.ok hS he rel base.path t y ht hy))
    obtain ⟨w, _⟩ := pre_walk (ch := chOf d m choose) (cnt := cntOf val) rel base.path
    have hq : ∀ q, q ∈ (pre (chOf d m choose) (cntOf val) rel base.path).1 → ∃ v, d.getElem m q = some (some v) := by
      intro q hq
      obtain ⟨_, _, _, h, _⟩ := (reach_iff choose hd.ok hS he hy).mp (w.sound q hq)
      exact h
    refine ⟨fuel, _, hf, w.sorted, fun q hq => (reach_iff choose hd.ok hS he hy).mp (w.sound q hq), ?_, ?_⟩
    · intro q hr
      rcases w.complete q ((reach_iff choose hd.ok hS he hy).mpr hr) with h | ⟨q', h1, h2, h3⟩
      · exact .inl h
      · obtain ⟨v, hv⟩ := hq q' h1
        exact .inr ⟨q', v, h1, h3, hv, by simpa [chOf, hv] using h2⟩
    · intro q q' v h1 h2 h3 h4
      exact w.last q q' h1 h2 (by simp [chOf, h3, h4])

/-- C55. Without skipping, every element from `base` down to the given depth is visited, exactly once and in pre-order,
except for what lies inside of NULL. -/
theorem C55_all_elements {d t : Dti} {m : Bytes} {S rel : Nat} {base : Pa} (hd : Usable d) (hm : IsTuple d m S)
    (hb : base.len ≤ base.cells.length) (ht : d.typeAt base.path = some t) (hcap : base.len + rel < 2 ^ 32) (junk : Nat → Nat) :
    ∃ fuel l, d.walkElems m (fun _ _ => .next) base rel junk fuel = some l ∧ l.Pairwise (· < ·) ∧
      ∀ q, q ∈ l ↔ ∃ r, q = base.path ++ r ∧ r.length ≤ rel ∧ (∃ v, d.getElem m q = some (some v)) ∧
        ∀ s i u, r = s ++ i :: u → d.getElem m (base.path ++ s) ≠ some (some .null) := by
  obtain ⟨fuel, l, h1, h2, h3, h4, _⟩ := C55_elements (rel := rel) hd hm (fun _ _ => .next) hb ht hcap junk
  refine ⟨fuel, l, h1, h2, fun q => ⟨fun hq => ?_, fun hq => ?_⟩⟩
  · obtain ⟨r, rfl, g1, g2, g3⟩ := h3 q hq
    refine ⟨r, rfl, g1, g2, fun s i u e hn => ?_⟩
    obtain ⟨⟨v, k1, k2, _⟩, _⟩ := g3 s i u e
    rw [k1] at hn
    cases hn
    exact k2 rfl
  · obtain ⟨r, rfl, g1, ⟨v, g2⟩, g3⟩ := hq
    obtain ⟨hS, val, he⟩ := hm
    have hr : Reached d m (fun _ _ => .next) base.path rel (base.path ++ r) := by
      refine ⟨r, rfl, g1, ⟨v, g2⟩, fun s i u e => ⟨?_, by simp⟩⟩
      -- what lies above an element exists
      cases hy : val.at' (base.path ++ s) with
      | some y =>
        obtain ⟨w, hw⟩ := (at_some_iff hd.ok hS he).mp ⟨y, hy⟩
        exact ⟨w, hw, fun hh => g3 s i u e (by rw [hw, hh]), rfl⟩
      | none =>
        exfalso
        obtain ⟨y, hy2⟩ := (at_some_iff hd.ok hS he).mpr ⟨v, g2⟩
        rw [e, ← List.append_assoc] at hy2
        have : ∀ (p q : List Nat) (val : Val), val.at' p = none → val.at' (p ++ q) = none := by
          intro p
          induction p with
          | nil => intro q val h; simp [Val.at'] at h
          | cons a p ih =>
            intro q val h
            cases val with
            | null => simp [Val.at'] at h
            | bits => rfl
            | raw => rfl
            | node vs =>
              simp only [List.cons_append, Val.at'] at h ⊢
              cases hx : vs[a]? with
              | none => rfl
              | some x => rw [hx] at h; exact ih q x h
        rw [this _ _ _ hy] at hy2
        cases hy2
    rcases h4 _ hr with h | ⟨_, _, _, _, _, h⟩
    · exact h
    · cases h

/-- The traversal of the tuple whose array holds 5 and NULL, two levels deep, and of its string, skipping the siblings of
the second character. -/
example : Usable exFinal ∧ IsTuple exFinal exMem 11 ∧ exFinal.typeAt (Pa.path ⟨[], 0⟩) = some exFinal ∧
    (exFinal.setElem exMem [3] (.ptr exArr) 20).bind (fun x => exFinal.walkElems x.1 (fun _ _ => .next) ⟨[], 0⟩ 2 (fun _ => 7) 20) =
      some [[], [0], [1], [2], [3], [3, 0], [3, 1]] ∧
    (exFinal.setElem exMem [2] (.bytes [98, 99, 100]) 20).bind (fun x => exFinal.walkElems x.1
      (fun p _ => if p = [2, 1] then .skipSiblings else .next) ⟨[2, 5], 1⟩ 4 (fun _ => 7) 20) = some [[2], [2, 0], [2, 1]] :=
  ⟨exFinal_usable, exMem_tuple, rfl, by decide +kernel, by decide +kernel⟩

/-- C55 needs the bound on the depth: if it is so large that the sum with the length of the base wraps around, the positions
that are allocated do not even hold the base, and it is copied over their end. A depth of 2^32 - 1 for "no limit" does that
for every base but the tuple itself. -/
theorem C55_depth_wraps (d : Dti) (m : Bytes) (choose : List Nat → Datum → Choice) {base : Pa} {rel : Nat} (h1 : base.len < 2 ^ 32)
    (h2 : rel < 2 ^ 32) (h3 : 2 ^ 32 ≤ base.len + rel) (junk : Nat → Nat) (fuel : Nat) :
    d.walkElems m choose base rel junk fuel = none := by
  have : (base.len + rel) % 2 ^ 32 = base.len + rel - 2 ^ 32 := by
    rw [Nat.mod_eq_sub_mod h3, Nat.mod_eq_of_lt (by omega)]
  simp only [walkElems, walk, append]
  rw [if_neg]
  · rfl
  · rw [this]
    simp only [List.length_map, List.length_range]
    omega

example : (1 : Nat) < 2 ^ 32 ∧ (2 ^ 32 - 1 : Nat) < 2 ^ 32 ∧ 2 ^ 32 ≤ (Pa.mk [2] 1).len + (2 ^ 32 - 1) := by decide

end Props
namespace Dti
open Pa Props

/-- Number of types below a path. -/
def cntTy (d : Dti) (p : List Nat) : Nat :=
  match d.typeAt p with
  | some (.tup _ fs) => fs.length
  | some (.arr ..) => 1
  | some (.str ..) => 1
  | _ => 0

/-- What is chosen at a path. -/
def chTy (d : Dti) (choose : List Nat → Dti → Choice) (p : List Nat) : Choice :=
  match d.lookType p with
  | some t => choose p t
  | none => .next

theorem typeAt_child {d t : Dti} {p : List Nat} (h : d.typeAt p = some t) (i : Nat) : d.typeAt (p ++ [i]) = t.tyAtNoData i := by
  rw [Props.typeAt_append, h]
  simp only [Option.bind_some, typeAt, Option.bind_eq_bind]
  cases t.tyAtNoData i <;> rfl

/-- Arrays, strings and binaries. -/
def isSeq : Dti → Bool
  | .arr .. | .str .. => true
  | _ => false

theorem lookType_child {d t : Dti} {p : List Nat} (h : d.typeAt p = some t) (i : Nat) :
    d.lookType (p ++ [i]) = if t.isSeq = true ∧ i = 1 then none else t.tyAtNoData i := by
  unfold lookType
  rw [typeAt_child h, List.dropLast_concat, h, List.getLast?_concat]
  cases t with
  | prim => cases tyAtNoData _ i <;> simp [isSeq]
  | tup => cases tyAtNoData _ i <;> simp [isSeq]
  | str b hh =>
    by_cases hi : i = 1
    · subst hi; cases tyAtNoData _ 1 <;> rfl
    · cases hx : tyAtNoData (.str b hh) i <;> (simp only [hi, and_false, if_false]; try (split <;> simp_all))
  | arr hh c =>
    by_cases hi : i = 1
    · subst hi; cases tyAtNoData _ 1 <;> rfl
    · cases hx : tyAtNoData (.arr hh c) i <;> (simp only [hi, and_false, if_false]; try (split <;> simp_all))

theorem types_agree {d : Dti} (choose : List Nat → Dti → Choice) (hd : TyOk d) : ∀ (n : Nat) (p : List Nat) (t : Dti),
    d.typeAt p = some t → d.lookType p = some t →
    Agrees (fun p => some (d.lookType p)) (fun _ t => some t.isCont) choose (chTy d choose) (cntTy d) n p := by
  intro n
  induction n with
  | zero =>
    intro p t _ hl
    exact ⟨t, congrArg some hl, by simp [chTy, hl]⟩
  | succ n ih =>
    intro p t ht hl
    refine ⟨t, congrArg some hl, by simp [chTy, hl], ?_⟩
    have hk := fun i => lookType_child ht i
    have hc := fun i => typeAt_child ht i
    have hto := (typeAt_ok p hd ht).1
    have : lim < 2 ^ 32 := by decide
    cases t with
    | prim k h => exact .inl ⟨rfl, by simp [cntTy, ht]⟩
    | str b h =>
      have hn : cntTy d p = 1 := by simp [cntTy, ht]
      refine .inr ⟨rfl, by rw [hn]; decide, by rw [hn]; exact congrArg some (hk 1), ?_⟩
      intro i hi
      have : i = 0 := by omega
      subst this
      have h0 : tyAtNoData (.str b h) 0 = some u8 := by
        cases hto with
        | str _ _ a1 a2 a3 a4 =>
          unfold tyAtNoData
          cases hv : h.isVar
          · simp [isCont, isVarCount, hdr, hv, tyAt]
            have := (a3 hv).2.1
            omega
          · simp [isCont, isVarCount, hv, tyAt]
      exact ih _ _ (by rw [hc]; exact h0) (by rw [hk, if_neg (by simp)]; exact h0)
    | arr h c =>
      have hn : cntTy d p = 1 := by simp [cntTy, ht]
      refine .inr ⟨rfl, by rw [hn]; decide, by rw [hn]; exact congrArg some (hk 1), ?_⟩
      intro i hi
      have : i = 0 := by omega
      subst this
      have h0 : tyAtNoData (.arr h c) 0 = some c := by
        cases hto with
        | arr _ _ a1 a2 a3 a4 a5 =>
          unfold tyAtNoData
          cases hv : h.varCount
          · simp [isCont, isVarCount, hdr, hv, tyAt]
            have := (a4 hv).1
            omega
          · simp [isCont, isVarCount, hv, tyAt, a3]
      exact ih _ _ (by rw [hc]; exact h0) (by rw [hk, if_neg (by simp)]; exact h0)
    | tup h fs =>
      cases hto with
      | tup _ _ a1 a2 a3 a4 a5 a6 a7 a8 a9 a10 a11 a12 =>
        have hn : cntTy d p = fs.length := by simp [cntTy, ht]
        refine .inr ⟨rfl, by rw [hn]; omega, ?_, ?_⟩
        · rw [hn]
          refine congrArg some ((hk _).trans ?_)
          simp [tyAtNoData, isCont, isVarCount, hdr, a4]
        · intro i hi
          rw [hn] at hi
          have h0 : tyAtNoData (.tup h fs) i = some fs[i].2 := by
            simp [tyAtNoData, isCont, isVarCount, hdr, tyAt, List.getElem?_eq_getElem hi]
            omega
          exact ih _ _ (by rw [hc]; exact h0) (by rw [hk, if_neg (by simp [isSeq])]; exact h0)

end Dti
namespace Props
open Dti Pa

/-- The type at `q` must be visited by a traversal from `base`: it is at most `rel` levels below it, the way to it uses the
element 0 of arrays, strings and binaries, the types above it were left by going to the next one, and none of the siblings before it, or
before a type above it, asked to skip its siblings. -/
def ReachedTy (d : Dti) (choose : List Nat → Dti → Choice) (base : List Nat) (rel : Nat) (q : List Nat) : Prop :=
  ∃ r, q = base ++ r ∧ r.length ≤ rel ∧ (∃ t, d.typeAt q = some t) ∧ ∀ s i u, r = s ++ i :: u →
    (∃ t, d.typeAt (base ++ s) = some t ∧ choose (base ++ s) t = .next ∧ ((∀ h fs, t ≠ .tup h fs) → i = 0)) ∧
    ∀ j t, j < i → d.typeAt (base ++ s ++ [j]) = some t → choose (base ++ s ++ [j]) t ≠ .skipSiblings

end Props
namespace Dti
open Pa Props

theorem tyAtNoData_lt {t u : Dti} {i : Nat} (ht : TyOk t) (h : t.tyAtNoData i = some u) :
    t.isCont = true ∧ ∀ hd fs, t = .tup hd fs → i < fs.length := by
  unfold tyAtNoData at h
  split at h
  · cases h
  · rename_i hc
    refine ⟨by simpa using hc, ?_⟩
    rintro hd fs rfl
    cases ht with
    | tup _ _ a1 a2 a3 a4 =>
      split at h
      · cases h
      · rename_i hh
        simp [isVarCount, hdr] at hh
        omega

theorem reachTy_iff {d t0 : Dti} (choose : List Nat → Dti → Choice) (hd : TyOk d) {base q : List Nat} {rel : Nat}
    (hb : d.typeAt base = some t0) (hl : d.lookType base = some t0) :
    Pa.Reach (chTy d choose) (cntTy d) rel base q ↔ ReachedTy d choose base rel q := by
  -- on a way that uses the first element of sequences only, `lookType` finds the type
  have look : ∀ (r : List Nat), (∀ s i u, r = s ++ i :: u → ∃ t, d.typeAt (base ++ s) = some t ∧ (t.isSeq = true → i = 0)) →
      d.lookType (base ++ r) = d.typeAt (base ++ r) := by
    intro r hr
    rcases List.eq_nil_or_concat r with rfl | ⟨s, i, rfl⟩
    · simp [hb, hl]
    · rw [List.concat_eq_append] at hr ⊢
      obtain ⟨t, h1, h2⟩ := hr s i [] rfl
      rw [← List.append_assoc, lookType_child h1, typeAt_child h1, if_neg]
      rintro ⟨h3, h4⟩
      have := h2 h3
      omega
  -- below a type with children
  have hcnt : ∀ {p : List Nat} {i : Nat}, i < cntTy d p → ∃ t, d.typeAt p = some t ∧ t.isCont = true ∧ (t.isSeq = true → i = 0) ∧
      ∀ j, j ≤ i → ∃ u, t.tyAtNoData j = some u := by
    intro p i hi
    unfold cntTy at hi
    cases ht : d.typeAt p with
    | none => rw [ht] at hi; simp at hi
    | some t =>
      rw [ht] at hi
      have hto := (typeAt_ok p hd ht).1
      refine ⟨t, rfl, ?_⟩
      cases t with
      | prim => simp at hi
      | tup h fs =>
        simp only at hi
        refine ⟨rfl, by simp [isSeq], fun j hj => ?_⟩
        cases hto with
        | tup _ _ a1 a2 a3 a4 =>
          refine ⟨fs[j].2, ?_⟩
          simp [tyAtNoData, isCont, isVarCount, hdr, tyAt, List.getElem?_eq_getElem (show j < fs.length by omega)]
          omega
      | str b h =>
        simp only at hi
        refine ⟨rfl, fun _ => by omega, fun j hj => ⟨u8, ?_⟩⟩
        cases hto with
        | str _ _ a1 a2 a3 a4 =>
          unfold tyAtNoData
          cases hv : h.isVar
          · simp [isCont, isVarCount, hdr, hv, tyAt]
            have := (a3 hv).2.1
            omega
          · simp [isCont, isVarCount, hv, tyAt]
      | arr h c =>
        simp only at hi
        refine ⟨rfl, fun _ => by omega, fun j hj => ⟨c, ?_⟩⟩
        cases hto with
        | arr _ _ a1 a2 a3 a4 a5 =>
          unfold tyAtNoData
          cases hv : h.varCount
          · simp [isCont, isVarCount, hdr, hv, tyAt]
            have := (a4 hv).1
            omega
          · simp [isCont, isVarCount, hv, tyAt, a3]
  have notTup : ∀ {t : Dti}, t.isCont = true → ((∀ h fs, t ≠ .tup h fs) ↔ t.isSeq = true) := by
    intro t ht
    cases t <;> simp [isSeq, isCont] at ht ⊢
  constructor
  · rintro ⟨r, rfl, h1, h2⟩
    have way : ∀ s i u, r = s ++ i :: u → ∃ t, d.typeAt (base ++ s) = some t ∧ t.isCont = true ∧ (t.isSeq = true → i = 0) ∧
        ∀ j, j ≤ i → ∃ u, t.tyAtNoData j = some u := fun s i u e => hcnt (h2 s i u e).1
    have way2 : ∀ s u, r = s ++ u → ∀ s' i' u', s = s' ++ i' :: u' → ∃ t, d.typeAt (base ++ s') = some t ∧ (t.isSeq = true → i' = 0) := by
      intro s u e s' i' u' e'
      obtain ⟨t, g1, _, g2, _⟩ := way s' i' (u' ++ u) (by rw [e, e']; simp)
      exact ⟨t, g1, g2⟩
    refine ⟨r, rfl, h1, ?_, ?_⟩
    · rcases List.eq_nil_or_concat r with rfl | ⟨s, i, rfl⟩
      · exact ⟨t0, by simpa using hb⟩
      · obtain ⟨t, g1, _, _, g2⟩ := way s i [] (by simp)
        obtain ⟨u, hu⟩ := g2 i (Nat.le_refl _)
        exact ⟨u, by rw [List.concat_eq_append, ← List.append_assoc, typeAt_child g1, hu]⟩
    · intro s i u e
      obtain ⟨g1, g2, g3⟩ := h2 s i u e
      obtain ⟨t, k1, k2, k3, k4⟩ := way s i u e
      have hls := look s (way2 s _ e)
      refine ⟨⟨t, k1, ?_, fun hh => k3 ((notTup k2).mp hh)⟩, ?_⟩
      · simpa [chTy, hls, k1] using g2
      · intro j t' hj ht'
        have hg := g3 j hj
        have : d.lookType (base ++ s ++ [j]) = some t' := by
          rw [lookType_child k1, if_neg, ← typeAt_child k1, ht']
          rintro ⟨e1, e2⟩
          have := k3 e1
          omega
        simpa only [chTy, this] using hg
  · rintro ⟨r, rfl, h1, ⟨tq, h2⟩, h3⟩
    have way : ∀ s i u, r = s ++ i :: u → ∃ t v, d.typeAt (base ++ s) = some t ∧ t.tyAtNoData i = some v ∧ t.isCont = true ∧
        (t.isSeq = true → i = 0) ∧ i < cntTy d (base ++ s) := by
      intro s i u e
      obtain ⟨⟨t, g1, _, g2⟩, _⟩ := h3 s i u e
      have hv : ∃ v, t.tyAtNoData i = some v := by
        rw [e, ← List.append_assoc, Props.typeAt_append, g1] at h2
        simp only [Option.bind_some, typeAt, Option.bind_eq_bind] at h2
        cases hx : t.tyAtNoData i with
        | none => rw [hx] at h2; cases h2
        | some v => exact ⟨v, rfl⟩
      obtain ⟨v, hv⟩ := hv
      obtain ⟨k1, k2⟩ := tyAtNoData_lt (typeAt_ok _ hd g1).1 hv
      refine ⟨t, v, g1, hv, k1, fun hs => g2 ((notTup k1).mpr hs), ?_⟩
      unfold cntTy
      rw [g1]
      cases t with
      | prim => cases k1
      | tup h fs => exact k2 h fs rfl
      | str b h => have := g2 (by simp); simp only; omega
      | arr h c => have := g2 (by simp); simp only; omega
    refine ⟨r, rfl, h1, ?_⟩
    intro s i u e
    obtain ⟨⟨t, g1, g2, _⟩, g3⟩ := h3 s i u e
    obtain ⟨t', v, k1, k2, k3, k4, k5⟩ := way s i u e
    rw [g1] at k1
    cases k1
    have hls : d.lookType (base ++ s) = d.typeAt (base ++ s) := look s (by
      intro s' i' u' e'
      obtain ⟨t, _, q1, _, _, q2, _⟩ := way s' i' (u' ++ i :: u) (by rw [e, e']; simp)
      exact ⟨t, q1, q2⟩)
    refine ⟨k5, by simp [chTy, hls, g1, g2], ?_⟩
    intro j hj
    obtain ⟨t2, q1, q2, q3, q4⟩ := hcnt k5
    rw [g1] at q1
    cases q1
    obtain ⟨w, hw⟩ := q4 j (by omega)
    have h5 : d.typeAt (base ++ s ++ [j]) = some w := by rw [typeAt_child g1, hw]
    have : d.lookType (base ++ s ++ [j]) = some w := by
      rw [lookType_child g1, if_neg, hw]
      rintro ⟨e1, e2⟩
      have := k4 e1
      omega
    simp only [chTy, this]
    exact g3 j w hj h5

end Dti
namespace Props
open Dti Pa

/-- C55. The traversal of the types below `base` ends and does not fault; it visits paths in strictly ascending lexicographic
order, only types that are to be visited, all of them unless a type before them was the one sought, and nothing behind the
type sought. -/
theorem C55_types {d t : Dti} {rel : Nat} {base : Pa} (hd : Usable d) (choose : List Nat → Dti → Choice)
    (hb : base.len ≤ base.cells.length) (ht : d.typeAt base.path = some t)
    (hs : ∀ p t', base.path = p ++ [1] → d.typeAt p = some t' → ∃ h fs, t' = .tup h fs)
    (hcap : base.len + rel < 2 ^ 32) (junk : Nat → Nat) :
    ∃ fuel l, d.walkTypes choose base rel junk fuel = some l ∧ l.Pairwise (· < ·) ∧
      (∀ q, q ∈ l → ReachedTy d choose base.path rel q) ∧
      (∀ q, ReachedTy d choose base.path rel q →
        q ∈ l ∨ ∃ q' t, q' ∈ l ∧ q' < q ∧ d.typeAt q' = some t ∧ choose q' t = .found) ∧
      (∀ q q' t, q ∈ l → q' ∈ l → d.typeAt q' = some t → choose q' t = .found → ¬ q' < q) := by
  have hl : base.path.length = base.len := by simp [path]; omega
  have hlook : d.lookType base.path = some t := by
    rcases List.eq_nil_or_concat base.path with e | ⟨p, i, e⟩
    · rw [e] at ht ⊢
      simp [lookType, ht]
    · rw [List.concat_eq_append] at e
      rw [e] at ht ⊢
      cases hp : d.typeAt p with
      | none => rw [Props.typeAt_append, hp] at ht; cases ht
      | some t' =>
        rw [lookType_child hp, if_neg, ← typeAt_child hp, ht]
        rintro ⟨h1, rfl⟩
        obtain ⟨h, fs, rfl⟩ := hs p t' e hp
        cases h1
  obtain ⟨fuel, hf⟩ := walk_of_runs junk hb hcap
    (base_runs hl (by rw [hl]) (types_agree choose hd.ok rel base.path t ht hlook))
  obtain ⟨w, _⟩ := pre_walk (ch := chTy d choose) (cnt := cntTy d) rel base.path
  have hiff := fun q => reachTy_iff (rel := rel) (q := q) choose hd.ok ht hlook
  -- at visited paths the type is looked at
  have hlk : ∀ q, q ∈ (pre (chTy d choose) (cntTy d) rel base.path).1 → ∃ t, d.typeAt q = some t ∧ chTy d choose q = choose q t := by
    intro q hq
    obtain ⟨r, rfl, _, ⟨t', h1⟩, h2⟩ := (hiff q).mp (w.sound q hq)
    refine ⟨t', h1, ?_⟩
    have : d.lookType (base.path ++ r) = some t' := by
      rcases List.eq_nil_or_concat r with rfl | ⟨s, i, rfl⟩
      · rw [List.append_nil] at h1 ⊢; rw [ht] at h1; rw [hlook, h1]
      · rw [List.concat_eq_append, ← List.append_assoc] at h1 ⊢
        obtain ⟨⟨u, g1, _, g2⟩, _⟩ := h2 s i [] (by simp)
        rw [lookType_child g1, if_neg, ← typeAt_child g1, h1]
        rintro ⟨e1, e2⟩
        have := g2 (by rintro h fs rfl; cases e1)
        omega
    simp [chTy, this]
  refine ⟨fuel, _, hf, w.sorted, fun q hq => (hiff q).mp (w.sound q hq), ?_, ?_⟩
  · intro q hr
    rcases w.complete q ((hiff q).mpr hr) with h | ⟨q', h1, h2, h3⟩
    · exact .inl h
    · obtain ⟨t', g1, g2⟩ := hlk q' h1
      exact .inr ⟨q', t', h1, h3, g1, by rw [← g2]; exact h2⟩
  · intro q q' t' h1 h2 h3 h4
    obtain ⟨t'', g1, g2⟩ := hlk q' h2
    rw [h3] at g1
    cases g1
    exact w.last q q' h1 h2 (by rw [g2]; exact h4)

/-- All types inside of the example type, and those below its array. -/
example : Usable exFinal ∧ exFinal.walkTypes (fun _ _ => .next) ⟨[], 0⟩ 5 (fun _ => 7) 20 =
      some [[], [0], [1], [2], [2, 0], [3], [3, 0]] ∧
    exFinal.walkTypes (fun p _ => if p = [3] then .skipChildren else .next) ⟨[3], 1⟩ 5 (fun _ => 7) 20 = some [[3]] :=
  ⟨exFinal_usable, by decide +kernel, by decide +kernel⟩

/-- C55 needs the condition on the base: the traversal of types from the second element of an array, string or binary visits nothing,
though there is a type. -/
theorem C55_types_second {d t t' : Dti} {p : List Nat} {rel : Nat} {base : Pa} (choose : List Nat → Dti → Choice)
    (hb : base.len ≤ base.cells.length) (he : base.path = p ++ [1]) (ht : d.typeAt p = some t) (hs : ∀ h fs, t ≠ .tup h fs)
    (ht' : d.typeAt (p ++ [1]) = some t') (hcap : base.len + rel < 2 ^ 32) (junk : Nat → Nat) :
    ∃ fuel, d.walkTypes choose base rel junk fuel = some [] := by
  have hl : base.path.length = base.len := by simp [path]; omega
  have hseq : t.isSeq = true := by
    cases t with
    | prim => rw [typeAt_child ht] at ht'; simp [tyAtNoData, isCont] at ht'
    | tup h fs => exact absurd rfl (hs h fs)
    | _ => rfl
  refine walk_of_runs junk hb hcap (runs_end (v := none) (fun a ha => ?_))
  rw [step_miss (p := base.path) (by rw [he, lookType_child ht, if_pos ⟨hseq, rfl⟩]) ha, uncleOr_end ha (by omega)]
  rfl

example : (∃ t, exFinal.typeAt [3] = some t ∧ ∀ h fs, t ≠ .tup h fs) ∧ (exFinal.typeAt [3, 1]).isSome ∧
    exFinal.walkTypes (fun _ _ => .next) ⟨[3, 1], 2⟩ 5 (fun _ => 7) 3 = some [] :=
  ⟨⟨_, rfl, by simp⟩, rfl, by decide +kernel⟩

end Props
end TS
