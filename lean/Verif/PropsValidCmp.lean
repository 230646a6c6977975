import Verif.ValidCmp
import Verif.PropsValid
import Verif.PropsValidPage
import Verif.PropsPrint
/-
Property C83: comparing, hashing and printing bytes of unknown origin.
-/
namespace TS
namespace Props
open Dti

/-- The value that is found at a position, a NULL if nothing can be read there. -/
noncomputable def valueAt (d : Dti) (m : Bytes) (pa : List Nat) : SVal :=
  open Classical in if h : ∃ s, Seen d m pa s then choose h else .null

theorem valueAt_seen {d : Dti} {m : Bytes} (h : TyOk d) (hs : safe d m = true) (pa : List Nat) : Seen d m pa (valueAt d m pa) := by
  have := safe_seen h hs pa
  unfold valueAt
  rw [dif_pos this]
  exact Classical.choose_spec this

/-- C83. If two pieces of memory pass the weaker check of C81, whatever they contain, comparing them at
any positions stays within them, and goes by values that each position has by itself, in each of them:
so the order laws of C45 hold for such memory too. -/
theorem C83_compare : ∃ V : Dti → Bytes → List Nat → SVal,
    (∀ (d1 d2 : Dti) (m1 m2 : Bytes) (ps : List CmpPos), Usable d1 → Usable d2 → safe d1 m1 = true → safe d2 m2 = true →
      (∀ p ∈ ps, SamePtr p.same (d1.typeAt p.p1) (d2.typeAt p.p2)) → (∀ p ∈ ps, p.dir = 1 ∨ p.dir = -1) →
      (∀ p ∈ ps, ∀ t, d1.typeAt p.p1 = some t → ShortNames t) →
      Lexicographic (ps.map (fun p => ⟨PosComparable p.same (d1.typeAt p.p1) (d2.typeAt p.p2), (V d1 m1 p.p1).ord (V d2 m2 p.p2), p.dir⟩))
        (compareTuples m1 d1 m2 d2 ps)) ∧
    (∀ (d : Dti) (m1 m2 : Bytes) (ps : List (List Nat × Int)), Usable d → safe d m1 = true → safe d m2 = true →
      (∀ p ∈ ps, p.2 = 1 ∨ p.2 = -1) →
      Lexicographic (ps.map (fun p => ⟨True, (V d m1 p.1).ord (V d m2 p.1), p.2⟩)) (compareTuples2 m1 m2 d ps)) ∧
    (∀ (d : Dti) (m : Bytes) (S : Nat) (val : Val) (pa : List Nat), Usable d → S ≤ m.length → Enc d (m.take S) val →
      V d m pa = posVal d val pa) := by
  refine ⟨valueAt, ?_, ?_, ?_⟩
  · intro d1 d2 m1 m2 ps u1 u2 s1 s2 hsame hdir hnames
    refine cmpMany_lex _ _ ps (fun _ _ => rfl) hdir (fun p hp => ?_)
    obtain ⟨v1, e1, g1, g1'⟩ := valueAt_seen u1.ok s1 p.p1
    obtain ⟨v2, e2, g2, g2'⟩ := valueAt_seen u2.ok s2 p.p2
    have hun : compareElems p.same m1 d1 p.p1 m2 d2 p.p2 =
        (if p.same then compareDatum2 v1 v2 (d2.typeAt p.p2) else compareDatum v1 (d1.typeAt p.p1) v2 (d2.typeAt p.p2)) := by
      simp only [compareElems, e1, e2, Option.bind_eq_bind, Option.bind_some]
    refine ⟨fun hc => ⟨?_, SVal.ord_range _ _⟩, fun hc => ?_⟩
    · show compareElems _ _ _ _ _ _ _ = _
      rw [hun]; exact compare_pos_st (hsame p hp) g1 g1' g2 g2' hc
    · show compareElems _ _ _ _ _ _ _ = _
      rw [hun]
      simp only [PosComparable] at hc
      cases ht1 : d1.typeAt p.p1 with
      | none => rw [ht1] at hc; exact absurd trivial hc
      | some t1 =>
        cases ht2 : d2.typeAt p.p2 with
        | none => rw [ht1, ht2] at hc; exact absurd trivial hc
        | some t2 =>
          rw [ht1, ht2] at hc
          simp only [not_or, Bool.not_eq_true] at hc
          rw [hc.1]
          simp only [Bool.false_eq_true, if_false]
          obtain ⟨b, hb⟩ := C42_comparable_total (hnames p hp t1 ht1) t2
          cases b with
          | true => exact absurd hb hc.2
          | false => exact C42_not_comparable _ _ hb
  · intro d m1 m2 ps u s1 s2 hdir
    refine cmpMany_lex _ _ ps (fun _ _ => rfl) hdir (fun p hp => ⟨fun _ => ⟨?_, SVal.ord_range _ _⟩, fun h => absurd trivial h⟩)
    obtain ⟨v1, q1, g1, g1'⟩ := valueAt_seen u.ok s1 p.1
    obtain ⟨v2, q2, g2, g2'⟩ := valueAt_seen u.ok s2 p.1
    have := compare_pos_st (same := true) (fun _ => rfl) g1 g1' g2 g2' (by unfold PosComparable; split <;> simp)
    simp only [if_true] at this
    simp only [compareElems2, q1, q2, Option.bind_eq_bind, Option.bind_some, this]
  · intro d m S val pa u hS he
    obtain ⟨v, h1, h2, h3⟩ := elemOrNull_means u.ok hS he pa
    have hseen : Seen d m pa (posVal d val pa) := ⟨v, h1, fun t ht => ⟨(h2 t ht).1, (h2 t ht).2.stands (h2 t ht).1⟩, h3⟩
    have hex : ∃ s, Seen d m pa s := ⟨_, hseen⟩
    unfold valueAt
    rw [dif_pos hex]
    exact (Classical.choose_spec hex).unique hseen

/-- Two strings in one place, compared with a tuple and with each other. -/
example : Usable exPairF ∧ safe exPairF [5, 3, 3, 1, 97] = true ∧ (¬ ∃ S, IsTuple exPairF [5, 3, 3, 1, 97] S) ∧
    safe exPairF [7, 3, 5, 1, 97, 1, 98] = true ∧
    compareTuples2 [5, 3, 3, 1, 97] [7, 3, 5, 1, 97, 1, 98] exPairF [([0], 1)] = some 0 ∧
    compareTuples2 [5, 3, 3, 1, 97] [7, 3, 5, 1, 97, 1, 98] exPairF [([0], 1), ([1], 1)] = some (-1) ∧
    compareTuples [5, 3, 3, 1, 97] exPairF [5, 3, 3, 1, 97] exPairF [⟨[0], [1], false, 1⟩] = some 0 := by
  refine ⟨exPairF_usable, by decide +kernel, ?_, by decide +kernel, by decide +kernel, by decide +kernel, by decide +kernel⟩
  intro h
  obtain ⟨S, h1, _, h3⟩ := (C81_announced exPairF_usable).mp h
  have : exPairF.getSize [5, 3, 3, 1, 97] = some 5 := by decide +kernel
  rw [this] at h1; cases h1
  revert h3; decide +kernel

/-- C83. Hashing such memory at any positions stays within it, and the same bytes are fed to every hash
function. -/
theorem C83_hash {d : Dti} {m : Bytes} (hu : Usable d) (hs : safe d m = true) (ps : List (List Nat)) :
    ∃ bs : Bytes, ∀ (σ : Type) (upd : σ → UInt8 → σ) (h : σ), hashTuple upd m d ps h = some (hashBytes upd h bs) := by
  have hone : ∀ pa, ∃ bs : Bytes, ∀ (σ : Type) (upd : σ → UInt8 → σ) (h : σ), hashElem upd h m d pa = some (hashBytes upd h bs) := by
    intro pa
    cases ht : d.typeAt pa with
    | none => exact ⟨[], fun σ upd h => by simp [hashElem, ht, hashBytes]⟩
    | some t =>
      obtain ⟨v, h1, h2, _⟩ := safe_at pa hu.ok hs
      obtain ⟨bs, hb⟩ := (h2 t ht).2.fed (h2 t ht).1
      refine ⟨bs, fun σ upd h => ?_⟩
      rw [← hb σ upd h]
      simp only [elemOrNull, Option.bind_eq_bind] at h1
      obtain ⟨o, o1, o2⟩ := Option.bind_eq_some_iff.mp h1
      cases o with
      | none => simp at o2; subst o2; simp [hashElem, ht, o1, hash_null]
      | some x => simp at o2; subst o2; simp [hashElem, ht, o1]
  induction ps with
  | nil => exact ⟨[], fun σ upd h => rfl⟩
  | cons p ps ih =>
    obtain ⟨b1, h1⟩ := hone p
    obtain ⟨b2, h2⟩ := ih
    exact ⟨b1 ++ b2, fun σ upd h => by
      simp only [hashTuple, h1, h2, Option.bind_eq_bind, Option.bind_some, hashBytes_append]⟩

/-- C83. The two ways to hash a whole datum agree on such memory. -/
theorem C83_two_ways {d : Dti} {m : Bytes} (hu : Usable d) (hb : d.isBit = false) (hs : safe d m = true) :
    ∃ v, d.getDatum m = some (some v) ∧ ∃ bs : Bytes, ∀ (σ : Type) (upd : σ → UInt8 → σ) (h : σ),
      hashDatum upd h d v = some (hashBytes upd h bs) ∧ hashData upd h d m = some (hashBytes upd h bs) := by
  obtain ⟨v, bs, h1, h2, h3⟩ := safe_fed d hu.ok m hb hs
  exact ⟨v, h1, bs, fun σ upd h => ⟨h2 σ upd h, h3 σ upd h⟩⟩

/-- C83. If two pieces of such memory compare as equal at some positions without FLOATs, they are hashed
to the same value over these positions. -/
theorem C83_equal_hash {σ : Type} (upd : σ → UInt8 → σ) {m1 m2 : Bytes} {d : Dti} {ps : List (List Nat × Int)}
    (hd : Usable d) (s1 : safe d m1 = true) (s2 : safe d m2 = true) (hdir : ∀ p ∈ ps, p.2 = 1 ∨ p.2 = -1)
    (hf : ∀ p ∈ ps, ∀ t, d.typeAt p.1 = some t → NoFloat t) (he : compareTuples2 m1 m2 d ps = some 0) (h : σ) :
    ∃ h', hashTuple upd m1 d (ps.map (·.1)) h = some h' ∧ hashTuple upd m2 d (ps.map (·.1)) h = some h' := by
  have hl : Lexicographic (ps.map (fun p => ⟨True, (valueAt d m1 p.1).ord (valueAt d m2 p.1), p.2⟩)) (compareTuples2 m1 m2 d ps) := by
    refine cmpMany_lex _ _ ps (fun _ _ => rfl) hdir (fun p hp => ⟨fun _ => ⟨?_, SVal.ord_range _ _⟩, fun h => absurd trivial h⟩)
    obtain ⟨v1, q1, g1, g1'⟩ := valueAt_seen hd.ok s1 p.1
    obtain ⟨v2, q2, g2, g2'⟩ := valueAt_seen hd.ok s2 p.1
    have := compare_pos_st (same := true) (fun _ => rfl) g1 g1' g2 g2' (by unfold PosComparable; split <;> simp)
    simp only [if_true] at this
    simp only [compareElems2, q1, q2, Option.bind_eq_bind, Option.bind_some, this]
  rw [he] at hl
  have hz := lex_zero hl (by
    intro c hc
    obtain ⟨p, hp, rfl⟩ := List.mem_map.mp hc
    exact hdir p hp)
  replace hz : ∀ p ∈ ps, valueAt d m1 p.1 = valueAt d m2 p.1 := fun p hp =>
    (C45_zero_iff_equal _ _).mp (hz _ (List.mem_map_of_mem hp)).2
  clear hl he hdir
  induction ps generalizing h with
  | nil => exact ⟨h, rfl, rfl⟩
  | cons p ps ih =>
    have hstep : ∃ h', hashElem upd h m1 d p.1 = some h' ∧ hashElem upd h m2 d p.1 = some h' := by
      cases ht : d.typeAt p.1 with
      | none => exact ⟨h, by simp [hashElem, ht], by simp [hashElem, ht]⟩
      | some t =>
        obtain ⟨v1, q1, g1, _⟩ := valueAt_seen hd.ok s1 p.1
        obtain ⟨v2, q2, g2, _⟩ := valueAt_seen hd.ok s2 p.1
        have hh : ∀ {m : Bytes} {v : Datum}, d.elemOrNull m p.1 = some v → hashElem upd h m d p.1 = hashDatum upd h t v := by
          intro m v hv
          unfold elemOrNull at hv
          simp only [Option.bind_eq_bind] at hv
          obtain ⟨o, o1, o2⟩ := Option.bind_eq_some_iff.mp hv
          cases o with
          | none => simp at o2; subst o2; simp [hashElem, ht, o1, hash_null]
          | some x => simp at o2; subst o2; simp [hashElem, ht, o1]
        rw [hh q1, hh q2]
        refine hash_same_st (g1 t ht).1 (hf p (by simp) t ht) (g1 t ht).2 ?_ h
        rw [hz p (by simp)]
        exact (g2 t ht).2
    obtain ⟨h', s1, s2⟩ := hstep
    obtain ⟨h'', r1, r2⟩ := ih (fun q hq => hf q (List.mem_cons_of_mem _ hq)) h' (fun q hq => hz q (List.mem_cons_of_mem _ hq))
    exact ⟨h'', by simp [hashTuple, s1, r1], by simp [hashTuple, s2, r2]⟩

/-- The same two strings in one place or in two. -/
example : NoFloat exPairF ∧ safe exPairF [5, 3, 3, 1, 97] = true ∧ safe exPairF [7, 5, 3, 1, 97, 1, 97] = true ∧
    compareTuples2 [5, 3, 3, 1, 97] [7, 5, 3, 1, 97, 1, 97] exPairF [([0], 1), ([1], -1)] = some 0 ∧
    hashTuple cat [5, 3, 3, 1, 97] exPairF [[0], [1]] [] = some [97, 97] ∧
    hashData cat [] exPairF [5, 3, 3, 1, 97] = some [97, 97] := by
  refine ⟨by simp [exPairF, NoFloat, NoFloatAll], by decide +kernel, by decide +kernel, by decide +kernel, by decide +kernel,
    by decide +kernel⟩

/-- C83. Printing such memory stays within it, if the names of the tuple types in it have less than 64
characters. -/
theorem C83_print {d : Dti} {m : Bytes} (hu : Usable d) (hb : d.isBit = false) (hs : safe d m = true)
    (hn : ∀ pa h fs, d.typeAt pa = some (.tup h fs) → (cname h.name).length < 64) : ∃ x, d.printTuple m = some x := by
  obtain ⟨v, h1, h2⟩ := safe_read hu.ok hb hs
  obtain ⟨x, hx⟩ := SafeD.printed d hu.ok hn v h2
  exact ⟨x ++ [.txt "\n"], by simp [printTuple, printData, h1, hx]⟩

example : exPairF.printTuple [5, 3, 3, 1, 97] =
    some [.txt "(", .str [], .txt ")<", .num 5, .txt ">(", .off 3, .txt "\"", .str [97], .txt "\"", .txt ", ", .off 3, .txt "\"",
      .str [97], .txt "\"", .txt ")", .txt "\n"] := by decide +kernel

/-- C83. On a page of unknown origin that passes the check of C82, and whose tuples pass this one: wherever
a tuple is found, the memory from there on passes too, and printing the page stays within it. -/
theorem C83_page {ps h : Nat} {sd : SizeDef} {ty : Dti} {pg : Bytes} (l : Legal ps h sd) (hu : Usable ty) (hb : ty.isBit = false)
    (hk : okPage ps h sd pg = true) (hs : ∀ t, some t ∈ slotsOf ps h sd pg → safe ty t = true) :
    (∀ i o, Api.getNth pg ps sd i = some (some o) → safe ty (pg.drop o) = true) ∧
    ((∀ pa h fs, ty.typeAt pa = some (.tup h fs) → (cname h.name).length < 64) → ∃ x, Api.printPage pg ps sd ty = some x) := by
  have r := okPage_prep l hk
  have hdrop : ∀ {o : Nat} {t : Bytes}, some t ∈ slotsOf ps h sd pg → (pg.drop o).take t.length = t → safe ty (pg.drop o) = true := by
    intro o t hm ht
    rw [← List.take_append_drop t.length (pg.drop o), ht]
    exact safe_append ty hu.ok _ _ (hs t hm)
  constructor
  · intro i o hg
    obtain ⟨_, _, h3⟩ := C82_queries l hk
    obtain ⟨t, h1, h2, _, h4⟩ := h3 i o hg
    refine hdrop (List.mem_of_getElem? (i := i) ?_) h4
    unfold lookup at h1
    cases hx : (slotsOf ps h sd pg)[i]? with
    | none => simp [hx] at h1
    | some q => rw [hx] at h1; exact congrArg some h1
  · intro hn
    have hslot : ∀ i, i < (slotsOf ps h sd pg).length → ∃ x, Api.printSlot pg ps sd ty i = some x := by
      intro i hi
      cases hq : (slotsOf ps h sd pg)[i] with
      | none =>
        have hlk : lookup (slotsOf ps h sd pg) i = none := by simp [lookup, List.getElem?_eq_getElem hi, hq]
        exact ⟨_, by simp [Api.printSlot, r.existsTuple, hlk]; rfl⟩
      | some t =>
        have hq' : (slotsOf ps h sd pg)[i]? = some (some t) := by rw [List.getElem?_eq_getElem hi, hq]
        have hlk := lookup_some hq'
        rcases r.getNth i with ⟨o, t', g1, g2, g3, g4, g5⟩ | ⟨_, hnn⟩
        · rw [hq'] at g2; cases g2
          obtain ⟨x, hx⟩ := C83_print hu hb (hdrop (List.mem_of_getElem? hq') g4) hn
          unfold Api.printSlot
          rw [r.existsTuple, hlk]
          simp only [Option.isSome_some, if_true, Option.bind_eq_bind, Option.bind_some, g1, hx, g5]
          split <;> exact ⟨_, rfl⟩
        · exact absurd hq' (hnn t)
    obtain ⟨ts, t1, t2⟩ := fin_choice (fun i x => Api.printSlot pg ps sd ty i = some x) _ hslot
    have hps := printSlots_some (pg := pg) (ps := ps) (sd := sd) (ty := ty) ts 0 (fun j x hx => by rw [Nat.zero_add]; exact t2 j x hx)
    rw [t1] at hps
    have q := rep_queries r
    obtain ⟨a, ha⟩ := Option.isSome_iff_exists.mp q.spaceAllotted
    obtain ⟨b, hb⟩ := Option.isSome_iff_exists.mp q.spaceOcc
    obtain ⟨c, hc⟩ := Option.isSome_iff_exists.mp q.spaceTomb
    obtain ⟨f, hf⟩ := Option.isSome_iff_exists.mp q.freeSpace
    obtain ⟨g, hg⟩ := Option.isSome_iff_exists.mp q.fragmentation
    simp only [Api.printPage, Api.printTuples, ha, hb, hc, hf, hg, r.tupleCount, r.tombCount, hps, Option.bind_eq_bind, Option.bind_some]
    unfold Api.slotted
    cases hv : sd.isVar with
    | true => simp only [if_true, Option.pure_def, Option.bind_some]; exact ⟨_, rfl⟩
    | false =>
      have : ∃ k, Fixed.capacity pg ps sd = some k := by
        rcases r with r | ⟨r, _⟩
        · have := r.var; rw [hv] at this; cases this
        · exact ⟨_, Fixed.capacity_eq r.base r.pos⟩
      obtain ⟨k, hk⟩ := this
      simp only [Bool.false_eq_true, if_false, hk, Option.pure_def, Option.bind_some]
      exact ⟨_, rfl⟩

/-- A page with one tuple, whose two strings lie in the same place (so it is not among those of C81). -/
example : let pg := badPage [6, 1, 0, 123, 123] [5, 3, 3, 1, 97]
    Legal 128 8 exVar ∧ Usable exPairF ∧ okPage 128 8 exVar pg = true ∧
    slotsOf 128 8 exVar pg = [some [5, 3, 3, 1, 97]] ∧ safe exPairF [5, 3, 3, 1, 97] = true ∧
    (Api.printPage pg 128 exVar exPairF).isSome = true :=
  ⟨exVar_legal, exPairF_usable, by decide +kernel, by decide +kernel, by decide +kernel, by decide +kernel⟩

/-- C83. The check is needed: an offset behind the memory is followed by all three. -/
theorem C83_needed : exPairF.printTuple [5, 3, 60, 1, 97] = none ∧ hashTuple cat [5, 3, 60, 1, 97] exPairF [[1]] [] = none ∧
    hashData cat [] exPairF [5, 3, 60, 1, 97] = none ∧
    compareTuples2 [5, 3, 60, 1, 97] [5, 3, 3, 1, 97] exPairF [([1], 1)] = none ∧ safe exPairF [5, 3, 60, 1, 97] = false := by
  decide +kernel

end Props
end TS
