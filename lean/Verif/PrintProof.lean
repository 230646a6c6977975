import Verif.Print
import Verif.HashProof
import Verif.SetFits
/-
What the printing functions print.
-/
namespace TS
namespace Dti

/-- The texts in `ts` with a comma between every two. -/
def joined : List (List Tok) → List Tok
  | [] => []
  | x :: r => x ++ r.flatMap (fun y => .txt ", " :: y)

/-- A variable sized element that is not NULL is printed behind its offset. -/
def mark (t : Dti) (y : Val) (o : Nat) (x : List Tok) : List Tok :=
  match y with
  | .null => x
  | _ => if t.isVar then .off o :: x else x

/-- What is printed for a value of a given type. The offsets of variable sized elements are
arbitrary, and so is where a string is cut. -/
inductive Renders : Dti → Val → List Tok → Prop
  | null {t} : Renders t .null [.txt "NULL"]
  | bits {h n} : Renders (.prim .bitField h) (.bits n) [.hex n]
  | uint {k h b} : k = .uint ∨ k = .largeUint → Renders (.prim k h) (.raw b) [.num (leDec b)]
  | int {k h b} : k = .int ∨ k = .largeInt → Renders (.prim k h) (.raw b) [.int (intDec b)]
  | flt {h b} : Renders (.prim .float h) (.raw b) [.flt b]
  | string {h y x} (ps : List Bytes) : y = chars x → ps.flatten = strn x →
      Renders (.str false h) y ([.txt "\""] ++ ps.map .str ++ [.txt "\""])
  | binary {h y x} : y = chars x → Renders (.str true h) y
      ([.txt "BINARY<", .num x.length, .txt ">["] ++ x.flatMap (fun x => [.txt " 0x", .hex x.toNat]) ++ [.txt "]"])
  | tup {h fs vs n} (bs ts : List (List Tok)) (os : Nat → Nat) : Sz (.tup h fs) (.node vs) n →
      bs.length = vs.length → ts.length = vs.length →
      (∀ i t y b, (Dti.tup h fs).tyAt i = some t → vs[i]? = some y → bs[i]? = some b → Renders t y b) →
      (∀ i t y b, (Dti.tup h fs).tyAt i = some t → vs[i]? = some y → bs[i]? = some b → ts[i]? = some (mark t y (os i) b)) →
      Renders (.tup h fs) (.node vs) ([.txt "("] ++ [.str (cname h.name)] ++ [.txt ")<", .num n, .txt ">("] ++ joined ts ++ [.txt ")"])
  | arr {h c vs n} (bs ts : List (List Tok)) (os : Nat → Nat) : Sz (.arr h c) (.node vs) n →
      bs.length = vs.length → ts.length = vs.length →
      (∀ (i : Nat) y b, vs[i]? = some y → bs[i]? = some b → Renders c y b) →
      (∀ (i : Nat) y b, vs[i]? = some y → bs[i]? = some b → ts[i]? = some (mark c y (os i) b)) →
      Renders (.arr h c) (.node vs) ([.txt "ARRAY<", .num n, .txt ">["] ++ joined ts ++ [.txt "]"])

/-- Every tuple inside of the value has a type whose name leaves room for a NUL. -/
def NamesFit (t : Dti) (y : Val) : Prop :=
  ∀ pa h fs vs, y.at' pa = some (.node vs) → t.typeAt pa = some (.tup h fs) → (cname h.name).length < 64

theorem strn_self (l : Bytes) (hl : ∀ b ∈ l, b ≠ 0) : strn l = l := by
  induction l with
  | nil => rfl
  | cons a l ih =>
    have := ih (fun b hb => hl b (by simp [hb]))
    unfold strn at this ⊢
    simp [hl a (by simp), this]

theorem printCharsN_ok : ∀ (n : Nat) (x : Bytes), x.length ≤ n → (∀ b ∈ x, b ≠ 0) →
    ∃ ps : List Bytes, printCharsN n x = ps.map .str ∧ ps.flatten = x := by
  intro n
  induction n with
  | zero =>
    intro x hx _
    exact ⟨[], rfl, by rw [List.length_eq_zero_iff.mp (by omega : x.length = 0)]; rfl⟩
  | succ n ih =>
    intro x hx h
    by_cases h0 : x.length = 0
    · refine ⟨[], ?_, by rw [List.length_eq_zero_iff.mp h0]; rfl⟩
      simp [printCharsN, h0]
    · obtain ⟨ps, h1, h2⟩ := ih (x.drop 1024) (by rw [List.length_drop]; omega) (fun b hb => h b (List.mem_of_mem_drop hb))
      refine ⟨x.take 1024 :: ps, ?_, by simp [h2]⟩
      rw [printCharsN, if_neg h0, h1, List.map_cons, strn_self _ (fun b hb => h b (List.mem_of_mem_take hb))]

theorem printChars_ok (x : Bytes) (h : ∀ b ∈ x, b ≠ 0) :
    ∃ ps : List Bytes, printChars x = ps.map .str ∧ ps.flatten = x := printCharsN_ok _ x (Nat.le_refl _) h

theorem strn_nz (x : Bytes) : ∀ b ∈ strn x, b ≠ 0 := by
  intro b hb
  unfold strn at hb
  have := List.all_takeWhile (p := (· != 0)) (l := x)
  rw [List.all_eq_true] at this
  simpa using this b hb

/-! ### the loops -/

/-- The common form of the two loops. -/
def gloop (f : Nat → Option (List Tok)) : Nat → Nat → Option (List Tok)
  | 0, _ => some []
  | k + 1, i => do
    let x ← f i
    pure (comma i ++ x ++ (← gloop f k (i + 1)))

/-- What the common form prints for one element. -/
def pstep (d : Dti) (m : Bytes) (i : Nat) : Option (List Tok) := do
  let p ← d.posInfo m i
  match ← d.getContUnsafe m i with
  | none => pure []
  | some c => do pure ((← d.printOff m p c) ++ (← printDatum p.ty c))

/-- The elements from index `i` on. -/
def joinFrom (i : Nat) (ts : List (List Tok)) : List Tok :=
  if i = 0 then joined ts else ts.flatMap (fun y => .txt ", " :: y)

theorem joinFrom_cons (i : Nat) (x : List Tok) (ts : List (List Tok)) :
    comma i ++ x ++ joinFrom (i + 1) ts = joinFrom i (x :: ts) := by
  unfold comma joinFrom
  by_cases h : i = 0
  · subst h; simp [joined]
  · simp [h]

theorem gloop_some (f : Nat → Option (List Tok)) : ∀ (ts : List (List Tok)) (i : Nat), (∀ j x, ts[j]? = some x → f (i + j) = some x) →
    gloop f ts.length i = some (joinFrom i ts) := by
  intro ts
  induction ts with
  | nil => intro i _; unfold joinFrom; split <;> simp [gloop, joined]
  | cons x ts ih =>
    intro i h
    have h0 := h 0 x rfl
    have h1 := ih (i + 1) (fun j y hy => by rw [← h (j + 1) y hy]; congr 1; omega)
    simp only [Nat.add_zero] at h0
    simp only [List.length_cons, gloop, h0, h1, Option.bind_eq_bind, Option.bind_some, Option.pure_def, joinFrom_cons]

theorem gloop_none (f : Nat → Option (List Tok)) : ∀ (k i j : Nat), j < k → f (i + j) = none → gloop f k i = none := by
  intro k
  induction k with
  | zero => intro i j hj; omega
  | succ k ih =>
    intro i j hj hf
    cases j with
    | zero => rw [Nat.add_zero] at hf; simp [gloop, hf]
    | succ j =>
      have := ih (i + 1) j (by omega) (by rw [← hf]; congr 1; omega)
      simp only [gloop, this]
      cases f i <;> rfl

theorem printLoop_gloop (h : Hdr) (c : Dti) (m : Bytes) : ∀ k i,
    printLoop (printDatum c) (.arr h c) m k i = gloop (pstep (.arr h c) m) k i := by
  intro k
  induction k with
  | zero => intro i; rfl
  | succ k ih =>
    intro i
    simp only [printLoop, gloop, ih, pstep]
    cases hp : (Dti.arr h c).posInfo m i with
    | none => rfl
    | some p =>
      have : p.ty = c := by
        unfold posInfo at hp
        simp only [tyAt, Option.bind_eq_bind, Option.bind_some, Option.bind_eq_some_iff] at hp
        obtain ⟨a, _, hp⟩ := hp
        split at hp
        · split at hp <;> (obtain ⟨a', _, hp⟩ := hp; cases hp; rfl)
        · split at hp <;> (obtain ⟨a', _, hp⟩ := hp; obtain ⟨a2, _, hp⟩ := Option.bind_eq_some_iff.mp hp; cases hp; rfl)
      subst this
      simp only [Option.bind_eq_bind, Option.bind_some]
      cases (Dti.arr h p.ty).getContUnsafe m i with
      | none => rfl
      | some x =>
        cases x with
        | none => rfl
        | some c =>
          simp only [Option.bind_some]
          cases (Dti.arr h p.ty).printOff m p c with
          | none => rfl
          | some x => simp only [Option.bind_some]; cases printDatum p.ty c <;> rfl

theorem printFlds_gloop (h : Hdr) (fs : List (Fld × Dti)) (m : Bytes) (n : Nat) (hn : n = fs.length) :
    ∀ (r : List (Fld × Dti)) (i : Nat), i + r.length = fs.length → (∀ j, r[j]? = fs[i + j]?) →
      printFlds r (.tup h fs) m n i = gloop (pstep (.tup h fs) m) r.length i := by
  intro r
  induction r with
  | nil => intro i hi _; simp only [List.length_nil] at hi; simp only [printFlds, gloop, List.length_nil]; rw [if_neg (by omega)]
  | cons p r ih =>
    intro i hi hr
    obtain ⟨f, t⟩ := p
    simp only [List.length_cons] at hi
    have hfi : fs[i]? = some (f, t) := by have := hr 0; simpa using this.symm
    have hnext := ih (i + 1) (by omega) (fun j => by
      have := hr (j + 1); simp only [List.getElem?_cons_succ] at this; rw [this]; congr 1; omega)
    simp only [printFlds, List.length_cons, gloop, hnext, pstep]
    rw [if_pos (by omega)]
    simp only [posInfo, hfi, Option.map_some, Option.bind_eq_bind, Option.bind_some]
    cases (Dti.tup h fs).getContUnsafe m i with
    | none => rfl
    | some x =>
      cases x with
      | none => rfl
      | some c =>
        simp only [Option.bind_some]
        cases (Dti.tup h fs).printOff m ⟨f.off, f.vbit, t⟩ c with
        | none => rfl
        | some x => simp only [Option.bind_some]; cases printDatum t c <;> rfl

/-! ### elements -/

theorem shows_null {t : Dti} {y : Val} {c : Datum} (h : Shows t y c) : c.isNull = true ↔ y = .null := by
  cases y with
  | null => cases h; simp [Datum.isNull]
  | bits v => obtain ⟨_, rfl⟩ := h; simp [Datum.isNull]
  | raw b =>
    cases t with
    | prim k hd => cases k <;> simp only [Shows] at h <;> first | exact h.elim | (subst h; simp [Datum.isNull])
    | _ => exact h.elim
  | node vs =>
    cases t with
    | prim => exact h.elim
    | str => obtain ⟨x, _, rfl⟩ := h; simp [Datum.isNull]
    | tup => obtain ⟨m, S, rfl, _⟩ := h; simp [Datum.isNull]
    | arr => obtain ⟨m, S, rfl, _⟩ := h; simp [Datum.isNull]

theorem mark_eq (t : Dti) (y : Val) (o : Nat) (x : List Tok) :
    (t.isVar = true ∧ y ≠ .null ∧ mark t y o x = .off o :: x) ∨ ((t.isVar = false ∨ y = .null) ∧ mark t y o x = x) := by
  cases y <;> cases h : t.isVar <;> simp [mark, h]

/-- One element of a tuple or array. -/
theorem pstep_ok {d : Dti} (hd : TyOk d) (hc : d.isCont = true) {m : Bytes} {S : Nat} {vs : List Val}
    (hS : S ≤ m.length) (he : Enc d (m.take S) (.node vs)) {i : Nat} {y : Val} (hy : vs[i]? = some y) :
    ∃ t c o, d.tyAt i = some t ∧ d.tyAtNoData i = some t ∧ TyOk t ∧ Shows t y c ∧ Held t y ∧
      pstep d m i = (printDatum t c).map (mark t y o) := by
  obtain ⟨cs, o, vs', h1, r, hv⟩ := crep_of_enc hd hc hS he
  cases h1
  have hcnt := getCount_eq hd hc r
  have hlt : i < cs.length := by rw [← hv.1]; exact (List.getElem?_eq_some_iff.mp hy).1
  have hty := tyAtNoData_pos hd hc r.countOk hlt
  have htA : d.tyAt i = some (posOf d cs.length i).ty := by
    unfold tyAtNoData at hty
    rw [hc] at hty
    simp only [Bool.not_true, Bool.false_eq_true, if_false] at hty
    split at hty
    · cases hty
    · exact hty
  have hpi := posInfo_eq hd hc r hlt
  have hok := posOf_ok hd hc r.countOk hlt
  have hg := getElem_ok [i] hd hS he
  have hat : (Val.node vs).at' [i] = some y := by simp [Val.at', hy]
  have hta : d.typeAt [i] = some (posOf d cs.length i).ty := by
    simp only [typeAt, hty, Option.bind_eq_bind, Option.bind_some]
  have hh := held_at [i] hd (.inr (.inr ⟨_, he⟩)) hat hta
  unfold GetOk at hg
  rw [hat, hta] at hg
  simp only at hg
  obtain ⟨c, hcg, hcs⟩ : ∃ c, d.getElem m [i] = some (some c) ∧ Shows (posOf d cs.length i).ty y c := by
    rcases hg with ⟨rfl, hg⟩ | ⟨t, dt, h1, h2, h3⟩
    · exact ⟨.null, hg, rfl⟩
    · cases h1; exact ⟨dt, h2, h3⟩
  have hu : d.getContUnsafe m i = some (some c) := by
    have : d.getCont m i = some (some c) := hcg
    unfold getCont at this
    rw [hc, hcnt] at this
    simp only [Bool.not_true, Bool.false_eq_true, if_false, Option.bind_eq_bind, Option.bind_some] at this
    rw [if_neg (by omega)] at this
    exact this
  have hof : ∀ x, (d.printOff m (posOf d cs.length i) c).map (· ++ x) =
      some (mark (posOf d cs.length i).ty y (d.word m (posOf d cs.length i).off) x) := by
    intro x
    unfold printOff
    rcases mark_eq (posOf d cs.length i).ty y (d.word m (posOf d cs.length i).off) x with ⟨h1, h2, h3⟩ | ⟨h1, h3⟩
    · rw [h3, if_pos (by simp only [h1, Bool.true_and, Bool.not_eq_true']; exact Bool.eq_false_iff.mpr (fun hx => h2 ((shows_null hcs).mp hx)))]
      have hb : (posOf d cs.length i).ty.isBit = false := by
        generalize (posOf d cs.length i).ty = t at hok h1
        cases hok with
        | prim k h _ a => exact absurd h1 (by simp [isVar, hdr, a])
        | _ => rfl
      have hs := slot_ok hd hc r hlt hb
      simp only [slot, h1, if_true] at hs
      unfold loadVal
      rw [load_eq (by unfold w at hs; omega)]
      rfl
    · rw [h3, if_neg (by
        intro hh
        simp only [Bool.and_eq_true, Bool.not_eq_true'] at hh
        rcases h1 with h1 | h1
        · rw [h1] at hh; cases hh.1
        · rw [(shows_null hcs).mpr h1] at hh; cases hh.2)]
      rfl
  refine ⟨_, c, d.word m (posOf d cs.length i).off, htA, hty, hok, hcs, hh, ?_⟩
  unfold pstep
  simp only [hpi, hu, Option.bind_eq_bind, Option.bind_some]
  cases hpo : d.printOff m (posOf d cs.length i) c with
  | none => have := hof []; rw [hpo] at this; cases this
  | some w =>
    rw [hpo] at hof
    cases printDatum (posOf d cs.length i).ty c with
    | none => rfl
    | some x => exact hof x

theorem namesFit_null (t : Dti) : NamesFit t .null := by
  intro pa h fs vs ha
  cases pa <;> simp [Val.at'] at ha

theorem namesFit_node {d : Dti} {vs : List Val} {tys : Nat → Option Dti}
    (hty : ∀ i y, vs[i]? = some y → d.tyAtNoData i = tys i) :
    NamesFit d (.node vs) ↔ (∀ h fs, d = .tup h fs → (cname h.name).length < 64) ∧
      ∀ i t y, tys i = some t → vs[i]? = some y → NamesFit t y := by
  constructor
  · intro hn
    refine ⟨fun h fs hd => hn [] h fs vs rfl (by rw [hd]; rfl), fun i t y ht hy pa h fs vs' ha hta => ?_⟩
    refine hn (i :: pa) h fs vs' (by simp [Val.at', hy, ha]) ?_
    simp only [typeAt, hty i y hy, ht, Option.bind_eq_bind, Option.bind_some, hta]
  · rintro ⟨h1, h2⟩ pa h fs vs' ha hta
    cases pa with
    | nil => simp only [typeAt, Option.some.injEq] at hta; exact h1 h fs hta
    | cons i pa =>
      simp only [Val.at'] at ha
      cases hy : vs[i]? with
      | none => simp [hy] at ha
      | some y =>
        rw [hy] at ha
        simp only [typeAt, hty i y hy, Option.bind_eq_bind] at hta
        cases ht : tys i with
        | none => simp [ht] at hta
        | some t =>
          rw [ht] at hta
          exact h2 i t y ht hy pa h fs vs' ha hta

/-- The loop over all elements. -/
theorem ploop_ok {d : Dti} (hd : TyOk d) (hc : d.isCont = true) {m : Bytes} {S : Nat} {vs : List Val}
    (hS : S ≤ m.length) (he : Enc d (m.take S) (.node vs))
    (ih : ∀ i t, d.tyAt i = some t → TyOk t → ∀ {y : Val} {dt : Datum}, Shows t y dt → Held t y →
      (NamesFit t y → ∃ x, printDatum t dt = some x ∧ Renders t y x) ∧ (¬ NamesFit t y → printDatum t dt = none)) :
    ((∀ i t y, d.tyAt i = some t → vs[i]? = some y → NamesFit t y) →
      ∃ bs ts : List (List Tok), ∃ os : Nat → Nat, bs.length = vs.length ∧ ts.length = vs.length ∧
        (∀ i t y b, d.tyAt i = some t → vs[i]? = some y → bs[i]? = some b → Renders t y b) ∧
        (∀ i t y b, d.tyAt i = some t → vs[i]? = some y → bs[i]? = some b → ts[i]? = some (mark t y (os i) b)) ∧
        gloop (pstep d m) vs.length 0 = some (joined ts)) ∧
    (¬ (∀ i t y, d.tyAt i = some t → vs[i]? = some y → NamesFit t y) → gloop (pstep d m) vs.length 0 = none) := by
  constructor
  · intro hn
    have hex : ∀ i, ∃ b o, ∀ t y, d.tyAt i = some t → vs[i]? = some y → Renders t y b ∧ pstep d m i = some (mark t y o b) := by
      intro i
      cases hy : vs[i]? with
      | none => exact ⟨[], 0, by intro t y _ h; cases h⟩
      | some y =>
        obtain ⟨t, c, o, a1, a2, a3, a4, a5, a6⟩ := pstep_ok hd hc hS he hy
        obtain ⟨x, b1, b2⟩ := (ih i t a1 a3 a4 a5).1 (hn i t y a1 hy)
        refine ⟨x, o, fun t' y' ht' hy' => ?_⟩
        rw [a1] at ht'; cases ht'; cases hy'
        exact ⟨b2, by rw [a6, b1]; rfl⟩
    obtain ⟨bf, hbf⟩ := Classical.axiomOfChoice hex
    obtain ⟨os, hos⟩ := Classical.axiomOfChoice hbf
    have hts : ∀ i y, vs[i]? = some y → ∃ t, d.tyAt i = some t := by
      intro i y hy
      obtain ⟨t, c, o, a1, _⟩ := pstep_ok hd hc hS he hy
      exact ⟨t, a1⟩
    have hps : ∀ i, ∃ x, i < vs.length → pstep d m i = some x := by
      intro i
      by_cases hlt : i < vs.length
      · obtain ⟨t, ht⟩ := hts i _ (List.getElem?_eq_getElem hlt)
        exact ⟨_, fun _ => (hos i t _ ht (List.getElem?_eq_getElem hlt)).2⟩
      · exact ⟨[], fun h => absurd h hlt⟩
    obtain ⟨tf, htf⟩ := Classical.axiomOfChoice hps
    have hget : ∀ (f : Nat → List Tok) i x, ((List.range vs.length).map f)[i]? = some x → i < vs.length ∧ x = f i := by
      intro f i x h
      rw [List.getElem?_map, Option.map_eq_some_iff] at h
      obtain ⟨j, h1, h2⟩ := h
      obtain ⟨h3, h4⟩ := List.getElem?_eq_some_iff.mp h1
      simp at h3 h4
      subst h4
      exact ⟨h3, h2.symm⟩
    refine ⟨(List.range vs.length).map bf, (List.range vs.length).map tf, os, by simp, by simp, ?_, ?_, ?_⟩
    · intro i t y b ht hy hb
      obtain ⟨_, rfl⟩ := hget _ _ _ hb
      exact (hos i t y ht hy).1
    · intro i t y b ht hy hb
      obtain ⟨hlt, rfl⟩ := hget _ _ _ hb
      have h1 := (hos i t y ht hy).2
      rw [htf i hlt] at h1
      rw [← h1, List.getElem?_map, List.getElem?_range hlt]
      rfl
    · have := gloop_some (pstep d m) ((List.range vs.length).map tf) 0 (fun j x hx => by
        obtain ⟨hlt, rfl⟩ := hget _ _ _ hx
        rw [Nat.zero_add]; exact htf j hlt)
      simpa [joinFrom] using this
  · intro hn
    have : ∃ i t y, d.tyAt i = some t ∧ vs[i]? = some y ∧ ¬ NamesFit t y := by
      refine Classical.byContradiction fun hx => hn fun i t y ht hy => Classical.byContradiction fun hz => hx ⟨i, t, y, ht, hy, hz⟩
    obtain ⟨i, t, y, ht, hy, hf⟩ := this
    obtain ⟨t', c, o, a1, a2, a3, a4, a5, a6⟩ := pstep_ok hd hc hS he hy
    rw [ht] at a1; cases a1
    refine gloop_none _ _ 0 i (List.getElem?_eq_some_iff.mp hy).1 ?_
    rw [Nat.zero_add, a6, (ih i t ht a3 a4 a5).2 hf]
    rfl

/-- `print_datum` on a value read from a tuple. -/
theorem printDatum_ok : ∀ {t : Dti}, TyOk t → ∀ {y : Val} {dt : Datum}, Shows t y dt → Held t y →
    (NamesFit t y → ∃ x, printDatum t dt = some x ∧ Renders t y x) ∧ (¬ NamesFit t y → printDatum t dt = none) := by
  intro t
  have hnull : ∀ (t : Dti), printDatum t .null = some [.txt "NULL"] := by
    intro t
    cases t with
    | str b h => cases b <;> simp [printDatum, Datum.isNull]
    | _ => simp [printDatum, Datum.isNull]
  have hleaf : ∀ {t : Dti} {y : Val} {dt : Datum}, (∀ vs, y = .node vs → ∀ h fs, t ≠ .tup h fs) → (∀ i, t.tyAtNoData i = none ∨ t.tyAtNoData i = some u8) →
      (∃ x, printDatum t dt = some x ∧ Renders t y x) →
      (NamesFit t y → ∃ x, printDatum t dt = some x ∧ Renders t y x) ∧ (¬ NamesFit t y → printDatum t dt = none) := by
    intro t y dt h1 h2 h3
    refine ⟨fun _ => h3, fun h => absurd ?_ h⟩
    intro pa hd fs vs ha ht
    cases pa with
    | nil =>
      simp only [Val.at', typeAt, Option.some.injEq] at ha ht
      exact absurd ht (h1 vs ha hd fs)
    | cons i pa =>
      simp only [typeAt, Option.bind_eq_bind] at ht
      rcases h2 i with h2 | h2 <;> rw [h2] at ht
      · cases ht
      · cases pa with
        | nil => cases ht
        | cons j pa => simp [typeAt, tyAtNoData, isCont, u8] at ht
  induction t using Dti.ind with
  | hp k hd =>
    intro ho y dt hs hh
    refine hleaf (fun vs _ h fs => by simp) (fun i => .inl (by simp [tyAtNoData, isCont])) ?_
    cases y with
    | null => cases hs; exact ⟨_, hnull _, .null⟩
    | bits v =>
      obtain ⟨h1, rfl⟩ := hs
      cases k <;> first | (simp [isBit] at h1; done) | exact ⟨_, rfl, .bits⟩
    | node => exact hs.elim
    | raw b =>
      rcases hh with hh | ⟨v, hh, _⟩ | ⟨b', hh⟩
      · cases hh
      · cases hh
      · obtain ⟨hk, hl, hb⟩ := enc_prim hh
        cases hb
        cases k with
        | bitField => exact absurd rfl hk
        | uint => simp only [Shows] at hs; subst hs; exact ⟨_, rfl, .uint (.inl rfl)⟩
        | largeUint => simp only [Shows] at hs; subst hs; exact ⟨_, rfl, .uint (.inr rfl)⟩
        | int => simp only [Shows] at hs; subst hs; exact ⟨_, rfl, .int (.inl rfl)⟩
        | largeInt => simp only [Shows] at hs; subst hs; exact ⟨_, rfl, .int (.inr rfl)⟩
        | float =>
          simp only [Shows] at hs
          subst hs
          have hz : hd.size = 4 ∨ hd.size = 8 := by cases ho with | prim _ _ _ _ _ _ _ _ a => exact a rfl
          refine ⟨[.flt b], ?_, .flt⟩
          simp only [printDatum, Datum.isNull, printFlt, hz, if_true, Datum.asFlt, hl]
          rfl
  | hs bin hd =>
    intro ho y dt hs hh
    refine hleaf (fun vs _ h fs => by simp) (fun i => ?_) ?_
    · unfold tyAtNoData; split
      · exact .inl rfl
      · split
        · exact .inl rfl
        · exact .inr rfl
    cases y with
    | null => cases hs; exact ⟨_, hnull _, .null⟩
    | bits v => simp [Shows, isBit] at hs
    | raw b => exact hs.elim
    | node vs =>
      obtain ⟨x, h1, rfl⟩ := hs
      cases bin with
      | true => exact ⟨_, rfl, .binary h1⟩
      | false =>
        obtain ⟨ps, q1, q2⟩ := printChars_ok (strn x) (strn_nz x)
        refine ⟨_, ?_, .string ps h1 q2⟩
        rw [← q1]
        rfl
  | ht hd fs ih =>
    intro ho y dt hs hh
    cases y with
    | null => cases hs; exact ⟨fun _ => ⟨_, hnull _, .null⟩, fun h => absurd (namesFit_null _) h⟩
    | bits v => simp [Shows, isBit] at hs
    | raw b => exact hs.elim
    | node vs =>
      obtain ⟨m, S, rfl, hS, he⟩ := hs
      obtain ⟨k1, k2, k3⟩ := kids_ptr ho rfl nofun hS he
      have hlen : vs.length = fs.length := by
        rw [k2 rfl]; cases ho with | tup _ _ _ _ _ a => exact a.symm
      have hfit := namesFit_node (d := .tup hd fs) (vs := vs) (tys := (Dti.tup hd fs).tyAt) (fun i y hy => by
        obtain ⟨t, c, o, a1, a2, _⟩ := pstep_ok ho rfl hS he hy
        rw [a1, a2])
      have hcnt : getCount (.tup hd fs) m = some vs.length := k1
      have hsz : getSize (.tup hd fs) m = some S := by
        have hl : (m.take S).length = S := by simp; omega
        have z1 := (enc_size ho he).1
        rw [hl] at z1
        have := getSize_at (d := .tup hd fs) (m := m) (b := m.take S) (o := 0) (by rw [hl]; exact z1) (by rw [hl, rd_zero_eq_take])
        rw [List.drop_zero, hl] at this; exact this
      have hs' : Sz (.tup hd fs) (.node vs) S := .inr ⟨_, he, by simp; omega⟩
      have hloop := ploop_ok ho rfl hS he (fun i t ht hto => by
        simp only [tyAt, Option.map_eq_some_iff] at ht
        obtain ⟨⟨f, t'⟩, e1, rfl⟩ := ht
        exact ih f t' (List.mem_of_getElem? e1) hto)
      have hflds := printFlds_gloop hd fs m vs.length hlen fs 0 (by simp) (by simp)
      rw [← hlen] at hflds
      constructor
      · intro hn
        obtain ⟨n1, n2⟩ := hfit.mp hn
        obtain ⟨bs, ts, os, l1, l2, l3, l4, l5⟩ := hloop.1 n2
        refine ⟨_, ?_, .tup bs ts os hs' l1 l2 l3 l4⟩
        simp only [printDatum, Datum.isNull, Datum.asPtr, printName, n1 hd fs rfl, if_true, hsz, hcnt, hflds, l5, Bool.false_eq_true,
          if_false, Option.bind_eq_bind, Option.bind_some, Option.pure_def]
      · intro hn
        by_cases n1 : (cname hd.name).length < 64
        · have n2 : ¬ ∀ i t y, (Dti.tup hd fs).tyAt i = some t → vs[i]? = some y → NamesFit t y := fun hx =>
            hn (hfit.mpr ⟨fun h fs' e => by cases e; exact n1, hx⟩)
          have := hloop.2 n2
          simp only [printDatum, Datum.isNull, Datum.asPtr, printName, n1, if_true, hsz, hcnt, hflds, this, Bool.false_eq_true,
            if_false, Option.bind_eq_bind, Option.bind_some, Option.bind_none]
        · simp only [printDatum, Datum.isNull, Datum.asPtr, printName, n1, Bool.false_eq_true, if_false, Option.bind_eq_bind,
            Option.bind_some, Option.bind_none]
  | ha hd c ih =>
    intro ho y dt hs hh
    cases y with
    | null => cases hs; exact ⟨fun _ => ⟨_, hnull _, .null⟩, fun h => absurd (namesFit_null _) h⟩
    | bits v => simp [Shows, isBit] at hs
    | raw b => exact hs.elim
    | node vs =>
      obtain ⟨m, S, rfl, hS, he⟩ := hs
      obtain ⟨k1, k2, k3⟩ := kids_ptr ho rfl nofun hS he
      have hfit := namesFit_node (d := .arr hd c) (vs := vs) (tys := (Dti.arr hd c).tyAt) (fun i y hy => by
        obtain ⟨t, c, o, a1, a2, _⟩ := pstep_ok ho rfl hS he hy
        rw [a1, a2])
      have hcnt : getCount (.arr hd c) m = some vs.length := k1
      have hsz : getSize (.arr hd c) m = some S := by
        have hl : (m.take S).length = S := by simp; omega
        have z1 := (enc_size ho he).1
        rw [hl] at z1
        have := getSize_at (d := .arr hd c) (m := m) (b := m.take S) (o := 0) (by rw [hl]; exact z1) (by rw [hl, rd_zero_eq_take])
        rw [List.drop_zero, hl] at this; exact this
      have hs' : Sz (.arr hd c) (.node vs) S := .inr ⟨_, he, by simp; omega⟩
      have hloop := ploop_ok ho rfl hS he (fun i t ht hto => by
        simp only [tyAt, Option.some.injEq] at ht
        subst ht
        exact ih hto)
      have harr := printLoop_gloop hd c m vs.length 0
      constructor
      · intro hn
        obtain ⟨n1, n2⟩ := hfit.mp hn
        obtain ⟨bs, ts, os, l1, l2, l3, l4, l5⟩ := hloop.1 n2
        refine ⟨_, ?_, .arr bs ts os hs' l1 l2 (fun i y b => l3 i c y b rfl) (fun i y b => l4 i c y b rfl)⟩
        simp only [printDatum, Datum.isNull, Datum.asPtr, hsz, hcnt, harr, l5, Bool.false_eq_true,
          if_false, Option.bind_eq_bind, Option.bind_some, Option.pure_def]
      · intro hn
        have n2 : ¬ ∀ i t y, (Dti.arr hd c).tyAt i = some t → vs[i]? = some y → NamesFit t y := fun hx =>
          hn (hfit.mpr ⟨nofun, hx⟩)
        have := hloop.2 n2
        simp only [printDatum, Datum.isNull, Datum.asPtr, hsz, hcnt, harr, this, Bool.false_eq_true,
          if_false, Option.bind_eq_bind, Option.bind_some, Option.bind_none]

end Dti
end TS
