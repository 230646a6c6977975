import Verif.PrintProof
import Verif.PrintType
import Verif.PropsInPlace
import Verif.PropsPage3
/-
C64: printing.
-/
namespace TS
namespace Props
open Dti

/-- What is printed without the offsets inside of tuples and pages, and without a trace of where
strings were cut. -/
def plain (x : List Tok) : List Tok :=
  x.flatMap (fun
    | .off _ => []
    | .str b => b.map (fun c => .str [c])
    | t => [t])

theorem plain_append (a b : List Tok) : plain (a ++ b) = plain a ++ plain b := by simp [plain]

theorem plain_strs (ps : List Bytes) : plain (ps.map .str) = ps.flatten.map (fun c => .str [c]) := by
  induction ps with
  | nil => rfl
  | cons p ps ih =>
    rw [List.map_cons, List.flatten_cons, List.map_append, ← ih]
    rfl

theorem plain_mark (t : Dti) (y : Val) (o : Nat) (x : List Tok) : plain (mark t y o x) = plain x := by
  rcases mark_eq t y o x with ⟨_, _, h⟩ | ⟨_, h⟩ <;> rw [h]
  rfl

theorem plain_joined : ∀ {a b : List (List Tok)}, a.map plain = b.map plain → plain (joined a) = plain (joined b) := by
  intro a b h
  have key : ∀ (l k : List (List Tok)), l.map plain = k.map plain →
      plain (l.flatMap (fun y => .txt ", " :: y)) = plain (k.flatMap (fun y => .txt ", " :: y)) := by
    intro l
    induction l with
    | nil => intro k hk; cases k with | nil => rfl | cons => cases hk
    | cons x l ih =>
      intro k hk
      cases k with
      | nil => cases hk
      | cons y k =>
        simp only [List.map_cons, List.cons.injEq] at hk
        rw [List.flatMap_cons, List.flatMap_cons, plain_append, plain_append, ih k hk.2]
        have : ∀ z, plain (.txt ", " :: z) = .txt ", " :: plain z := fun z => rfl
        rw [this, this, hk.1]
  cases a with
  | nil => cases b with | nil => rfl | cons => cases h
  | cons x a =>
    cases b with
    | nil => cases h
    | cons y b =>
      simp only [List.map_cons, List.cons.injEq] at h
      simp only [joined]
      rw [plain_append, plain_append, h.1, key a b h.2]

theorem map_plain_eq {n : Nat} {a b : List (List Tok)} (ha : a.length = n) (hb : b.length = n)
    (h : ∀ (i : Nat) x y, a[i]? = some x → b[i]? = some y → plain x = plain y) : a.map plain = b.map plain := by
  apply List.ext_getElem (by simp [ha, hb])
  intro i h1 h2
  simp only [List.length_map] at h1 h2
  simp only [List.getElem_map]
  exact h i _ _ (List.getElem?_eq_getElem h1) (List.getElem?_eq_getElem h2)

/-- The value determines the text. -/
theorem renders_plain {t : Dti} {y : Val} {a : List Tok} (ha : Renders t y a) : TyOk t → ∀ {b}, Renders t y b →
    plain a = plain b := by
  induction ha with
  | null => intro _ b hb; cases hb <;> first | rfl | (rename_i h _; unfold chars at h; cases h) | (rename_i h; unfold chars at h; cases h)
  | bits => intro _ b hb; cases hb <;> first | rfl | (rename_i h _; cases h) | (rename_i h; cases h)
  | uint hk =>
    intro _ b hb
    cases hb with
    | uint => rfl
    | int hk' => rcases hk with rfl | rfl <;> rcases hk' with h | h <;> cases h
    | flt => rcases hk with h | h <;> cases h
  | int hk =>
    intro _ b hb
    cases hb with
    | int => rfl
    | uint hk' => rcases hk with rfl | rfl <;> rcases hk' with h | h <;> cases h
    | flt => rcases hk with h | h <;> cases h
  | flt =>
    intro _ b hb
    cases hb with
    | flt => rfl
    | uint hk => rcases hk with h | h <;> cases h
    | int hk => rcases hk with h | h <;> cases h
  | @string _ y x ps h1 h2 =>
    intro _ b hb
    cases hb with
    | null => unfold chars at h1; cases h1
    | @string _ _ x' ps' h1' h2' =>
      have : x = x' := chars_inj (h1.symm.trans h1')
      subst this
      rw [plain_append, plain_append, plain_append, plain_append, plain_strs, plain_strs, h2, h2']
  | @binary _ y x h1 =>
    intro _ b hb
    cases hb with
    | null => unfold chars at h1; cases h1
    | @binary _ _ x' h1' =>
      have : x = x' := chars_inj (h1.symm.trans h1')
      subst this
      rfl
  | @tup h fs vs n bs ts os h1 h2 h3 h4 h5 ih =>
    intro ho b hb
    cases hb with
    | @tup _ _ _ n' bs' ts' os' g1 g2 g3 g4 g5 =>
      have hn := Sz.unique ho h1 g1
      subst hn
      have : ts.map plain = ts'.map plain := by
        refine map_plain_eq h3 g3 (fun i x x' hx hx' => ?_)
        have hlt : i < vs.length := by rw [← h3]; exact (List.getElem?_eq_some_iff.mp hx).1
        have hy := List.getElem?_eq_getElem hlt
        have hb := List.getElem?_eq_getElem (show i < bs.length by omega)
        have hb' := List.getElem?_eq_getElem (show i < bs'.length by omega)
        obtain ⟨u, e, _⟩ := h1.resolve_left (by rintro ⟨h, _⟩; cases h)
        obtain ⟨t, ht, hok⟩ : ∃ t, (Dti.tup h fs).tyAt i = some t ∧ TyOk t := by
          obtain ⟨_, _, k3⟩ := kids_ptr ho rfl nofun (Nat.le_refl _) (by rw [List.take_length]; exact e)
          obtain ⟨_, t, _, ht, hok, _⟩ := k3 i _ hy
          exact ⟨t, ht, hok⟩
        have e1 := h5 i t _ _ ht hy hb
        have e2 := g5 i t _ _ ht hy hb'
        rw [hx] at e1; rw [hx'] at e2
        cases e1; cases e2
        rw [plain_mark, plain_mark]
        exact ih i t _ _ ht hy hb hok (g4 i t _ _ ht hy hb')
      simp only [plain_append, plain_joined this]
  | @arr h c vs n bs ts os h1 h2 h3 h4 h5 ih =>
    intro ho b hb
    cases hb with
    | @arr _ _ _ n' bs' ts' os' g1 g2 g3 g4 g5 =>
      have hn := Sz.unique ho h1 g1
      subst hn
      have hoc : TyOk c := by cases ho; assumption
      have : ts.map plain = ts'.map plain := by
        refine map_plain_eq h3 g3 (fun i x x' hx hx' => ?_)
        have hlt : i < vs.length := by rw [← h3]; exact (List.getElem?_eq_some_iff.mp hx).1
        have hy := List.getElem?_eq_getElem hlt
        have hb := List.getElem?_eq_getElem (show i < bs.length by omega)
        have hb' := List.getElem?_eq_getElem (show i < bs'.length by omega)
        have e1 := h5 i _ _ hy hb
        have e2 := g5 i _ _ hy hb'
        rw [hx] at e1; rw [hx'] at e2
        cases e1; cases e2
        rw [plain_mark, plain_mark]
        exact ih i _ _ hy hb hoc (g4 i _ _ hy hb')
      simp only [plain_append, plain_joined this]

/-- C64. Printing a tuple: if no tuple inside of it has a type whose name takes all 64 characters,
`print_tuple` reads nothing outside of the tuple and its type and prints the value of the tuple,
element by element, with the number of bytes of every tuple and array; otherwise `printf` runs off
the array that holds the name. -/
theorem C64_print_tuple (hu : Usable d) {m : Bytes} {S : Nat} {y : Val} (hS : S ≤ m.length) (he : Enc d (m.take S) y) :
    (NamesFit d y → ∃ x, d.printTuple m = some (x ++ [.txt "\n"]) ∧ Renders d y x) ∧
    (¬ NamesFit d y → d.printTuple m = none) := by
  obtain ⟨dt, h1, h2⟩ := getDatum_ok hu.ok hS he
  obtain ⟨k1, k2⟩ := printDatum_ok hu.ok h2 (.inr (.inr ⟨_, he⟩))
  constructor
  · intro hn
    obtain ⟨x, e1, e2⟩ := k1 hn
    exact ⟨x, by simp [printTuple, printData, h1, e1], e2⟩
  · intro hn
    simp [printTuple, printData, h1, k2 hn]

/-- C64. Two tuples with the same value print the same text, up to the offsets of their variable
sized elements, wherever these are. -/
theorem C64_same_text (hu : Usable d) {m m' : Bytes} {S S' : Nat} {y : Val} (hS : S ≤ m.length) (he : Enc d (m.take S) y)
    (hS' : S' ≤ m'.length) (he' : Enc d (m'.take S') y) :
    (d.printTuple m).map plain = (d.printTuple m').map plain := by
  by_cases hn : NamesFit d y
  · obtain ⟨x, e1, e2⟩ := (C64_print_tuple hu hS he).1 hn
    obtain ⟨x', e1', e2'⟩ := (C64_print_tuple hu hS' he').1 hn
    rw [e1, e1']
    simp only [Option.map_some, plain_append, renders_plain e2 hu.ok e2']
  · rw [(C64_print_tuple hu hS he).2 hn, (C64_print_tuple hu hS' he').2 hn]

/-! ### types -/

/-- Every field of every tuple type inside of `d` has a name that leaves room for a NUL. -/
def FieldsFit (d : Dti) : Prop :=
  ∀ pa h fs f t, d.typeAt pa = some (.tup h fs) → (f, t) ∈ fs → (cname f.name).length < 64

theorem fieldsFit_tup {h : Hdr} {fs : List (Fld × Dti)} (ho : TyOk (.tup h fs)) :
    FieldsFit (.tup h fs) ↔ ∀ f t, (f, t) ∈ fs → (cname f.name).length < 64 ∧ FieldsFit t := by
  have hc : fs.length = h.count := by cases ho; assumption
  have hty : ∀ (i : Nat), (Dti.tup h fs).tyAtNoData i = fs[i]?.map Prod.snd := by
    intro i
    by_cases hi : i < fs.length
    · have hi' : ¬ h.count ≤ i := by omega
      simp [tyAtNoData, isCont, isVarCount, hdr, tyAt, hi']
    · have hi' : h.count ≤ i := by omega
      have : fs[i]? = none := by simp; omega
      simp [tyAtNoData, isCont, isVarCount, hdr, hi', this]
  constructor
  · intro hf f t hm
    refine ⟨hf [] h fs f t rfl hm, fun pa h' fs' f' t' hp hm' => ?_⟩
    obtain ⟨i, hi⟩ := List.getElem?_of_mem hm
    refine hf (i :: pa) h' fs' f' t' ?_ hm'
    simp only [typeAt, hty, hi, Option.map_some, Option.bind_eq_bind, Option.bind_some, hp]
  · intro hf pa h' fs' f' t' hp hm
    cases pa with
    | nil =>
      simp only [typeAt, Option.some.injEq] at hp
      cases hp
      exact (hf f' t' hm).1
    | cons i pa =>
      simp only [typeAt, hty, Option.bind_eq_bind] at hp
      cases hi : fs[i]? with
      | none => simp [hi] at hp
      | some p =>
        rw [hi] at hp
        exact (hf p.1 p.2 (List.mem_of_getElem? hi)).2 pa h' fs' f' t' hp hm

theorem fieldsFit_arr {h : Hdr} {c : Dti} (ho : TyOk (.arr h c)) : FieldsFit (.arr h c) ↔ FieldsFit c := by
  have hty : ∀ i, (Dti.arr h c).tyAtNoData i = none ∨ (Dti.arr h c).tyAtNoData i = some c := by
    intro i; unfold tyAtNoData; split
    · exact .inl rfl
    · split
      · exact .inl rfl
      · exact .inr rfl
  have h0 : (Dti.arr h c).tyAtNoData 0 = some c := by
    cases ho with
    | arr _ _ _ _ b a _ _ _ _ =>
      cases hv : h.varCount with
      | true =>
        have hv' : h.isVar = true := by rw [b, hv]; rfl
        simp [tyAtNoData, isCont, isVarCount, tyAt, hv, hdr, hv']
      | false =>
        have hi' : ¬ h.count = 0 := by have := (a hv).1; omega
        simp [tyAtNoData, isCont, isVarCount, tyAt, hv, hdr, hi']
  constructor
  · intro hf pa h' fs' f' t' hp hm
    refine hf (0 :: pa) h' fs' f' t' ?_ hm
    simp only [typeAt, h0, Option.bind_eq_bind, Option.bind_some, hp]
  · intro hf pa h' fs' f' t' hp hm
    cases pa with
    | nil => simp [typeAt] at hp
    | cons i pa =>
      simp only [typeAt, Option.bind_eq_bind] at hp
      rcases hty i with hi | hi <;> rw [hi] at hp
      · cases hp
      · exact hf pa h' fs' f' t' hp hm

theorem fieldsFit_leaf {d : Dti} (h1 : ∀ h fs, d ≠ .tup h fs) (h2 : ∀ i, d.tyAtNoData i = none ∨ d.tyAtNoData i = some u8) :
    FieldsFit d := by
  intro pa h fs f t hp _
  cases pa with
  | nil => simp only [typeAt, Option.some.injEq] at hp; exact absurd hp (h1 h fs)
  | cons i pa =>
    simp only [typeAt, Option.bind_eq_bind] at hp
    rcases h2 i with h2 | h2 <;> rw [h2] at hp
    · cases hp
    · cases pa with
      | nil => cases hp
      | cons j pa => simp [typeAt, tyAtNoData, isCont, u8] at hp

theorem printTypeRec_iff : ∀ {d : Dti}, TyOk d → ∀ tabs, (printTypeRec d tabs).isSome = true ↔ FieldsFit d := by
  intro d
  induction d using Dti.ind with
  | hp k h =>
    intro ho tabs
    simp only [printTypeRec, Option.isSome_some, true_iff]
    exact fieldsFit_leaf nofun (fun i => .inl (by simp [tyAtNoData, isCont]))
  | hs b h =>
    intro ho tabs
    have hf : h.isFinal = true := by cases ho; assumption
    simp only [printTypeRec, hf, if_true, Option.isSome_some, true_iff]
    refine fieldsFit_leaf nofun (fun i => ?_)
    unfold tyAtNoData; split
    · exact .inl rfl
    · split
      · exact .inl rfl
      · exact .inr rfl
  | ht h fs ih =>
    intro ho tabs
    rw [fieldsFit_tup ho]
    have hc : fs.length = h.count := by cases ho; assumption
    have hok : ∀ f t, (f, t) ∈ fs → TyOk t := by cases ho; assumption
    have key : ∀ (r : List (Fld × Dti)), (∀ f t, (f, t) ∈ r → (f, t) ∈ fs) →
        ((printTypeFlds r r.length tabs).isSome = true ↔ ∀ f t, (f, t) ∈ r → (cname f.name).length < 64 ∧ FieldsFit t) := by
      intro r
      induction r with
      | nil => intro _; simp [printTypeFlds]
      | cons p r ihr =>
        intro hm
        obtain ⟨f, t⟩ := p
        have e1 := ih f t (hm f t (by simp)) (hok f t (hm f t (by simp))) (tabs + 3)
        have e2 := ihr (fun f' t' h' => hm f' t' (by simp [h']))
        have e3 : (∀ f' t', (f', t') ∈ (f, t) :: r → (cname f'.name).length < 64 ∧ FieldsFit t') ↔
            ((cname f.name).length < 64 ∧ FieldsFit t) ∧ ∀ f' t', (f', t') ∈ r → (cname f'.name).length < 64 ∧ FieldsFit t' := by
          constructor
          · exact fun h => ⟨h f t (by simp), fun f' t' h' => h f' t' (by simp [h'])⟩
          · rintro ⟨h1, h2⟩ f' t' h'
            rcases List.mem_cons.mp h' with h' | h'
            · cases h'; exact h1
            · exact h2 f' t' h'
        rw [e3, ← e1, ← e2]
        simp only [List.length_cons, printTypeFlds, printPos, printName]
        by_cases hn : (cname f.name).length < 64
        · rw [if_pos hn]
          simp only [Option.bind_eq_bind, Option.bind_some, Option.pure_def, hn, true_and]
          cases printTypeRec t (tabs + 3) with
          | none => simp
          | some x => cases printTypeFlds r r.length tabs <;> simp
        · rw [if_neg hn]
          simp [hn]
    rw [← key fs (fun f t h => h), hc]
    simp only [printTypeRec]
    cases printTypeFlds fs h.count tabs <;> simp
  | ha h c ih =>
    intro ho tabs
    have hoc : TyOk c := by cases ho; assumption
    rw [fieldsFit_arr ho, ← ih hoc (tabs + 2)]
    simp only [printTypeRec]
    cases printTypeRec c (tabs + 2) <;> simp

/-- C64. `print_type_info` and `print_tuple_def` on a finalised type are defined exactly if no field
of a tuple type inside of it has a name of 64 characters. -/
theorem C64_print_type (hu : Usable d) (sd : SizeDef) :
    ((d.printType).isSome = true ↔ FieldsFit d) ∧ ((printTupleDef sd d).isSome = true ↔ FieldsFit d) := by
  have h := printTypeRec_iff hu.ok 0
  refine ⟨h, ?_⟩
  rw [← h]
  unfold printTupleDef printType
  cases printTypeRec d 0 <;> simp

theorem varUp_of : ∀ {d : Dti}, TyOk d → VarUp d := by
  intro d
  induction d using Dti.ind with
  | hp => intro _; simp [VarUp]
  | hs => intro _; simp [VarUp]
  | ht h fs ih =>
    intro hd
    simp only [VarUp]
    rw [varUpAll_iff]
    intro f t hm
    cases hd with
    | tup _ _ _ _ a _ _ b =>
      refine ⟨fun hv => ?_, ih f t hm (a f t hm)⟩
      rw [b, List.any_eq_true]
      exact ⟨(f, t), hm, hv⟩
  | ha h c ih =>
    intro hd
    simp only [VarUp]
    cases hd with
    | arr _ _ _ a b => exact ⟨fun hv => by rw [b, hv, Bool.or_true], ih a⟩

/-- C64. What `print_type_info` prints says everything about a finalised type: two types that print
the same pieces (the texts, numbers and names given to `printf`; the characters of names are not
escaped) have the same names and no function on tuples tells them apart. -/
theorem C64_type_text (hd : Usable d) (he : Usable e) {x : List Tok} (h1 : d.printType = some x) (h2 : e.printType = some x) :
    Interchangeable d e ∧ names d = names e := by
  obtain ⟨hn, _⟩ := printTypeRec_inj hd.ok he.ok (r := []) (r' := []) h1 h2 rfl
  exact ⟨interchangeable_of_same (kn := true) hn (varUp_of hd.ok), by rw [← names_norm d, hn, names_norm]⟩

example : Usable exFinal ∧ exFinal.printType.map List.length = some 448 := ⟨exFinal_usable, by decide +kernel⟩

/-! ### pages -/

/-- The text for one slot of a page. -/
def SlotText (ty : Dti) (i : Nat) : Option Bytes → List Tok → Prop
  | none, x => x = [.txt "\t\ttuple ", .num i, .txt "\n", .txt "\t\t\tTOMB STONE\n\n"]
  | some t, x => ∃ o y z, Enc ty t y ∧ Renders ty y z ∧
      x = [.txt "\t\ttuple ", .num i, .txt "\n", .txt "\t\t\toffset[", .off o, .txt "] size(", .num t.length, .txt ") :: "] ++
        (z ++ [.txt "\n"]) ++ [.txt "\n\n"]

theorem printSlot_ok (l : Legal ps h sd) (hu : Usable ty) (hsd : sizeDefOf d0 ty = some sd) (hr : TReach ps h ty sd pg s) {i : Nat}
    {q : Option Bytes} (hi : s[i]? = some q) :
    ((∀ t y, q = some t → Enc ty t y → NamesFit ty y) → ∃ x, Api.printSlot pg ps sd ty i = some x ∧ SlotText ty i q x) ∧
    ((∃ t y, q = some t ∧ Enc ty t y ∧ ¬ NamesFit ty y) → Api.printSlot pg ps sd ty i = none) := by
  obtain ⟨r1, r2⟩ := hr.reach l hu hsd
  have r := r1.rep l.fit
  cases q with
  | none =>
    have hlk : lookup s i = none := by simp [lookup, hi]
    refine ⟨fun _ => ⟨_, ?_, rfl⟩, by rintro ⟨t, y, h, _⟩; cases h⟩
    simp [Api.printSlot, r.existsTuple, hlk]
  | some t =>
    have hlk := lookup_some hi
    rcases r.getNth i with ⟨o, t', g1, g2, g3, g4, g5⟩ | ⟨_, hn⟩
    · rw [hi] at g2; cases g2
      have hn : (if Api.slotted sd then tupleSize sd (pg.drop o) else some sd.size) = some t.length := by
        by_cases hs : Api.slotted sd = true
        · rw [if_pos hs, g5]
        · rw [if_neg hs, ← g5]
          have : sd.isVar = false := by unfold Api.slotted at hs; simpa using hs
          simp [tupleSize, this]
      have hS : t.length ≤ (pg.drop o).length := by simp; omega
      have htk : (pg.drop o).take t.length = t := g4
      have hun : Api.printSlot pg ps sd ty i = (ty.printTuple (pg.drop o)).map (fun z =>
          [.txt "\t\ttuple ", .num i, .txt "\n", .txt "\t\t\toffset[", .off o, .txt "] size(", .num t.length, .txt ") :: "] ++ z ++
            [.txt "\n\n"]) := by
        unfold Api.printSlot
        rw [r.existsTuple, hlk]
        simp only [Option.isSome_some, if_true, Option.bind_eq_bind, Option.bind_some, g1]
        by_cases hs : Api.slotted sd = true
        · rw [if_pos hs] at hn ⊢
          rw [hn]
          cases ty.printTuple (pg.drop o) <;> rfl
        · rw [if_neg hs] at hn ⊢
          rw [Option.some.injEq] at hn
          rw [hn]
          cases ty.printTuple (pg.drop o) <;> rfl
      constructor
      · intro hf
        obtain ⟨_, y, he⟩ := r2 i t hlk
        rw [List.take_length] at he
        obtain ⟨z, e1, e2⟩ := (C64_print_tuple hu hS (y := y) (by rw [htk]; exact he)).1 (hf t y rfl he)
        exact ⟨_, by rw [hun, e1]; rfl, o, y, z, he, e2, rfl⟩
      · rintro ⟨t', y, h1, he, hf⟩
        cases h1
        rw [hun, (C64_print_tuple hu hS (y := y) (by rw [htk]; exact he)).2 hf]
        rfl
    · exact absurd hi (hn t)

/-- What `print_page` prints in front of the tuples. -/
def pageHead (a b c f g n t : Nat) : List Tok :=
  [.txt "PAGE : \n", .txt "space allotted   = ", .num a, .txt "\n", .txt "space occupied   = ", .num b,
    .txt " (tomb_stones occupy ", .num c, .txt ")\n", .txt "free space       = ", .num f, .txt "\n",
    .txt "fragmented space = ", .num g, .txt "\n", .txt "\n", .txt "tuple_count      = ", .num n, .txt "\n",
    .txt "tomb_stone_count = ", .num t, .txt "\n", .txt "\n"]

/-- The line in front of the tuples of a page. -/
def layoutHead (sd : SizeDef) (n k : Nat) : List Tok :=
  if sd.isVar then [.txt "SLOTTED PAGE :\n\n", .txt "\tTuples :: (", .num n, .txt ")\n"]
  else [.txt "FIXED ARRAY PAGE :\n\n", .txt "\tTuples :: (", .num n, .txt " of ", .num k, .txt ")\n"]

theorem printSlots_some {pg : Bytes} {ps : Nat} {sd : SizeDef} {ty : Dti} : ∀ (ts : List (List Tok)) (i : Nat),
    (∀ j x, ts[j]? = some x → Api.printSlot pg ps sd ty (i + j) = some x) →
    Api.printSlots pg ps sd ty ts.length i = some ts.flatten := by
  intro ts
  induction ts with
  | nil => intro i _; rfl
  | cons x ts ih =>
    intro i h
    have h0 := h 0 x rfl
    have h1 := ih (i + 1) (fun j y hy => by rw [← h (j + 1) y hy]; congr 1; omega)
    simp only [Nat.add_zero] at h0
    simp [Api.printSlots, h0, h1]

theorem printSlots_none {pg : Bytes} {ps : Nat} {sd : SizeDef} {ty : Dti} : ∀ (k i j : Nat), j < k →
    Api.printSlot pg ps sd ty (i + j) = none → Api.printSlots pg ps sd ty k i = none := by
  intro k
  induction k with
  | zero => intro i j hj; omega
  | succ k ih =>
    intro i j hj hf
    cases j with
    | zero => rw [Nat.add_zero] at hf; simp [Api.printSlots, hf]
    | succ j =>
      have := ih (i + 1) j (by omega) (by rw [← hf]; congr 1; omega)
      simp only [Api.printSlots, this]
      cases Api.printSlot pg ps sd ty i <;> rfl

theorem capacity_max (l : Legal ps h sd) (hr : Reach ps h sd pg s) (hv : sd.isVar = false) :
    ∃ k, Fixed.capacity pg ps sd = some k ∧ Api.maxTupleCount h ps sd = some k := by
  rcases hr.rep l.fit with r | ⟨r, _⟩
  · have := r.var; rw [hv] at this; cases this
  · exact ⟨_, Fixed.capacity_eq r.base r.pos, maxTupleCount_fix l hv⟩

/-- C64. Printing a page of well formed tuples: it is defined exactly if no tuple on it has a type
name of 64 characters inside, and prints the numbers that the functions for them return, and then
for every index of the page, in order, either that there is no tuple or the size and the value of
the tuple there. -/
theorem C64_print_page (l : Legal ps h sd) (hu : Usable ty) (hsd : sizeDefOf d0 ty = some sd) (hr : TReach ps h ty sd pg s) :
    ((∀ t y, some t ∈ s → Enc ty t y → NamesFit ty y) →
      ∃ a b c f g k, ∃ ts : List (List Tok), Api.spaceAllotted pg ps sd = some a ∧ Api.spaceOcc pg ps sd = some b ∧ Api.spaceTomb pg ps sd = some c ∧
        Api.freeSpace pg ps sd = some f ∧ Api.fragmentation pg ps sd = some g ∧
        Api.printPage pg ps sd ty = some (pageHead a b c f g s.length (s.countP (·.isNone)) ++
          (layoutHead sd s.length k ++ ts.flatten ++ [.txt "\n\n\n"])) ∧
        (sd.isVar = false → Api.maxTupleCount h ps sd = some k) ∧ ts.length = s.length ∧
        ∀ (i : Nat) q x, s[i]? = some q → ts[i]? = some x → SlotText ty i q x) ∧
    ((∃ t y, some t ∈ s ∧ Enc ty t y ∧ ¬ NamesFit ty y) → Api.printPage pg ps sd ty = none) := by
  obtain ⟨r1, r2⟩ := hr.reach l hu hsd
  have r := r1.rep l.fit
  have hq := queries_defined l r1
  obtain ⟨a, ha⟩ := Option.isSome_iff_exists.mp hq.spaceAllotted
  obtain ⟨b, hb⟩ := Option.isSome_iff_exists.mp hq.spaceOcc
  obtain ⟨c, hc⟩ := Option.isSome_iff_exists.mp hq.spaceTomb
  obtain ⟨f, hf⟩ := Option.isSome_iff_exists.mp hq.freeSpace
  obtain ⟨g, hg⟩ := Option.isSome_iff_exists.mp hq.fragmentation
  have hn := r.tupleCount
  have ht := r.tombCount
  obtain ⟨k, hk1, hk2⟩ : ∃ k, (sd.isVar = false → Fixed.capacity pg ps sd = some k) ∧
      (sd.isVar = false → Api.maxTupleCount h ps sd = some k) := by
    cases hv : sd.isVar with
    | true => exact ⟨0, nofun, nofun⟩
    | false => obtain ⟨k, h1, h2⟩ := capacity_max l r1 hv; exact ⟨k, fun _ => h1, fun _ => h2⟩
  have hun : Api.printPage pg ps sd ty = (Api.printSlots pg ps sd ty s.length 0).map (fun x =>
      pageHead a b c f g s.length (s.countP (·.isNone)) ++ (layoutHead sd s.length k ++ x ++ [.txt "\n\n\n"])) := by
    unfold Api.printPage Api.printTuples
    simp only [ha, hb, hc, hf, hg, hn, ht, Option.bind_eq_bind, Option.bind_some]
    unfold layoutHead Api.slotted
    cases hv : sd.isVar with
    | true =>
      simp only [if_true, Option.pure_def, Option.bind_some]
      cases Api.printSlots pg ps sd ty s.length 0 <;> rfl
    | false =>
      simp only [Bool.false_eq_true, if_false, hk1 hv, Option.pure_def, Option.bind_some]
      cases Api.printSlots pg ps sd ty s.length 0 <;> rfl
  constructor
  · intro hall
    have hex : ∀ i, ∃ x, ∀ q, s[i]? = some q → Api.printSlot pg ps sd ty i = some x ∧ SlotText ty i q x := by
      intro i
      cases hi : s[i]? with
      | none => exact ⟨[], by intro q h; cases h⟩
      | some q =>
        obtain ⟨x, h1, h2⟩ := (printSlot_ok l hu hsd hr hi).1 (fun t y hq he =>
          hall t y (by rw [← hq]; exact List.mem_of_getElem? hi) he)
        exact ⟨x, by intro q' h; cases h; exact ⟨h1, h2⟩⟩
    obtain ⟨tf, htf⟩ := Classical.axiomOfChoice hex
    have hget : ∀ i x, ((List.range s.length).map tf)[i]? = some x → i < s.length ∧ x = tf i := by
      intro i x h
      rw [List.getElem?_map, Option.map_eq_some_iff] at h
      obtain ⟨j, h1, h2⟩ := h
      obtain ⟨h3, h4⟩ := List.getElem?_eq_some_iff.mp h1
      simp at h3 h4
      subst h4
      exact ⟨h3, h2.symm⟩
    have hps := printSlots_some (pg := pg) (ps := ps) (sd := sd) (ty := ty) ((List.range s.length).map tf) 0 (fun j x hx => by
      obtain ⟨hlt, rfl⟩ := hget j x hx
      rw [Nat.zero_add]
      exact (htf j _ (List.getElem?_eq_getElem hlt)).1)
    rw [List.length_map, List.length_range] at hps
    refine ⟨a, b, c, f, g, k, (List.range s.length).map tf, ha, hb, hc, hf, hg, ?_, hk2, by simp, ?_⟩
    · rw [hun, hps]; rfl
    · intro i q x hi hx
      obtain ⟨_, rfl⟩ := hget i x hx
      exact (htf i q hi).2
  · rintro ⟨t, y, hm, he, hnf⟩
    obtain ⟨i, hi⟩ := List.getElem?_of_mem hm
    rw [hun, printSlots_none s.length 0 i (List.getElem?_eq_some_iff.mp hi).1 (by
      rw [Nat.zero_add]; exact (printSlot_ok l hu hsd hr hi).2 ⟨t, y, rfl, he, hnf⟩)]
    rfl

/-- The text for one byte of a page. -/
def byteText (i : Nat) (b : UInt8) : List Tok :=
  (if i % 8 = 0 then [.txt "\n"] else []) ++ [.txt "[", .num i, .txt "](", .hex b.toNat, .txt ")", .str [b], .txt " \t "]

/-- C64. `print_page_in_hex` prints every byte of the page with its position, in order, and reads no
other byte; a page that is shorter than it is said to be is read past its end. -/
theorem C64_print_hex (pg : Bytes) (ps : Nat) :
    (ps ≤ pg.length → Api.printHex pg ps = some (((pg.take ps).zipIdx.flatMap (fun p => byteText p.2 p.1)) ++ [.txt "\n\n"])) ∧
    (pg.length < ps → Api.printHex pg ps = none) := by
  have key : ∀ k i, (i + k ≤ pg.length → Api.printHexLoop pg k i =
      some ((((pg.drop i).take k).zipIdx i).flatMap (fun p => byteText p.2 p.1))) ∧
      (pg.length < i + k → i ≤ pg.length → Api.printHexLoop pg k i = none) := by
    intro k
    induction k with
    | zero => intro i; exact ⟨fun _ => by simp [Api.printHexLoop], fun _ _ => by omega⟩
    | succ k ih =>
      intro i
      constructor
      · intro hi
        have hlt : i < pg.length := by omega
        rw [List.drop_eq_getElem_cons hlt, List.take_succ_cons, List.zipIdx_cons, List.flatMap_cons]
        simp only [Api.printHexLoop, List.getElem?_eq_getElem hlt, Option.bind_eq_bind, Option.bind_some, (ih (i + 1)).1 (by omega)]
        rfl
      · intro hi hle
        by_cases hlt : i < pg.length
        · simp only [Api.printHexLoop, List.getElem?_eq_getElem hlt, Option.bind_eq_bind, Option.bind_some,
            (ih (i + 1)).2 (by omega) (by omega)]
          rfl
        · have : pg[i]? = none := by simp; omega
          simp only [Api.printHexLoop, this]
          rfl
  constructor
  · intro h
    have := (key ps 0).1 (by omega)
    rw [List.drop_zero] at this
    simp [Api.printHex, this]
  · intro h
    simp [Api.printHex, (key ps 0).2 (by omega) (by omega)]

example : (Api.printHex [72, 0] 2).map (fun x => x.length) = some 16 ∧ Api.printHex [72, 0] 3 = none := by
  constructor <;> decide +kernel

/-! ### examples -/

theorem exFinal_fits (y : Val) : NamesFit exFinal y := by
  intro pa h fs vs _ ht
  cases pa with
  | nil => simp only [typeAt, exFinal, Option.some.injEq] at ht; cases ht; decide
  | cons i pa =>
    exfalso
    simp only [typeAt, Option.bind_eq_bind, Option.bind_eq_some_iff] at ht
    obtain ⟨t, h1, h2⟩ := ht
    have hno : ∀ t : Dti, (∃ k h, t = .prim k h) → ∀ pa, t.typeAt pa ≠ some (.tup h fs) := by
      rintro t ⟨k, h', rfl⟩ pa
      cases pa <;> simp [typeAt, tyAtNoData, isCont]
    match i, h1 with
    | 0, h1 => cases h1; exact hno _ ⟨_, _, rfl⟩ pa h2
    | 1, h1 => cases h1; exact hno _ ⟨_, _, rfl⟩ pa h2
    | 2, h1 =>
      cases h1
      cases pa with
      | nil => cases h2
      | cons j pa => exact hno _ ⟨_, _, rfl⟩ pa h2
    | 3, h1 =>
      cases h1
      cases pa with
      | nil => cases h2
      | cons j pa => exact hno _ ⟨_, _, rfl⟩ pa h2
    | i + 4, h1 => simp [tyAtNoData, exFinal, isCont, isVarCount, hdr] at h1

/-- The tuple of the other examples with a string and an array in it. -/
def exShow : Option Bytes := do
  let (m, _) ← exFinal.setElem exMem [1] (.int (-7)) 0
  let (m, _) ← exFinal.setElem m [2] (.bytes [97, 98]) 20
  let (m, _) ← exFinal.expandElem m [3] 0 2 8
  let (m, _) ← exFinal.setElem m [3, 1] (.uint 5) 0
  pure m

example : exShow.bind exFinal.printTuple = some [.txt "(", .str [], .txt ")<", .num 14, .txt ">(", .txt "NULL", .txt ", ", .int (-7),
    .txt ", ", .off 11, .txt "\"", .str [97, 98], .txt "\"", .txt ", ", .txt "NULL", .txt ")", .txt "\n"] := by decide +kernel

/-- The hypotheses of the theorems hold, for a tuple and for a page. -/
example : (∃ y, 11 ≤ exMem.length ∧ Enc exFinal (exMem.take 11) y ∧ NamesFit exFinal y) ∧
    (∃ p s, exPage1 = some p ∧ TReach 128 4 exFinal exSd p s ∧ ∀ t y, some t ∈ s → Enc exFinal t y → NamesFit exFinal y) := by
  obtain ⟨h1, y, h2⟩ := exMem_tuple
  obtain ⟨p, h3, h4⟩ := exPage_reach
  exact ⟨⟨y, h1, h2, exFinal_fits y⟩, p, _, h3, h4, fun t y _ _ => exFinal_fits y⟩

example : (exPage1.bind (fun p => Api.printPage p 128 exSd exFinal)).map (fun x => (x.length, x.filter (fun t =>
    match t with | .num _ => true | _ => false))) =
      some (51, [.num 119, .num 12, .num 0, .num 107, .num 0, .num 1, .num 0, .num 1, .num 0, .num 11, .num 11]) := by decide +kernel

/-- A tuple type whose name and the name of whose field have 64 characters. -/
def exLong : Dti := .tup { count := 1, name := List.replicate 64 97, isFinal := true, size := 2 }
  [({ name := List.replicate 64 98 }, .prim .uint { size := 2, isFinal := true })]

theorem exLong_usable : Usable exLong := by
  refine ⟨.tup { count := 1, name := List.replicate 64 97 } [({ name := List.replicate 64 98 }, .prim .uint { size := 2 })], ?_, rfl, ?_⟩
  · refine .tup _ _ rfl rfl ?_
    intro f t h
    simp at h
    obtain ⟨_, rfl⟩ := h
    exact .prim _ _ rfl
  · refine .tup _ _ ?_ nofun (by decide) (by decide)
    intro f t h
    simp at h
    obtain ⟨_, rfl⟩ := h
    exact .prim _ _

/-- Neither the type nor a tuple of the type can be printed. -/
theorem C64_overread : Usable exLong ∧ IsTuple exLong [0, 0] 2 ∧ exLong.printTuple [0, 0] = none ∧ exLong.printType = none :=
  ⟨exLong_usable, ⟨by decide, by exact min_enc exLong_usable.ok rfl⟩, by decide +kernel, by decide +kernel⟩

end Props
end TS
