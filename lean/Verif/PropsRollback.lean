import Verif.PropsRefill
/-
Property theorems C96: any sequence of edits of a tuple can be rolled back from notes taken before each
of them.
-/
namespace TS
namespace Props
open Dti

/-- A note of how to take a call back: set the element to what it was, discard the elements that were added,
put back the ones that were discarded. `S` is the size the tuple had. -/
inductive Back
  | set (pa : List Nat) (v : Datum) (S : Nat)
  | discard (pa : List Nat) (index slots : Nat)
  | refill (pa : List Nat) (index : Nat) (vs : List Datum) (S : Nat)

/-- What is read of elements `i`, `i + 1`, … of the container at `pa`, `n` of them or as many as there are. -/
def readRun (d : Dti) (m : Bytes) (pa : List Nat) : Nat → Nat → Option (List Datum)
  | _, 0 => some []
  | i, n + 1 => do
    match ← d.getElem m (pa ++ [i]) with
    | none => pure []
    | some v => pure (v :: (← readRun d m pa (i + 1) n))

/-- The note taken before a call. -/
def Call.note (d : Dti) (m : Bytes) : Call → Option (List Back)
  | .set pa _ _ | .copy pa _ _ _ _ => do
    let S ← d.getSize m
    match ← d.getElem m pa with
    | none => pure []
    | some v => pure [.set pa v S]
  | .expand pa index slots _ => some (if slots = 0 then [] else [.discard pa index slots])
  | .discard pa index slots => do
    let S ← d.getSize m
    let vs ← readRun d m pa index slots
    pure [.refill pa index vs S]

/-- Take one call back. The tuple is not allowed to grow beyond the size it had. -/
def Back.run (d : Dti) (m : Bytes) : Back → Option (Bytes × Bool)
  | .set pa v S => do
    let s ← d.getSize m
    d.setElem m pa v (S - s)
  | .discard pa index slots => d.discardElem m pa index slots
  | .refill pa index vs S => do
    let s ← d.getSize m
    let (m, q) ← d.expandElem m pa index vs.length (S - s)
    if q then Props.refill d S pa index vs m else pure (m, false)

/-- Take back what the notes say, until one of the calls is refused. -/
def backAll (d : Dti) : Bytes → List Back → Option (Bytes × Bool)
  | m, [] => some (m, true)
  | m, b :: r => do
    let (m, q) ← b.run d m
    if q then backAll d m r else pure (m, false)

/-- Make the calls, keeping the notes of those that are answered with 1, the newest in front. -/
def runNoted (cv : Conv) (d : Dti) : Bytes → List Call → List Back → Option (Bytes × List Back)
  | m, [], log => some (m, log)
  | m, c :: r, log => do
    let es ← c.note d m
    let (m1, q) ← c.run cv d m
    runNoted cv d m1 r (if q then es ++ log else log)

/-- The texts that a call replaces or discards are read to their ends. -/
def Call.Clear (d : Dti) (m : Bytes) : Call → Prop
  | .set pa _ _ | .copy pa _ _ _ _ => ∀ t v, d.typeAt pa = some t → d.getElem m pa = some (some v) → AllRead d m pa t v
  | .expand _ _ _ _ => True
  | .discard pa index slots => ∀ k c v, k < slots → d.typeAt (pa ++ [index + k]) = some c →
      d.getElem m (pa ++ [index + k]) = some (some v) → AllRead d m (pa ++ [index + k]) c v

/-- So are those of all calls, each at its time. -/
def AllClear (cv : Conv) (d : Dti) : Bytes → List Call → Prop
  | _, [] => True
  | m, c :: r => c.Clear d m ∧ ∀ m1 q, c.run cv d m = some (m1, q) → AllClear cv d m1 r

theorem readRun_ok {d : Dti} {m : Bytes} {pa : List Nat} :
    ∀ (n i : Nat), (∀ k, k < n → ∃ v, d.getElem m (pa ++ [i + k]) = some (some v)) →
      ∃ vs, readRun d m pa i n = some vs ∧ vs.length = n ∧
        ∀ (k : Nat) v, vs[k]? = some v → d.getElem m (pa ++ [i + k]) = some (some v) := by
  intro n
  induction n with
  | zero => intro i _; exact ⟨[], rfl, rfl, by simp⟩
  | succ n ih =>
    intro i h
    obtain ⟨v, hv⟩ := h 0 (by omega)
    obtain ⟨vs, h1, h2, h3⟩ := ih (i + 1) fun k hk => by
      have := h (k + 1) (by omega)
      rwa [show i + (k + 1) = i + 1 + k by omega] at this
    refine ⟨v :: vs, by simp [readRun, hv, h1, show pa ++ [i] = pa ++ [i + 0] from rfl], by simp [h2], ?_⟩
    intro k w hk
    cases k with
    | zero => simp only [List.getElem?_cons_zero, Option.some.injEq] at hk; subst hk; exact hv
    | succ k =>
      rw [show i + (k + 1) = i + 1 + k by omega]
      exact h3 k w hk

theorem read_there {d : Dti} {m : Bytes} {S : Nat} {val y : Val} {pa : List Nat} (hd : TyOk d) (hS : S ≤ m.length)
    (he : Enc d (m.take S) val) (ha : val.at' pa = some y) : ∃ v, d.getElem m pa = some (some v) := by
  have g := getElem_ok pa hd hS he
  unfold GetOk at g
  rw [ha] at g
  rcases g with ⟨_, h⟩ | ⟨_, v, _, h, _⟩
  · exact ⟨_, h⟩
  · exact ⟨v, h⟩

/-- The readings noted before a call do not leave the memory. -/
theorem note_ok {d : Dti} {m : Bytes} {S : Nat} {val : Val} (hd : TyOk d) (hS : S ≤ m.length) (he : Enc d (m.take S) val) (c : Call) :
    ∃ es, c.note d m = some es := by
  have hg := (IsTuple.size hd ⟨hS, _, he⟩).1
  have hr : ∀ pa, ∃ o, d.getElem m pa = some o := by
    intro pa
    have g := getElem_ok pa hd hS he
    unfold GetOk at g
    split at g
    · exact ⟨_, g⟩
    · rcases g with ⟨_, h⟩ | ⟨_, v, _, h, _⟩
      · exact ⟨_, h⟩
      · exact ⟨_, h⟩
  have hrun : ∀ pa n i, ∃ vs, readRun d m pa i n = some vs := by
    intro pa n
    induction n with
    | zero => intro i; exact ⟨_, rfl⟩
    | succ n ih =>
      intro i
      obtain ⟨o, ho⟩ := hr (pa ++ [i])
      obtain ⟨vs, hvs⟩ := ih (i + 1)
      cases o with
      | none => exact ⟨[], by simp [readRun, ho]⟩
      | some v => exact ⟨v :: vs, by simp [readRun, ho, hvs]⟩
  cases c with
  | set pa v inc =>
    obtain ⟨o, ho⟩ := hr pa
    cases o <;> exact ⟨_, by simp only [Call.note, hg, ho, Option.bind_eq_bind, Option.bind_some]; rfl⟩
  | copy pa d2 m2 pa2 inc =>
    obtain ⟨o, ho⟩ := hr pa
    cases o <;> exact ⟨_, by simp only [Call.note, hg, ho, Option.bind_eq_bind, Option.bind_some]; rfl⟩
  | expand pa i n inc => exact ⟨_, rfl⟩
  | discard pa i n =>
    obtain ⟨vs, hvs⟩ := hrun pa n i
    exact ⟨_, by simp only [Call.note, hg, hvs, Option.bind_eq_bind, Option.bind_some]; rfl⟩

theorem backAll_append {d : Dti} {m m1 : Bytes} {a b : List Back} (h : backAll d m a = some (m1, true)) :
    backAll d m (a ++ b) = backAll d m1 b := by
  induction a generalizing m with
  | nil => cases h; rfl
  | cons e a ih =>
    simp only [backAll, List.cons_append, Option.bind_eq_bind] at h ⊢
    cases hr : e.run d m with
    | none => rw [hr] at h; cases h
    | some r =>
      obtain ⟨m2, q⟩ := r
      rw [hr] at h
      cases q with
      | false => simp at h
      | true =>
        simp only [Option.bind_some, if_true] at h ⊢
        exact ih h

/-- One call that was answered with 1 is taken back in any tuple that is as after the call. -/
theorem back_one {cv : Conv} {d : Dti} (hu : Usable d) {m n : Bytes} {S S1 : Nat} {val val1 : Val} {c : Call} {es : List Back}
    (hS : S ≤ m.length) (he : Enc d (m.take S) val) (hroom : d.isVar = true → d.hdr.maxSize ≤ m.length)
    (hp : c.Pre d val) (hc : c.Clear d m) (hdoes : c.Does cv d val val1) (hn : c.note d m = some es) (hl : n.length = m.length)
    (hS1 : S1 ≤ n.length) (e1 : Enc d (n.take S1) val1) (hsm : ∀ pa i k, c = .discard pa i k → S1 ≤ S) :
    ∃ n2, backAll d n es = some (n2, true) ∧ n2.length = n.length ∧ Enc d (n2.take S) val ∧
      ∀ x, S ≤ x → S1 ≤ x → n2[x]? = n[x]? := by
  have hd := hu.ok
  have hg := (IsTuple.size hd ⟨hS, _, he⟩).1
  have hg1 := (IsTuple.size hd ⟨hS1, _, e1⟩).1
  have hset : ∀ {pa : List Nat} {t : Dti} {y : Val}, val.has pa → d.typeAt pa = some t → val1 = val.upd pa y →
      (∀ t v, d.typeAt pa = some t → d.getElem m pa = some (some v) → AllRead d m pa t v) →
      ∃ v, d.getElem m pa = some (some v) ∧ ∃ n2, backAll d n [.set pa v S] = some (n2, true) ∧ n2.length = n.length ∧
        Enc d (n2.take S) val ∧ ∀ x, S ≤ x → S1 ≤ x → n2[x]? = n[x]? := by
    intro pa t y hh ht hv hcl
    obtain ⟨z, hz⟩ := has_at hh
    obtain ⟨v, hgv⟩ := read_there hd hS he hz
    obtain ⟨z', z1, z2, z3⟩ := read_at hd hS he ht hgv
    rw [hz] at z1; cases z1
    obtain ⟨v1, v2, v3⟩ := shows_eden (typeAt_ok pa hd ht).1 z2 z3 (whole_val hd hS he ht hz z2 (hcl t v ht hgv))
    subst hv
    have hval : (val.upd pa y).upd pa z = val := by rw [Val.upd_upd val pa _ _ hh, Val.upd_at val pa _ hh hz]
    obtain ⟨a1, a2, a3⟩ := set_towards (m2 := m) (S2 := S) (inc := S - S1) hu hS1 e1 (Val.has_upd val pa y hh) ht hS
      (by rw [hval]; exact he) v1 v2 v3 (fun h => by have := hroom h; omega)
    obtain ⟨n2, hn2⟩ := a2.mpr (fun _ _ => by omega)
    obtain ⟨c1, -, -, c4, c5⟩ := a3 n2 hn2
    rw [hval] at c5
    exact ⟨v, hgv, n2, by simp [backAll, Back.run, hg1, hn2], c1, c5, fun x h1 h2 => c4 x h2 h1⟩
  cases c with
  | set pa v inc =>
    obtain ⟨hh, t, y, ht, -, hv⟩ := hdoes
    obtain ⟨w, w1, w2⟩ := hset hh ht hv hc
    simp only [Call.note, hg, w1, Option.bind_eq_bind, Option.bind_some, Option.pure_def, Option.some.injEq] at hn
    subst hn
    exact w2
  | copy pa d2 m2 pa2 inc =>
    obtain ⟨hh, t, t2, dt, v, y, ht, -, -, -, -, hv⟩ := hdoes
    obtain ⟨w, w1, w2⟩ := hset hh ht hv hc
    simp only [Call.note, hg, w1, Option.bind_eq_bind, Option.bind_some, Option.pure_def, Option.some.injEq] at hn
    subst hn
    exact w2
  | expand pa index slots inc =>
    obtain ⟨t, c, ht, hvc, hcd, hhas, vs, vs', hat, ⟨hidx, y0, hy0, rfl⟩, rfl⟩ := hdoes
    simp only [Call.note, Option.some.injEq] at hn
    subst hn
    split
    · rename_i h0
      subst h0
      have hi : insertAt vs index 0 y0 = vs := by simp [insertAt]
      rw [hi, Val.upd_at val pa _ hhas hat] at e1
      have hlen := enc_len he hd e1
      simp only [List.length_take] at hlen
      have : S = S1 := by omega
      subst this
      exact ⟨n, rfl, rfl, e1, fun _ _ _ => rfl⟩
    · rename_i h0
      have hlim := hp t ht hvc
      obtain ⟨m2, S2, j1, j3, j4, j5, j7⟩ := expand_back hu hS1 ht hvc hcd (fun h => (hlim.2 c hcd h).1) hhas hat hidx
        (by omega) e1
      have hlen := enc_len he hd j5
      simp only [List.length_take] at hlen
      have : S = S2 := by omega
      subst this
      exact ⟨m2, by simp [backAll, Back.run, j1], j3, j5, fun x _ h => j7 x h⟩
  | discard pa index slots =>
    obtain ⟨t, ht, hvc, hhas, vs, vs', hat, ⟨hidx, hsl, rfl⟩, rfl⟩ := hdoes
    have htk := (typeAt_ok pa hd ht).1
    obtain ⟨htc, htv, c, hcd, hok, -⟩ := varCount_cont htk hvc
    obtain ⟨dts, r1, r2, r3⟩ := readRun_ok (d := d) (m := m) (pa := pa) slots index fun k hk => by
      have hk' : index + k < vs.length := by omega
      refine read_there hd hS he (y := vs[index + k]) ?_
      rw [at_append' val pa _ hat]
      simp [Val.at', hk']
    simp only [Call.note, hg, r1, Option.bind_eq_bind, Option.bind_some, Option.pure_def, Option.some.injEq] at hn
    subst hn
    have h1 := hsm pa index slots rfl
    obtain ⟨m1, m2, j1, n1, n2, n3, n4⟩ := discard_back hu hS he ht hvc hcd (hp t c ht hcd) hhas hat hidx hsl (by omega) h1 e1 r2
      (fun k v hk => ⟨r3 k v hk, hc k c v (by have := (List.getElem?_eq_some_iff.mp hk).1; omega)
        (typeAt_elt hd ht hvc hcd (index + k)) (r3 k v hk)⟩)
    refine ⟨m2, ?_, n2, n3, fun x h _ => n4 x h⟩
    simp [backAll, Back.run, hg1, r2, j1, n1]

/-- C96. A tuple in memory of its maximum size is edited by any sequence of calls, and before each call a note is
taken of what it will overwrite. Taking the notes never leaves the memory. The notes of the calls that were
answered with 1 take all of them back, the newest first: none of these calls is refused, although each is only
allowed to grow the tuple to the size it had before the call that is taken back, and the tuple has its former size,
counts and reads. Memory behind the maximum size stays as it was. -/
theorem C96_rollback {cv : Conv} (hcv : cv.Ok) {d : Dti} (hu : Usable d) (cs : List Call) {m : Bytes} {S : Nat}
    (h : IsTuple d m S) (hroom : d.isVar = true → d.hdr.maxSize ≤ m.length)
    (hcar : ∀ val, Enc d (m.take S) val → Careful cv d val cs) (hcl : AllClear cv d m cs) :
    ∃ m' qs log m2, runAll cv d m cs = some (m', qs) ∧ runNoted cv d m cs [] = some (m', log) ∧
      backAll d m' log = some (m2, true) ∧ m2.length = m.length ∧ IsTuple d m2 S ∧ ReadsLike d m2 m ∧
      ∀ x, (if d.isVar then d.hdr.maxSize else d.hdr.size) ≤ x → m2[x]? = m[x]? := by
  have hd := hu.ok
  have hsz : ∀ {m : Bytes} {S : Nat} {val : Val} {x : Nat}, S ≤ m.length → Enc d (m.take S) val →
      (if d.isVar then d.hdr.maxSize else d.hdr.size) ≤ x → S ≤ x := by
    intro m S val x hS he hx
    obtain ⟨_, _, z1, z2⟩ := IsTuple.size hd (⟨hS, val, he⟩ : IsTuple d m S)
    cases hv : d.isVar with
    | true => rw [hv] at hx; have := z1 hv; simp only [if_true] at hx; omega
    | false => rw [hv] at hx; have := z2 hv; simp only [Bool.false_eq_true, if_false] at hx; omega
  have main : ∀ (cs : List Call) {m : Bytes} {S : Nat} {val : Val} (log0 : List Back), S ≤ m.length → Enc d (m.take S) val →
      (d.isVar = true → d.hdr.maxSize ≤ m.length) → Careful cv d val cs → AllClear cv d m cs →
      ∃ m' qs log m2, runAll cv d m cs = some (m', qs) ∧ runNoted cv d m cs log0 = some (m', log ++ log0) ∧
        backAll d m' log = some (m2, true) ∧ m2.length = m.length ∧ Enc d (m2.take S) val ∧
        ∀ x, (if d.isVar then d.hdr.maxSize else d.hdr.size) ≤ x → m2[x]? = m[x]? := by
    intro cs
    induction cs with
    | nil => intro m S val log0 hS he _ _ _; exact ⟨m, [], [], m, rfl, rfl, rfl, rfl, he, fun _ _ => rfl⟩
    | cons c r ih =>
      intro m S val log0 hS he hroom hcar hcl
      obtain ⟨hp, hrest⟩ := hcar
      obtain ⟨hc, hcl⟩ := hcl
      obtain ⟨m1, q, S1, val1, k1, k2, k3, k4, k5, k6⟩ := call_ok hcv hu hS he hroom c hp
      obtain ⟨es, hes⟩ := note_ok hd hS he c
      obtain ⟨m', qs, log, m2, g1, g2, g3, g4, g5, g6⟩ := ih (m := m1) (S := S1) (val := val1) (if q then es ++ log0 else log0)
        (by omega) k4 (by rw [k2]; exact hroom) (hrest q val1 k5 ⟨_, k4⟩) (hcl m1 q k1)
      have hm1 : S1 ≤ m1.length := by omega
      have hm2 : S1 ≤ m2.length := by omega
      have hx1 : ∀ x, (if d.isVar then d.hdr.maxSize else d.hdr.size) ≤ x → m2[x]? = m[x]? := fun x hx => by
        rw [g6 x hx, k6 x (hsz hS he hx) (hsz hm1 k4 hx)]
      rcases k5 with ⟨rfl, -, hdoes⟩ | ⟨rfl, -, rfl⟩
      · have hsm : ∀ pa i k, c = .discard pa i k → S1 ≤ S := by
          rintro pa i k rfl
          obtain ⟨m0, q, S0, val0, j1, -, j3, j4, j5, j6, -⟩ :=
            discardElem_main (index := i) (slots := k) (pa := pa) hd hS he hp
          simp only [Call.run] at k1
          rw [k1] at j1
          cases j1
          have a := (IsTuple.size hd (⟨by omega, _, j5⟩ : IsTuple d m1 S0)).1
          rw [(IsTuple.size hd (⟨hm1, _, k4⟩ : IsTuple d m1 S1)).1] at a
          cases a
          exact j6
        obtain ⟨n2, b1, b2, b3, b4⟩ := back_one hu hS he hroom hp hc hdoes hes (by omega) hm2 g5 hsm
        refine ⟨m', true :: qs, log ++ es, n2, by simp only [runAll, k1, g1], ?_, ?_, by omega, b3, fun x hx => ?_⟩
        · simp only [runNoted, hes, k1, Option.bind_eq_bind, Option.bind_some]
          simpa using g2
        · rw [backAll_append g3]; exact b1
        · rw [b4 x (hsz hS he hx) (hsz hm1 k4 hx), hx1 x hx]
      · have hlen := enc_len he hd k4
        simp only [List.length_take] at hlen
        have : S = S1 := by omega
        subst this
        refine ⟨m', false :: qs, log, m2, by simp only [runAll, k1, g1], ?_, g3, by omega, g5, hx1⟩
        simp only [runNoted, hes, k1, Option.bind_eq_bind, Option.bind_some]
        simpa using g2
  obtain ⟨hS, val, he⟩ := h
  obtain ⟨m', qs, log, m2, g1, g2, g3, g4, g5, g6⟩ := main cs [] hS he hroom (hcar val he) hcl
  have hm2 : S ≤ m2.length := by omega
  exact ⟨m', qs, log, m2, g1, by simpa using g2, g3, g4, ⟨hm2, _, g5⟩, (alike_of hd hm2 hS g5 he).2, g6⟩

/-- C96. Types without texts need no care about NUL characters. -/
theorem C96_no_text {cv : Conv} {d : Dti} (hn : ∀ pa h, d.typeAt pa ≠ some (.str false h)) (m : Bytes) (cs : List Call) :
    AllClear cv d m cs := by
  have key : ∀ {pa t v} (m : Bytes), d.typeAt pa = some t → AllRead d m pa t v := by
    rintro pa t v m ht h b rfl
    exact absurd ht (hn pa h)
  induction cs generalizing m with
  | nil => trivial
  | cons c r ih =>
    refine ⟨?_, fun m1 _ _ => ih m1⟩
    cases c with
    | set => exact fun t v ht _ => key m ht
    | copy => exact fun t v ht _ => key m ht
    | expand => trivial
    | discard => exact fun k c v _ ht _ => key m ht

/-- No text is replaced or discarded by the calls. -/
def quiet (cv : Conv) (d : Dti) : Bytes → List Call → Bool
  | _, [] => true
  | m, c :: r =>
    (match c with
      | .set pa _ _ | .copy pa _ _ _ _ => match d.getElem m pa with | some (some (.bytes _)) => false | _ => true
      | .expand _ _ _ _ => true
      | .discard pa i n => (List.range n).all fun k => match d.getElem m (pa ++ [i + k]) with | some (some (.bytes _)) => false | _ => true) &&
    match c.run cv d m with
    | none => true
    | some (m1, _) => quiet cv d m1 r

theorem quiet_clear {cv : Conv} {d : Dti} {m : Bytes} {cs : List Call} (h : quiet cv d m cs = true) : AllClear cv d m cs := by
  induction cs generalizing m with
  | nil => trivial
  | cons c r ih =>
    simp only [quiet, Bool.and_eq_true] at h
    obtain ⟨h1, h2⟩ := h
    refine ⟨?_, fun m1 q hr => ih (by rw [hr] at h2; exact h2)⟩
    cases c with
    | set pa v inc =>
      intro t w _ hg h0 b _ hb
      subst hb
      simp [hg] at h1
    | copy pa d2 m2 pa2 inc =>
      intro t w _ hg h0 b _ hb
      subst hb
      simp [hg] at h1
    | expand => trivial
    | discard pa i n =>
      intro k c w hk _ hg h0 b _ hb
      subst hb
      have := List.all_eq_true.mp h1 k (by simpa using hk)
      simp [hg] at this

/-- The example tuple in memory of its maximum size. -/
def exRoomy : Bytes := exMem.take 11 ++ List.replicate 890 255

theorem exRoomy_tuple : IsTuple exFinal exRoomy 11 := by
  obtain ⟨_, val, he⟩ := exMem_tuple
  exact ⟨by decide +kernel, val, by rw [show exRoomy.take 11 = exMem.take 11 by decide +kernel]; exact he⟩

/-- The hypotheses of C96 are met by the seven calls that exercise C63, of which the last one is refused: they set a
text, an array and elements of it, expand and discard, and copy. The six notes take all back. -/
example : ieee.Ok ∧ Usable exFinal ∧ IsTuple exFinal exRoomy 11 ∧ exFinal.hdr.maxSize ≤ exRoomy.length ∧
    (∀ val, Enc exFinal (exRoomy.take 11) val → Careful ieee exFinal val exCalls) ∧ AllClear ieee exFinal exRoomy exCalls ∧
    ((runNoted ieee exFinal exRoomy exCalls []).bind fun r => (backAll exFinal r.1 r.2).map fun q =>
      (r.2.length, exFinal.getSize r.1, q.2, decide (q.1.take 11 = exRoomy.take 11))) = some (6, some 19, true, true) :=
  ⟨ieee_ok, exFinal_usable, exRoomy_tuple, by decide +kernel,
    fun val he => C63_modest ieee exFinal_usable exCalls exCalls_modest val ⟨_, he⟩, quiet_clear (by decide +kernel), by decide +kernel⟩

/-- The hypothesis of `C96_no_text` is met by the type of an array of numbers. -/
example : ∀ pa h, exInts.typeAt pa ≠ some (.str false h) := by
  intro pa h
  match pa with
  | [] => simp [typeAt, exInts]
  | [i] => simp [typeAt, exInts, tyAtNoData, isCont, isVarCount, hdr, tyAt]
  | i :: j :: pa => simp [typeAt, exInts, tyAtNoData, isCont, isVarCount, hdr, tyAt]

end Props
end TS
