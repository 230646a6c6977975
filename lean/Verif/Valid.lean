import Verif.PropsElem
/-
A check of bytes of unknown origin: is there a value of which they are the encoding? The library has
no such check.
-/
namespace TS
namespace Dti

/-- The number of elements that the bytes announce. -/
def annCount (d : Dti) (b : Bytes) : Nat := if d.isVarCount then d.word b d.offCountP else d.hdr.count

/-- What is stored for element `i` of `n`, `none` if the element is not inside of the container or
lies in its fixed part. -/
def eltIn (d : Dti) (b : Bytes) (n i : Nat) : Option Elt :=
  let p := posOf d n i
  if p.ty.needsValid && !bit b d.offBitmap p.vbit then some .null
  else if p.ty.isBit then some (.bits (bitsVal b d.offBitmap p.off p.ty.hdr.size))
  else if !p.ty.isVar then some (.fixd (rd b p.off p.ty.hdr.size))
  else
    let o := d.word b p.off
    if o = 0 then some .null
    else match p.ty.getSize (b.drop o) with
      | none => none
      | some s =>
        if fixedEnd d n ≤ o && o + s ≤ b.length && 1 ≤ s then some (.var (rd b o s)) else none

/-- Does the check `f` accept the bytes of the element? -/
def eltSat (f : Bytes → Bool) : Elt → Bool
  | .fixd x | .var x => f x
  | _ => true

/-- The bytes are a container the elements of which satisfy `f`: the prefix words fit to the number
of bytes, every element is inside and satisfies `f`, no two elements overlap, and no byte belongs to
none of them. -/
def bodyOk (d : Dti) (b : Bytes) (f : Nat → Bytes → Bool) : Bool :=
  let n := d.annCount b
  let off := fun i => d.word b (posOf d n i).off
  decide (d.offBitmap ≤ b.length) && decide (fixedEnd d n ≤ b.length) &&
  (!d.isVar || decide (b.length ≤ d.hdr.maxSize)) &&
  (!d.hasSizeP || decide (d.word b 0 = b.length % 256 ^ d.w)) &&
  (List.range n).all (fun i => (d.eltIn b n i).any (eltSat (f i))) &&
  decide (b.length = fixedEnd d n + heap ((List.range n).filterMap (d.eltIn b n))) &&
  (List.range n).all (fun i => (List.range n).all fun j =>
    i = j || (match d.eltIn b n i, d.eltIn b n j with
      | some (.var x), some (.var y) => decide (off i + x.length ≤ off j) || decide (off j + y.length ≤ off i)
      | _, _ => true))

mutual
/-- All bytes of `b` together are one datum of type `d`. -/
def check : Dti → Bytes → Bool
  | .prim k h, b => decide (k ≠ .bitField) && decide (b.length = h.size)
  | .str s h, b => bodyOk (.str s h) b (fun _ x => decide (x.length = 1))
  | .tup h fs, b => bodyOk (.tup h fs) b (checkAt fs)
  | .arr h c, b => bodyOk (.arr h c) b (fun _ => check c)
def checkAt : List (Fld × Dti) → Nat → Bytes → Bool
  | [], _, _ => false
  | (_, t) :: _, 0, x => check t x
  | _ :: fs, i + 1, x => checkAt fs i x
end

theorem checkAt_eq (fs : List (Fld × Dti)) : ∀ (i : Nat) (x : Bytes),
    checkAt fs i x = match fs[i]? with | some (_, t) => check t x | none => false := by
  induction fs with
  | nil => intro i x; simp [checkAt]
  | cons p fs ih =>
    intro i x
    obtain ⟨f, t⟩ := p
    cases i with
    | zero => simp [checkAt]
    | succ i => simp [checkAt, ih]

theorem bodyOk_congr {d : Dti} {b : Bytes} {f g : Nat → Bytes → Bool}
    (h : ∀ i, i < d.annCount b → ∀ x, f i x = g i x) : bodyOk d b f = bodyOk d b g := by
  have : ∀ i, i ∈ List.range (d.annCount b) →
      (d.eltIn b (d.annCount b) i).any (eltSat (f i)) = (d.eltIn b (d.annCount b) i).any (eltSat (g i)) := by
    intro i hi
    have hi := List.mem_range.mp hi
    have : f i = g i := funext (h i hi)
    rw [this]
  have h2 : (List.range (d.annCount b)).all (fun i => (d.eltIn b (d.annCount b) i).any (eltSat (f i))) =
      (List.range (d.annCount b)).all (fun i => (d.eltIn b (d.annCount b) i).any (eltSat (g i))) := by
    rw [Bool.eq_iff_iff]
    simp only [List.all_eq_true]
    exact ⟨fun k i hi => this i hi ▸ k i hi, fun k i hi => (this i hi).symm ▸ k i hi⟩
  simp only [bodyOk]
  rw [h2]

/-- The check of one container in terms of the checks of the types of its elements. -/
theorem check_cont {d : Dti} (h : TyOk d) (hc : d.isCont = true) (b : Bytes) :
    check d b = bodyOk d b (fun i => check (posOf d (d.annCount b) i).ty) := by
  cases d with
  | prim => simp [isCont] at hc
  | str s hh =>
    rw [check]
    apply bodyOk_congr
    intro i _ x
    simp [posOf, u8, check]
  | arr hh c =>
    rw [check]
    apply bodyOk_congr
    intro i _ x
    have : (posOf (.arr hh c) (annCount (.arr hh c) b) i).ty = c := by
      simp only [posOf]; split
      · split <;> rfl
      · rfl
    rw [this]
  | tup hh fs =>
    rw [check]
    apply bodyOk_congr
    intro i hi x
    have hl : fs.length = hh.count := by cases h; assumption
    have hi : i < fs.length := by simpa [annCount, isVarCount, hdr, hl] using hi
    rw [checkAt_eq]
    simp only [posOf]
    rw [List.getElem?_eq_getElem hi]

/-- What `bodyOk` says. -/
structure Body (d : Dti) (b : Bytes) (n : Nat) (f : Nat → Bytes → Bool) : Prop where
  cnt : n = d.annCount b
  pre : d.offBitmap ≤ b.length
  fix : fixedEnd d n ≤ b.length
  mx : d.isVar = true → b.length ≤ d.hdr.maxSize
  szP : d.hasSizeP = true → d.word b 0 = b.length % 256 ^ d.w
  elt : ∀ i, i < n → ∃ c, d.eltIn b n i = some c ∧ eltSat (f i) c = true
  sum : b.length = fixedEnd d n + heap ((List.range n).filterMap (d.eltIn b n))
  disj : ∀ i j x y, i < n → j < n → i ≠ j → d.eltIn b n i = some (.var x) → d.eltIn b n j = some (.var y) →
    d.word b (posOf d n i).off + x.length ≤ d.word b (posOf d n j).off ∨
    d.word b (posOf d n j).off + y.length ≤ d.word b (posOf d n i).off

theorem bodyOk_iff {d : Dti} {b : Bytes} {f : Nat → Bytes → Bool} :
    bodyOk d b f = true ↔ Body d b (d.annCount b) f := by
  constructor
  · intro h
    simp only [bodyOk, Bool.and_eq_true, decide_eq_true_eq, List.all_eq_true, List.mem_range,
      Bool.or_eq_true, Bool.not_eq_true', Option.any_eq_true] at h
    obtain ⟨⟨⟨⟨⟨⟨h1, h2⟩, h3⟩, h4⟩, h5⟩, h6⟩, h7⟩ := h
    refine ⟨rfl, h1, h2, ?_, ?_, ?_, h6, ?_⟩
    · intro hv; rcases h3 with h3 | h3
      · rw [hv] at h3; cases h3
      · exact h3
    · intro hv; rcases h4 with h4 | h4
      · rw [hv] at h4; cases h4
      · exact h4
    · intro i hi; exact h5 i hi
    · intro i j x y hi hj hij hx hy
      have := h7 i hi j hj
      rw [hx, hy] at this
      simp only [Bool.or_eq_true, decide_eq_true_eq] at this
      rcases this with h | h
      · exact absurd h hij
      · exact h
  · intro h
    obtain ⟨h0, h1, h2, h3, h4, h5, h6, h7⟩ := h
    simp only [bodyOk, Bool.and_eq_true, decide_eq_true_eq, List.all_eq_true, List.mem_range,
      Bool.or_eq_true, Bool.not_eq_true', Option.any_eq_true]
    refine ⟨⟨⟨⟨⟨⟨h1, h2⟩, ?_⟩, ?_⟩, fun i hi => h5 i hi⟩, h6⟩, ?_⟩
    · cases hv : d.isVar with
      | false => exact .inl rfl
      | true => exact .inr (h3 hv)
    · cases hv : d.hasSizeP with
      | false => exact .inl rfl
      | true => exact .inr (h4 hv)
    · intro i hi j hj
      by_cases hij : i = j
      · exact .inl hij
      · right
        split
        · rename_i x y hx hy
          simpa using h7 i j x y hi hj hij hx hy
        · rfl

/-- Induction over the types of the elements of a container. -/
theorem indPos {P : Dti → Prop} (hp : ∀ k h, TyOk (.prim k h) → P (.prim k h))
    (hc : ∀ d, TyOk d → d.isCont = true →
      (∀ n i, CountOk d n → i < n → P (posOf d n i).ty) → P d) : ∀ d, TyOk d → P d := by
  intro d
  induction d using ind with
  | hp k h => exact hp k h
  | hs b h =>
    intro hok
    exact hc _ hok rfl (fun n i _ _ => hp _ _ u8_ok)
  | ht h fs ih =>
    intro hok
    refine hc _ hok rfl ?_
    intro n i hn hi
    have hn : n = h.count := hn rfl
    have hlen : fs.length = h.count := by cases hok; assumption
    have hx := List.getElem?_eq_getElem (l := fs) (i := i) (by omega)
    have ho := posOf_ok hok rfl (n := n) (fun _ => hn) hi
    simp only [posOf] at ho ⊢
    rw [hx] at ho ⊢
    exact ih _ _ (List.getElem_mem (by omega)) ho
  | ha h c ih =>
    intro hok
    refine hc _ hok rfl ?_
    intro n i hn hi
    have ho := posOf_ok hok rfl (n := n) hn hi
    have : (posOf (.arr h c) n i).ty = c := by
      simp only [posOf]; split
      · split <;> rfl
      · rfl
    rw [this] at ho ⊢
    exact ih ho

theorem filterMap_all {g : Nat → Option Elt} : ∀ (n : Nat), (∀ i, i < n → ∃ c, g i = some c) →
    ((List.range n).filterMap g).length = n ∧ ∀ i, i < n → ((List.range n).filterMap g)[i]? = g i := by
  intro n
  induction n with
  | zero => intro _; exact ⟨rfl, fun i hi => absurd hi (by omega)⟩
  | succ n ih =>
    intro h
    obtain ⟨h1, h2⟩ := ih (fun i hi => h i (by omega))
    obtain ⟨c, hc⟩ := h n (by omega)
    rw [List.range_succ, List.filterMap_append]
    have : [n].filterMap g = [c] := by simp [hc]
    rw [this]
    refine ⟨by simp [h1], ?_⟩
    intro i hi
    by_cases hin : i < n
    · rw [List.getElem?_append_left (by omega)]; exact h2 i hin
    · have : i = n := by omega
      subst this
      rw [List.getElem?_append_right (by omega), h1, hc]; simp

/-- The elements read off satisfy the relation that defines an encoding. -/
theorem eltIn_at {d : Dti} {b : Bytes} {n i : Nat} {c : Elt} (h : d.eltIn b n i = some c)
    (hs : ∀ x, c = .var x → (posOf d n i).ty.getSize x = some x.length) :
    EltAt d b b.length (fixedEnd d n) (posOf d n i) (d.word b (posOf d n i).off) c := by
  unfold eltIn at h
  generalize posOf d n i = p at h hs ⊢
  simp only [] at h
  by_cases h1 : (p.ty.needsValid && !bit b d.offBitmap p.vbit) = true
  · rw [if_pos h1] at h; cases h
    simp only [Bool.and_eq_true, Bool.not_eq_true'] at h1
    exact .inl h1
  rw [if_neg h1] at h
  have hv : p.ty.needsValid = true → bit b d.offBitmap p.vbit = true := by
    intro hn
    simpa [hn] using h1
  by_cases h2 : p.ty.isBit = true
  · rw [if_pos h2] at h; cases h
    exact ⟨h2, hv, rfl⟩
  rw [if_neg h2] at h
  have h2 : p.ty.isBit = false := by simpa using h2
  by_cases h3 : p.ty.isVar = true
  · simp only [h3, Bool.not_true, Bool.false_eq_true, if_false] at h
    by_cases h4 : d.word b p.off = 0
    · rw [if_pos h4] at h; cases h
      exact .inr ⟨h3, h4⟩
    rw [if_neg h4] at h
    cases h5 : p.ty.getSize (b.drop (d.word b p.off)) with
    | none => rw [h5] at h; cases h
    | some s =>
      rw [h5] at h
      simp only [] at h
      split at h
      · rename_i h6
        simp only [Bool.and_eq_true, decide_eq_true_eq] at h6
        cases h
        have hl : (rd b (d.word b p.off) s).length = s := rd_length _ _ _ h6.1.2
        exact ⟨h3, rfl, h6.1.1, by rw [hl]; exact h6.1.2, by rw [hl], by rw [hl]; exact h6.2, hs _ rfl⟩
      · cases h
  · have h3 : p.ty.isVar = false := by simpa using h3
    simp only [h3, Bool.not_false, if_true] at h
    cases h
    exact ⟨h2, h3, hv, rfl⟩

/-- Conversely the elements of an encoding are read off. -/
theorem eltIn_of {d : Dti} {b : Bytes} {n i oi : Nat} {c : Elt} (hd : TyOk (posOf d n i).ty)
    (hfe : (posOf d n i).ty.isVar = true → 1 ≤ fixedEnd d n)
    (e : EltAt d b b.length (fixedEnd d n) (posOf d n i) oi c) :
    d.eltIn b n i = some c ∧ (∀ x, c = .var x → d.word b (posOf d n i).off = oi) := by
  unfold eltIn
  generalize posOf d n i = p at e hd hfe ⊢
  simp only []
  cases c with
  | null =>
    refine ⟨?_, fun x hx => by cases hx⟩
    rcases e with ⟨h1, h2⟩ | ⟨h1, h2⟩
    · simp [h1, h2]
    · simp [not_var_needs h1, isVar_not_bit hd h1, h1, h2]
  | bits v =>
    refine ⟨?_, fun x hx => by cases hx⟩
    obtain ⟨h1, h2, h3⟩ := e
    have : (p.ty.needsValid && !bit b d.offBitmap p.vbit) = false := by
      cases hn : p.ty.needsValid with
      | false => rfl
      | true => simp [h2 hn]
    simp [this, h1, h3]
  | fixd x =>
    refine ⟨?_, fun x hx => by cases hx⟩
    obtain ⟨h1, h0, h2, h3⟩ := e
    have : (p.ty.needsValid && !bit b d.offBitmap p.vbit) = false := by
      cases hn : p.ty.needsValid with
      | false => rfl
      | true => simp [h2 hn]
    simp [this, h1, h0, h3]
  | var x =>
    obtain ⟨h1, h2, h3, h4, h5, h6, h7⟩ := e
    refine ⟨?_, fun _ _ => h2⟩
    have := hfe h1
    have hsz := getSize_at h7 h5
    rw [h2]
    simp only [not_var_needs h1, isVar_not_bit hd h1, h1, hsz, Bool.false_and, Bool.not_true, Bool.false_eq_true, if_false]
    rw [if_neg (by omega)]
    simp [h3, h4, h6, h5]

theorem annCount_ok (d : Dti) (b : Bytes) : CountOk d (d.annCount b) := by
  intro hv; simp [annCount, hv]

/-- The check accepts exactly the encodings. -/
theorem check_iff : ∀ d, TyOk d → ∀ b, check d b = true ↔ ∃ v, Enc d b v := by
  apply indPos
  · intro k h _ b
    simp only [check, Bool.and_eq_true, decide_eq_true_eq]
    constructor
    · intro ⟨h1, h2⟩; exact ⟨_, .prim h1 h2⟩
    · intro ⟨v, e⟩; have := enc_prim e; exact ⟨this.1, this.2.1⟩
  · intro d hd hc ih b
    rw [check_cont hd hc, bodyOk_iff]
    constructor
    · intro B
      generalize hn : d.annCount b = n at B
      have hcn : CountOk d n := hn ▸ annCount_ok d b
      have hall : ∀ i, i < n → ∃ c, d.eltIn b n i = some c := fun i hi => (B.elt i hi).imp fun _ h => h.1
      obtain ⟨hl, hg⟩ := filterMap_all n hall
      generalize hcs : (List.range n).filterMap (d.eltIn b n) = cs at hl hg
      have hval : ∀ i, i < n → ∃ y, ∀ c, cs[i]? = some c → EVal (posOf d n i).ty c y := by
        intro i hi
        obtain ⟨c, h1, h2⟩ := B.elt i hi
        have hci : cs[i]? = some c := by rw [hg i hi, h1]
        cases c with
        | null => exact ⟨.null, fun c h => by rw [hci] at h; cases h; rfl⟩
        | bits v => exact ⟨.bits v, fun c h => by rw [hci] at h; cases h; rfl⟩
        | fixd x =>
          obtain ⟨v, e⟩ := (ih n i hcn hi x).mp h2
          exact ⟨v, fun c h => by rw [hci] at h; cases h; exact e⟩
        | var x =>
          obtain ⟨v, e⟩ := (ih n i hcn hi x).mp h2
          exact ⟨v, fun c h => by rw [hci] at h; cases h; exact e⟩
      obtain ⟨vs, hvl, hvv⟩ := exists_list n hval
      refine ⟨.node vs, enc_node (cs := cs) (o := fun i => d.word b (posOf d n i).off) hc ?_ ⟨by omega, ?_⟩⟩
      · refine ⟨Nat.le_refl _, B.mx, fun h => by rw [hl]; exact hcn h, ?_, B.szP, ?_, ?_, ?_⟩
        · intro h; rw [hl, ← hn]; simp [annCount, h]
        · rw [hl, ← hcs]; exact B.sum
        · intro i c hi
          have hlt : i < n := by rw [← hl]; exact (List.getElem?_eq_some_iff.mp hi).1
          rw [hl]
          have hci : d.eltIn b n i = some c := by rw [← hg i hlt]; exact hi
          refine eltIn_at hci ?_
          intro x hx
          subst hx
          obtain ⟨c', h1, h2⟩ := B.elt i hlt
          rw [hci] at h1; cases h1
          obtain ⟨v, e⟩ := (ih n i hcn hlt x).mp h2
          exact (enc_size (posOf_ok hd hc hcn hlt) e).1
        · intro i j x y hij hx hy
          have hi : i < n := by rw [← hl]; exact (List.getElem?_eq_some_iff.mp hx).1
          have hj : j < n := by rw [← hl]; exact (List.getElem?_eq_some_iff.mp hy).1
          exact B.disj i j x y hi hj hij (by rw [← hg i hi]; exact hx) (by rw [← hg j hj]; exact hy)
      · intro i c y h1 h2
        rw [hl]
        exact hvv i y h2 c h1
    · intro ⟨v, e⟩
      obtain ⟨cs, o, vs, rfl, r, hv⟩ := enc_cont hc e
      have hn : d.annCount b = cs.length := by
        unfold annCount
        cases h : d.isVarCount with
        | true => simpa using r.cntV h
        | false => simpa using (r.cntF h).symm
      rw [hn]
      have hcn := r.countOk
      have helt : ∀ i c, cs[i]? = some c → d.eltIn b cs.length i = some c ∧
          (∀ x, c = .var x → d.word b (posOf d cs.length i).off = o i) := by
        intro i c hi
        have hlt : i < cs.length := (List.getElem?_eq_some_iff.mp hi).1
        refine eltIn_of (posOf_ok hd hc hcn hlt) ?_ (r.elt i c hi)
        intro hvv
        have h1 := (var_hasSize hd hc hcn hlt hvv).1
        have h2 := bitmap_le_fixedEnd hd hc hcn
        have h3 : 1 ≤ d.offBitmap := by
          have := vsz_pos d.hdr.maxSize
          have hw : d.w = vsz d.hdr.maxSize := rfl
          simp [offBitmap, offCountP, h1]; omega
        omega
      have hget : ∀ i, i < cs.length → ∃ c, cs[i]? = some c := fun i hi => ⟨_, List.getElem?_eq_getElem hi⟩
      obtain ⟨hl, hg⟩ := filterMap_all (g := d.eltIn b cs.length) cs.length (by
        intro i hi
        obtain ⟨c, h⟩ := hget i hi
        exact ⟨c, (helt i c h).1⟩)
      have hfm : (List.range cs.length).filterMap (d.eltIn b cs.length) = cs := by
        apply List.ext_getElem?
        intro i
        by_cases hi : i < cs.length
        · obtain ⟨c, h⟩ := hget i hi
          rw [hg i hi, (helt i c h).1, h]
        · rw [List.getElem?_eq_none (by omega), List.getElem?_eq_none (by omega)]
      refine ⟨hn.symm, prefix_le hd hc r, fixedEnd_le r, r.mx, r.szP, ?_, by rw [hfm]; exact r.sum, ?_⟩
      · intro i hi
        obtain ⟨c, h⟩ := hget i hi
        refine ⟨c, (helt i c h).1, ?_⟩
        have hy := List.getElem?_eq_getElem (l := vs) (i := i) (by rw [hv.1]; exact hi)
        have := hv.2 i c _ h hy
        cases c with
        | null => rfl
        | bits => rfl
        | fixd x => exact (ih _ i hcn hi x).mpr ⟨_, this⟩
        | var x => exact (ih _ i hcn hi x).mpr ⟨_, this⟩
      · intro i j x y hi hj hij hx hy
        obtain ⟨c, h⟩ := hget i hi
        obtain ⟨c', h'⟩ := hget j hj
        have e1 := helt i c h
        have e2 := helt j c' h'
        rw [hx] at e1; rw [hy] at e2
        obtain ⟨e1, f1⟩ := e1
        obtain ⟨e2, f2⟩ := e2
        cases e1; cases e2
        rw [f1 x rfl, f2 y rfl]
        exact r.disj i j x y hij h h'

end Dti
end TS
