import Verif.Expand
/-
What lies behind the memory a function on tuples was given has no influence on it and is not changed.
-/
namespace TS

/-- What a reader finds, it finds in larger memory as well. -/
def FR {α : Type} (x y : Option α) : Prop := ∀ v, x = some v → y = some v

/-- What a writer makes of `n` bytes it makes of the same bytes followed by `r`, and leaves `r`. -/
def FW (r : Bytes) (n : Nat) (x y : Option Bytes) : Prop := ∀ m, x = some m → m.length = n ∧ y = some (m ++ r)

/-- The same for writers that answer something. -/
def FP {α : Type} (r : Bytes) (n : Nat) (x y : Option (Bytes × α)) : Prop :=
  ∀ m q, x = some (m, q) → m.length = n ∧ y = some (m ++ r, q)

section
variable {α β : Type} {r : Bytes} {n : Nat}

theorem FR.refl (x : Option α) : FR x x := fun _ h => h

theorem FR.bind {x y : Option α} {f g : α → Option β} (h : FR x y) (hf : ∀ v, FR (f v) (g v)) :
    FR (x.bind f) (y.bind g) := by
  intro v hv
  obtain ⟨a, h1, h2⟩ := Option.bind_eq_some_iff.mp hv
  rw [h a h1]
  exact hf a v h2

theorem FR.map {x y : Option α} (f : α → β) (h : FR x y) : FR (x.map f) (y.map f) := by
  intro v hv
  obtain ⟨a, h1, h2⟩ := Option.map_eq_some_iff.mp hv
  rw [h a h1, Option.map_some, h2]

theorem FR.bindW {x y : Option α} {f g : α → Option Bytes} (h : FR x y) (hf : ∀ v, FW r n (f v) (g v)) :
    FW r n (x.bind f) (y.bind g) := by
  intro v hv
  obtain ⟨a, h1, h2⟩ := Option.bind_eq_some_iff.mp hv
  rw [h a h1]
  exact hf a v h2

theorem FR.bindP {x y : Option α} {f g : α → Option (Bytes × β)} (h : FR x y) (hf : ∀ v, FP r n (f v) (g v)) :
    FP r n (x.bind f) (y.bind g) := by
  intro v q hv
  obtain ⟨a, h1, h2⟩ := Option.bind_eq_some_iff.mp hv
  rw [h a h1]
  exact hf a v q h2

theorem FW.bindW {x y : Option Bytes} {f g : Bytes → Option Bytes} (h : FW r n x y)
    (hf : ∀ m, m.length = n → FW r n (f m) (g (m ++ r))) : FW r n (x.bind f) (y.bind g) := by
  intro v hv
  obtain ⟨a, h1, h2⟩ := Option.bind_eq_some_iff.mp hv
  obtain ⟨g1, g2⟩ := h a h1
  rw [g2]
  exact hf a g1 v h2

theorem FW.bindP {x y : Option Bytes} {f g : Bytes → Option (Bytes × β)} (h : FW r n x y)
    (hf : ∀ m, m.length = n → FP r n (f m) (g (m ++ r))) : FP r n (x.bind f) (y.bind g) := by
  intro v q hv
  obtain ⟨a, h1, h2⟩ := Option.bind_eq_some_iff.mp hv
  obtain ⟨g1, g2⟩ := h a h1
  rw [g2]
  exact hf a g1 v q h2

theorem FP.bindP {x y : Option (Bytes × α)} {f g : Bytes × α → Option (Bytes × β)} (h : FP r n x y)
    (hf : ∀ m q, m.length = n → FP r n (f (m, q)) (g (m ++ r, q))) : FP r n (x.bind f) (y.bind g) := by
  intro v q hv
  obtain ⟨⟨a, q'⟩, h1, h2⟩ := Option.bind_eq_some_iff.mp hv
  obtain ⟨g1, g2⟩ := h a q' h1
  rw [g2]
  exact hf a q' g1 v q h2

theorem FP.bindW {x y : Option (Bytes × α)} {f g : Bytes × α → Option Bytes} (h : FP r n x y)
    (hf : ∀ m q, m.length = n → FW r n (f (m, q)) (g (m ++ r, q))) : FW r n (x.bind f) (y.bind g) := by
  intro v hv
  obtain ⟨⟨a, q'⟩, h1, h2⟩ := Option.bind_eq_some_iff.mp hv
  obtain ⟨g1, g2⟩ := h a q' h1
  rw [g2]
  exact hf a q' g1 v h2

theorem FW.pure {m : Bytes} (h : m.length = n) : FW r n (some m) (some (m ++ r)) := by
  intro v hv; cases hv; exact ⟨h, rfl⟩

theorem FP.pure {m : Bytes} {q : α} (h : m.length = n) : FP r n (some (m, q)) (some (m ++ r, q)) := by
  intro v q hv; cases hv; exact ⟨h, rfl⟩

theorem FR.none (y : Option α) : FR none y := nofun
theorem FW.none (y : Option Bytes) : FW r n none y := nofun
theorem FP.none (y : Option (Bytes × α)) : FP r n none y := nofun

theorem FR.ite {c : Prop} [Decidable c] {a b a' b' : Option α} (h1 : FR a a') (h2 : FR b b') :
    FR (if c then a else b) (if c then a' else b') := by split <;> assumption

theorem FW.ite {c : Prop} [Decidable c] {a b a' b' : Option Bytes} (h1 : FW r n a a') (h2 : FW r n b b') :
    FW r n (if c then a else b) (if c then a' else b') := by split <;> assumption

theorem FP.ite {c : Prop} [Decidable c] {a b a' b' : Option (Bytes × α)} (h1 : FP r n a a') (h2 : FP r n b b') :
    FP r n (if c then a else b) (if c then a' else b') := by split <;> assumption

/-! ### Memory -/

theorem load_frame (m r : Bytes) (o l : Nat) : FR (load m o l) (load (m ++ r) o l) := by
  intro v h
  unfold load at h ⊢
  split at h
  · rename_i hl
    cases h
    rw [if_pos (by simp; omega)]
    unfold rd
    rw [List.drop_append_of_le_length (by omega), List.take_append_of_le_length (by simp; omega)]
  · cases h

theorem store_frame {m : Bytes} (r : Bytes) (o : Nat) (s : Bytes) : FW r m.length (store m o s) (store (m ++ r) o s) := by
  intro v h
  unfold store at h ⊢
  split at h
  · rename_i hl
    cases h
    refine ⟨by simp, ?_⟩
    rw [if_pos (by simp; omega), wr_eq _ _ _ hl, wr_eq _ _ _ (by simp; omega), List.take_append_of_le_length (by omega),
      List.drop_append_of_le_length (by omega)]
    simp
  · cases h

theorem loadVal_frame (m r : Bytes) (ps o : Nat) : FR (loadVal m ps o) (loadVal (m ++ r) ps o) :=
  (load_frame m r o _).map leDec

theorem storeVal_frame {m : Bytes} (r : Bytes) (ps o v : Nat) : FW r m.length (storeVal m ps o v) (storeVal (m ++ r) ps o v) :=
  store_frame r o _

theorem zeroIn_frame {m : Bytes} (r : Bytes) (o l : Nat) : FW r m.length (zeroIn m o l) (zeroIn (m ++ r) o l) :=
  store_frame r o _

theorem moveIn_frame {m : Bytes} (r : Bytes) (a b l : Nat) : FW r m.length (moveIn m a b l) (moveIn (m ++ r) a b l) :=
  (load_frame m r b l).bindW fun _ => store_frame r a _

theorem byte_frame (m r : Bytes) (i : Nat) : FR m[i]? (m ++ r)[i]? := by
  intro v h
  obtain ⟨hl, -⟩ := List.getElem?_eq_some_iff.mp h
  rw [List.getElem?_append_left hl]
  exact h

theorem getBit_frame (m r : Bytes) (o i : Nat) : FR (getBit m o i) (getBit (m ++ r) o i) :=
  (byte_frame m r _).bind fun _ => FR.refl _

theorem setBit_frame {m : Bytes} (r : Bytes) (o i : Nat) : FW r m.length (setBit m o i) (setBit (m ++ r) o i) :=
  (byte_frame m r _).bindW fun _ => store_frame r _ _

theorem resetBit_frame {m : Bytes} (r : Bytes) (o i : Nat) : FW r m.length (resetBit m o i) (resetBit (m ++ r) o i) :=
  (byte_frame m r _).bindW fun _ => store_frame r _ _

theorem putBit_frame {m : Bytes} (r : Bytes) (o i : Nat) (v : Bool) : FW r m.length (putBit m o i v) (putBit (m ++ r) o i v) :=
  FW.ite (setBit_frame r o i) (resetBit_frame r o i)

theorem rotLeft_frame {m : Bytes} (r : Bytes) (o l k : Nat) : FW r m.length (rotLeft m o l k) (rotLeft (m ++ r) o l k) :=
  (load_frame m r o l).bindW fun _ => FW.ite (store_frame r _ _) (FW.none _)

theorem getBitsN_frame (m r : Bytes) (o n : Nat) : ∀ a, FR (getBitsN m o a n) (getBitsN (m ++ r) o a n) := by
  induction n with
  | zero => intro a; exact FR.refl _
  | succ n ih => intro a; exact (getBit_frame m r o a).bind fun _ => (ih (a + 1)).bind fun _ => FR.refl _

theorem setBitsN_frame (r : Bytes) (o n : Nat) :
    ∀ {m : Bytes} (a v : Nat), FW r m.length (setBitsN o m a n v) (setBitsN o (m ++ r) a n v) := by
  induction n with
  | zero => intro m a v; exact FW.pure rfl
  | succ n ih => intro m a v; exact (putBit_frame r o a _).bindW fun m' h => h ▸ ih (m := m') (a + 1) (v / 2)

theorem getBits_frame (m r : Bytes) (o a n : Nat) : FR (getBits m o a n) (getBits (m ++ r) o a n) :=
  FR.ite (getBitsN_frame m r o n a) (FR.none _)

theorem setBits_frame {m : Bytes} (r : Bytes) (o a n v : Nat) : FW r m.length (setBits m o a n v) (setBits (m ++ r) o a n v) :=
  FW.ite (setBitsN_frame r o n a v) (FW.none _)

/-- A loop of writers. -/
theorem foldlM_frame {γ : Type} (r : Bytes) {f : Bytes → γ → Option Bytes}
    (hf : ∀ (m : Bytes) i, FW r m.length (f m i) (f (m ++ r) i)) (l : List γ) :
    ∀ {m : Bytes}, FW r m.length (l.foldlM f m) (l.foldlM f (m ++ r)) := by
  induction l with
  | nil => intro m; exact FW.pure rfl
  | cons i l ih =>
    intro m
    simp only [List.foldlM_cons]
    exact (hf m i).bindW fun m' h => h ▸ ih (m := m')

end

namespace Dti

theorem drop_frame (m r : Bytes) (o : Nat) : (m ++ r).drop o = m.drop o ++ r.drop (o - m.length) := List.drop_append

/-! ### Readers -/

theorem getSize_frame (d : Dti) (m r : Bytes) : FR (d.getSize m) (d.getSize (m ++ r)) :=
  FR.ite (FR.refl _) (FR.ite (FR.refl _) (FR.ite ((loadVal_frame m r _ _).bind fun _ => FR.refl _)
    ((loadVal_frame m r _ _).bind fun _ => FR.refl _)))

theorem getSize_frame' (d : Dti) (m r : Bytes) (o : Nat) : FR (d.getSize (m.drop o)) (d.getSize ((m ++ r).drop o)) := by
  rw [drop_frame]
  exact getSize_frame d _ _

theorem getCount_frame (d : Dti) (m r : Bytes) : FR (d.getCount m) (d.getCount (m ++ r)) :=
  FR.ite (FR.refl _) (FR.ite (FR.refl _) (loadVal_frame m r _ _))

theorem bitmapBits_frame (d : Dti) (m r : Bytes) : FR (d.bitmapBits m) (d.bitmapBits (m ++ r)) := by
  cases d with
  | prim => exact FR.refl _
  | tup => exact FR.refl _
  | str => exact FR.refl _
  | arr h c => exact (getCount_frame _ m r).bind fun _ => FR.refl _

theorem posInfo_frame (d : Dti) (m r : Bytes) (i : Nat) : FR (d.posInfo m i) (d.posInfo (m ++ r) i) := by
  cases d with
  | prim => exact FR.refl _
  | tup => exact FR.refl _
  | str b h => exact FR.refl _
  | arr h c => exact (bitmapBits_frame _ m r).bind fun _ => FR.refl _

theorem isNullAt_frame (d : Dti) (m r : Bytes) (p : PosInfo) : FR (d.isNullAt m p) (d.isNullAt (m ++ r) p) :=
  FR.ite (FR.refl _) (FR.ite ((getBit_frame m r _ _).bind fun _ => FR.refl _) ((loadVal_frame m r _ _).bind fun _ => FR.refl _))

theorem ptrAt_frame (d : Dti) (m r : Bytes) (p : PosInfo) : FR (d.ptrAt m p) (d.ptrAt (m ++ r) p) := by
  have tail : ∀ b : Bool, FR (if !b then pure none else if p.ty.isBit then pure (some d.offBitmap)
      else if !p.ty.isVar then pure (some p.off) else do
        let o ← loadVal m d.hdr.maxSize p.off
        pure (if o = 0 then none else some o) : Option (Option Nat))
      (if !b then pure none else if p.ty.isBit then pure (some d.offBitmap)
      else if !p.ty.isVar then pure (some p.off) else do
        let o ← loadVal (m ++ r) d.hdr.maxSize p.off
        pure (if o = 0 then none else some o)) := fun b =>
    FR.ite (FR.refl _) (FR.ite (FR.refl _) (FR.ite (FR.refl _) ((loadVal_frame m r _ _).bind fun _ => FR.refl _)))
  unfold ptrAt
  exact FR.ite ((getBit_frame m r _ _).bind tail) (tail true)

theorem sizeAt_frame (d : Dti) (m r : Bytes) (p : PosInfo) : FR (d.sizeAt m p) (d.sizeAt (m ++ r) p) := by
  refine FR.ite (FR.refl _) (FR.ite (FR.refl _) ((ptrAt_frame d m r p).bind fun a? => ?_))
  cases a? with
  | none => exact FR.refl _
  | some a => exact getSize_frame' _ m r a

theorem areZeroes_frame (m r : Bytes) (o n : Nat) : FR (areZeroes m o n) (areZeroes (m ++ r) o n) :=
  (load_frame m r o n).bind fun _ => FR.refl _

theorem oldSize_frame (d : Dti) (m r : Bytes) (v : Bool) : FR (d.oldSize m v) (d.oldSize (m ++ r) v) :=
  FR.ite (getSize_frame d m r) (FR.refl _)

theorem canSetDatum_frame (d : Dti) (m r : Bytes) (valid : Bool) (inc : Nat) (v : Datum) :
    FR (d.canSetDatum m valid inc v) (d.canSetDatum (m ++ r) valid inc v) :=
  FR.ite (FR.refl _) (FR.ite (FR.refl _) (FR.ite (FR.refl _) (FR.ite (FR.refl _)
    ((oldSize_frame d m r valid).bind fun _ => FR.refl _))))

theorem canSetAt_frame (d : Dti) (m r : Bytes) (p : PosInfo) (inc : Nat) (v : Datum) :
    FR (d.canSetAt m p inc v) (d.canSetAt (m ++ r) p inc v) := by
  refine FR.ite (FR.refl _) (FR.ite (FR.refl _) ((getSize_frame d m r).bind fun s => (FR.refl _).bind fun z =>
    (ptrAt_frame d m r p).bind fun a? => ?_))
  cases a? with
  | none => simp only [drop_frame]; exact canSetDatum_frame _ _ _ _ _ _
  | some a => simp only [drop_frame]; exact canSetDatum_frame _ _ _ _ _ _

theorem canSetCont_frame (d : Dti) (m r : Bytes) (i inc : Nat) (v : Datum) :
    FR (d.canSetCont m i inc v) (d.canSetCont (m ++ r) i inc v) :=
  FR.ite (FR.refl _) ((getCount_frame d m r).bind fun _ => FR.ite (FR.refl _)
    ((posInfo_frame d m r i).bind fun _ => canSetAt_frame d m r _ _ _))

theorem canSetElem_frame (pa : List Nat) (v : Datum) : ∀ (d : Dti) (m r : Bytes) (inc : Nat),
    FR (d.canSetElem m inc v pa) (d.canSetElem (m ++ r) inc v pa) := by
  induction pa with
  | nil => intro d m r inc; exact FR.ite (FR.refl _) (canSetDatum_frame d m r _ _ _)
  | cons i pa ih =>
    intro d m r inc
    cases pa with
    | nil => exact canSetCont_frame d m r i inc v
    | cons j pa =>
      have tail : ∀ inc, FR (do
          let p ← d.posInfo m i
          match ← d.ptrAt m p with
          | none => pure false
          | some o => canSetElem p.ty (m.drop o) inc v (j :: pa)) (do
          let p ← d.posInfo (m ++ r) i
          match ← d.ptrAt (m ++ r) p with
          | none => pure false
          | some o => canSetElem p.ty ((m ++ r).drop o) inc v (j :: pa)) := by
        intro inc
        refine (posInfo_frame d m r i).bind fun p => (ptrAt_frame d m r p).bind fun a? => ?_
        cases a? with
        | none => exact FR.refl _
        | some a => simp only [drop_frame]; exact ih _ _ _ _
      unfold canSetElem
      refine FR.ite (FR.refl _) ((getCount_frame d m r).bind fun k => FR.ite (FR.refl _) ?_)
      exact FR.ite ((getSize_frame d m r).bind fun _ => (FR.refl _).bind fun _ => tail _) (tail _)

/-! ### Writers -/

theorem atOff_frame {m r : Bytes} {o : Nat} {f : Bytes → Option (Bytes × Bool)}
    (hf : ∀ c r, FP r c.length (f c) (f (c ++ r))) : FP r m.length (atOff m o f) (atOff (m ++ r) o f) := by
  intro m' q h
  simp only [atOff, Option.bind_eq_bind, Option.bind_eq_some_iff, Option.pure_def, Option.some.injEq, Prod.mk.injEq,
    Prod.exists] at h
  obtain ⟨c, q', h1, h2, rfl⟩ := h
  obtain ⟨g1, g2⟩ := hf _ (r.drop (o - m.length)) c q' h1
  rw [List.length_drop] at g1
  subst h2
  refine ⟨by simp; omega, ?_⟩
  simp only [atOff, drop_frame, g2, Option.bind_eq_bind, Option.bind_some, Option.pure_def, Option.some.injEq, Prod.mk.injEq,
    and_true]
  by_cases ho : o ≤ m.length
  · rw [List.take_append_of_le_length ho, Nat.sub_eq_zero_of_le ho, List.drop_zero, List.append_assoc]
  · have hc : c = [] := List.eq_nil_of_length_eq_zero (by omega)
    subst hc
    rw [List.take_append, List.take_of_length_le (by omega : m.length ≤ o)]
    simp

theorem moveStep_frame (d : Dti) (idx o cs : Nat) (r m : Bytes) (i : Nat) :
    FW r m.length (d.moveStep idx o cs m i) (d.moveStep idx o cs (m ++ r) i) :=
  (posInfo_frame d m r i).bindW fun _ => FW.ite (FW.pure rfl) ((loadVal_frame m r _ _).bindW fun _ =>
    FW.ite ((FR.refl _).bindW fun _ => storeVal_frame r _ _ _) (FW.pure rfl))

theorem moveEnd_frame (d : Dti) (m r : Bytes) (i : Nat) (p : PosInfo) :
    FP r m.length (d.moveEnd m i p) (d.moveEnd (m ++ r) i p) := by
  refine FP.ite (FP.pure rfl) ((ptrAt_frame d m r p).bindP fun a? => ?_)
  cases a? with
  | none => exact FP.pure rfl
  | some a =>
    refine (getSize_frame' _ m r a).bindP fun cs => (getSize_frame d m r).bindP fun s => (FR.refl _).bindP fun z =>
      FP.ite (FP.pure rfl) ?_
    refine (FR.refl _).bindP fun _ => (rotLeft_frame r _ _ _).bindP fun m1 h1 => (getCount_frame d m1 r).bindP fun k => ?_
    rw [← h1]
    refine (foldlM_frame r (fun m i => moveStep_frame d _ _ _ r m i) _).bindP fun m2 h2 => (FR.refl _).bindP fun _ => ?_
    rw [← h2]
    exact (storeVal_frame r _ _ _).bindP fun m3 h3 => FP.pure h3

theorem initMin_frame (d : Dti) (m r : Bytes) : FP r m.length (d.initMin m) (d.initMin (m ++ r)) := by
  refine FP.ite (FP.pure rfl) (FP.ite ((zeroIn_frame r _ _).bindP fun m1 h1 => FP.pure h1)
    ((zeroIn_frame r _ _).bindP fun m1 h1 => ?_))
  rw [← h1]
  exact FP.ite ((storeVal_frame r _ _ _).bindP fun _ h => FP.pure h) (FP.pure rfl)

theorem setNull_frame (d : Dti) (m r : Bytes) (i : Nat) (p : PosInfo) :
    FP r m.length (d.setNull m i p) (d.setNull (m ++ r) i p) := by
  refine (isNullAt_frame d m r p).bindP fun b => FP.ite (FP.pure rfl) (FP.ite (FP.pure rfl) (FP.ite
    ((resetBit_frame r _ _).bindP fun _ h => FP.pure h) ?_))
  refine (getSize_frame d m r).bindP fun s => (ptrAt_frame d m r p).bindP fun a? => (FR.refl _).bindP fun a =>
    (getSize_frame' _ m r a).bindP fun cs => (moveEnd_frame d m r i p).bindP fun m1 q h1 => ?_
  rw [← h1]
  refine (storeVal_frame r _ _ _).bindP fun m2 h2 => ?_
  rw [← h2]
  exact FP.ite ((FR.refl _).bindP fun _ => (storeVal_frame r _ _ _).bindP fun _ h => FP.pure h) (FP.pure rfl)

theorem setDatum_frame (d : Dti) (m r : Bytes) (valid : Bool) (inc : Nat) (v : Datum) :
    FP r m.length (d.setDatum m valid inc v) (d.setDatum (m ++ r) valid inc v) := by
  have st : ∀ o s, FP r m.length ((store m o s).bind fun m => some (m, true)) ((store (m ++ r) o s).bind fun m => some (m, true)) :=
    fun o s => (store_frame r o s).bindP fun _ h => FP.pure h
  have im : FP r m.length ((d.initMin m).bind fun x => some (x.1, true)) ((d.initMin (m ++ r)).bind fun x => some (x.1, true)) :=
    (initMin_frame d m r).bindP fun _ _ h => FP.pure h
  refine FP.ite (FP.pure rfl) (FP.ite (FP.pure rfl) (FP.ite ?_ ?_))
  · cases d with
    | prim k h =>
      cases k with
      | bitField => exact FP.pure rfl
      | _ => exact (FR.refl _).bindP fun _ => st _ _
    | str bin h =>
      cases bin with
      | true => exact (FR.refl _).bindP fun _ => st _ _
      | false =>
        refine (FR.refl _).bindP fun b => (store_frame r _ _).bindP fun m1 h1 => ?_
        rw [← h1]
        exact FP.ite ((zeroIn_frame r _ _).bindP fun _ h => FP.pure h) (FP.pure rfl)
    | tup h fs =>
      cases v with
      | ptr src => exact (FR.refl _).bindP fun _ => st _ _
      | empty => exact im
      | _ => exact FP.none _
    | arr h c =>
      cases v with
      | ptr src => exact (FR.refl _).bindP fun _ => st _ _
      | empty => exact im
      | _ => exact FP.none _
  · cases d with
    | prim k h => exact FP.pure rfl
    | str bin h =>
      refine (oldSize_frame _ m r valid).bindP fun _ => (FR.refl _).bindP fun _ => FP.ite (FP.pure rfl) ((FR.refl _).bindP fun b => ?_)
      refine (storeVal_frame r _ _ _).bindP fun m1 h1 => ?_
      rw [← h1]
      exact (store_frame r _ _).bindP fun _ h => FP.pure h
    | tup h fs =>
      refine (oldSize_frame _ m r valid).bindP fun _ => (FR.refl _).bindP fun _ => FP.ite (FP.pure rfl) ?_
      cases v with
      | ptr src => exact (FR.refl _).bindP fun _ => (FR.refl _).bindP fun _ => st _ _
      | empty => exact im
      | _ => exact FP.none _
    | arr h c =>
      refine (oldSize_frame _ m r valid).bindP fun _ => (FR.refl _).bindP fun _ => FP.ite (FP.pure rfl) ?_
      cases v with
      | ptr src => exact (FR.refl _).bindP fun _ => (FR.refl _).bindP fun _ => st _ _
      | empty => exact im
      | _ => exact FP.none _

theorem setAt_frame (d : Dti) (m r : Bytes) (i : Nat) (p : PosInfo) (inc : Nat) (v : Datum) :
    FP r m.length (d.setAt m i p inc v) (d.setAt (m ++ r) i p inc v) := by
  refine FP.ite (setNull_frame d m r i p) (FP.ite ?_ ?_)
  · have tail : ∀ m' : Bytes, m'.length = m.length → FP r m.length
        (if p.ty.isBit then do
            let m ← setBits m' d.offBitmap p.off p.ty.hdr.size (← v.asUint)
            pure (m, true)
          else do
            let o ← ← d.ptrAt m' p
            atOff m' o (fun c => p.ty.setDatum c true inc v))
        (if p.ty.isBit then do
            let m ← setBits (m' ++ r) d.offBitmap p.off p.ty.hdr.size (← v.asUint)
            pure (m, true)
          else do
            let o ← ← d.ptrAt (m' ++ r) p
            atOff (m' ++ r) o (fun c => p.ty.setDatum c true inc v)) := by
      intro m' h
      rw [← h]
      exact FP.ite ((FR.refl _).bindP fun _ => (setBits_frame r _ _ _ _).bindP fun _ h => FP.pure h)
        ((ptrAt_frame d m' r p).bindP fun _ => (FR.refl _).bindP fun _ => atOff_frame fun c r => setDatum_frame _ c r _ _ _)
    exact FP.ite ((setBit_frame r _ _).bindP tail) (tail m rfl)
  · refine (moveEnd_frame d m r i p).bindP fun m1 q h1 => (getSize_frame d m1 r).bindP fun s => (FR.refl _).bindP fun z =>
      (ptrAt_frame d m1 r p).bindP fun a? => ?_
    rw [← h1]
    have put : ∀ (cs : Nat) (m2 : Bytes) (q : Bool), m2.length = m1.length → FP r m1.length
        (if q && d.hasSizeP then
            (p.ty.getSize (m2.drop (a?.getD s))).bind fun ns => (sub32 s cs).bind fun y => (u32 (y + ns)).bind fun z =>
              (storeVal m2 d.hdr.maxSize 0 z).bind fun m => pure (m, q)
          else pure (m2, q))
        (if q && d.hasSizeP then
            (p.ty.getSize ((m2 ++ r).drop (a?.getD s))).bind fun ns => (sub32 s cs).bind fun y => (u32 (y + ns)).bind fun z =>
              (storeVal (m2 ++ r) d.hdr.maxSize 0 z).bind fun m => pure (m, q)
          else pure (m2 ++ r, q)) := by
      intro cs m2 q h2
      rw [← h2]
      exact FP.ite ((getSize_frame' _ m2 r _).bindP fun _ => (FR.refl _).bindP fun _ => (FR.refl _).bindP fun _ =>
        (storeVal_frame r _ _ _).bindP fun _ h => FP.pure h) (FP.pure rfl)
    have rest : ∀ cs : Nat, FP r m1.length
        ((atOff m1 (a?.getD s) (fun c => p.ty.setDatum c a?.isSome (min inc z) v)).bind fun x =>
          if x.2 && a?.isNone then
            (storeVal x.1 d.hdr.maxSize p.off s).bind fun m =>
              if x.2 && d.hasSizeP then
                (p.ty.getSize (m.drop (a?.getD s))).bind fun ns => (sub32 s cs).bind fun y => (u32 (y + ns)).bind fun z =>
                  (storeVal m d.hdr.maxSize 0 z).bind fun m => pure (m, x.2)
              else pure (m, x.2)
          else
            if x.2 && d.hasSizeP then
                (p.ty.getSize (x.1.drop (a?.getD s))).bind fun ns => (sub32 s cs).bind fun y => (u32 (y + ns)).bind fun z =>
                  (storeVal x.1 d.hdr.maxSize 0 z).bind fun m => pure (m, x.2)
              else pure (x.1, x.2))
        ((atOff (m1 ++ r) (a?.getD s) (fun c => p.ty.setDatum c a?.isSome (min inc z) v)).bind fun x =>
          if x.2 && a?.isNone then
            (storeVal x.1 d.hdr.maxSize p.off s).bind fun m =>
              if x.2 && d.hasSizeP then
                (p.ty.getSize (m.drop (a?.getD s))).bind fun ns => (sub32 s cs).bind fun y => (u32 (y + ns)).bind fun z =>
                  (storeVal m d.hdr.maxSize 0 z).bind fun m => pure (m, x.2)
              else pure (m, x.2)
          else
            if x.2 && d.hasSizeP then
                (p.ty.getSize (x.1.drop (a?.getD s))).bind fun ns => (sub32 s cs).bind fun y => (u32 (y + ns)).bind fun z =>
                  (storeVal x.1 d.hdr.maxSize 0 z).bind fun m => pure (m, x.2)
              else pure (x.1, x.2)) := by
      intro cs
      refine (atOff_frame fun c r => setDatum_frame _ c r _ _ _).bindP fun m2 q h2 => ?_
      refine FP.ite ?_ (put cs m2 q h2)
      rw [← h2]
      refine (storeVal_frame r _ _ _).bindP fun m3 h3 => ?_
      rw [h2]
      exact put cs m3 q (h3.trans h2)
    cases a? with
    | none => exact rest 0
    | some a => exact (getSize_frame' _ m1 r a).bindP fun cs => rest cs

theorem setCont_frame (d : Dti) (m r : Bytes) (i inc : Nat) (v : Datum) :
    FP r m.length (d.setCont m i inc v) (d.setCont (m ++ r) i inc v) :=
  FP.ite (FP.pure rfl) ((getCount_frame d m r).bindP fun _ => FP.ite (FP.pure rfl)
    ((posInfo_frame d m r i).bindP fun _ => setAt_frame d m r i _ inc v))

theorem overwriteSize_frame (d : Dti) (m r : Bytes) (s : Nat) : FW r m.length (d.overwriteSize m s) (d.overwriteSize (m ++ r) s) :=
  FW.ite (FW.pure rfl) (FW.ite (FW.pure rfl) (storeVal_frame r _ _ _))

theorem inChild_frame (d : Dti) (m r : Bytes) (p : PosInfo) (o : Nat) (upd : Bool) {f : Bytes → Option (Bytes × Bool)}
    (hf : ∀ c r, FP r c.length (f c) (f (c ++ r))) :
    FP r m.length (d.inChild m p o upd f) (d.inChild (m ++ r) p o upd f) := by
  refine FP.ite ((getSize_frame d m r).bindP fun s => (sizeAt_frame d m r p).bindP fun cs => (atOff_frame hf).bindP fun m1 q h1 => ?_)
    (atOff_frame hf)
  rw [← h1]
  exact FP.ite ((sizeAt_frame d m1 r p).bindP fun _ => (FR.refl _).bindP fun _ => (FR.refl _).bindP fun _ =>
    (overwriteSize_frame d m1 r _).bindP fun _ h => FP.pure h) (FP.pure rfl)

theorem setElemI_frame (pa : List Nat) (v : Datum) (iv : Bool) : ∀ (d : Dti) (m r : Bytes) (inc : Nat),
    FP r m.length (d.setElemI m inc v iv pa) (d.setElemI (m ++ r) inc v iv pa) := by
  induction pa with
  | nil => intro d m r inc; exact FP.ite (FP.pure rfl) (setDatum_frame d m r _ _ _)
  | cons i pa ih =>
    intro d m r inc
    cases pa with
    | nil => exact setCont_frame d m r i inc v
    | cons j pa =>
      have into : ∀ (p : PosInfo) (inc : Nat) (m' : Bytes), m'.length = m.length → FP r m.length
          ((d.ptrAt m' p).bind fun a? => match a? with
            | none => pure (m', false)
            | some o => d.inChild m' p o iv (fun c => setElemI p.ty c inc v iv (j :: pa)))
          ((d.ptrAt (m' ++ r) p).bind fun a? => match a? with
            | none => pure (m' ++ r, false)
            | some o => d.inChild (m' ++ r) p o iv (fun c => setElemI p.ty c inc v iv (j :: pa))) := by
        intro p inc m' h
        rw [← h]
        refine (ptrAt_frame d m' r p).bindP fun a? => ?_
        cases a? with
        | none => exact FP.pure rfl
        | some a => exact inChild_frame d m' r p a iv fun c r => ih p.ty c r inc
      have tail : ∀ inc, FP r m.length
          ((d.posInfo m i).bind fun p => if iv then (d.moveEnd m i p).bind fun x => (d.ptrAt x.1 p).bind fun a? => match a? with
              | none => pure (x.1, false)
              | some o => d.inChild x.1 p o iv (fun c => setElemI p.ty c inc v iv (j :: pa))
            else (d.ptrAt m p).bind fun a? => match a? with
              | none => pure (m, false)
              | some o => d.inChild m p o iv (fun c => setElemI p.ty c inc v iv (j :: pa)))
          ((d.posInfo (m ++ r) i).bind fun p => if iv then (d.moveEnd (m ++ r) i p).bind fun x => (d.ptrAt x.1 p).bind fun a? => match a? with
              | none => pure (x.1, false)
              | some o => d.inChild x.1 p o iv (fun c => setElemI p.ty c inc v iv (j :: pa))
            else (d.ptrAt (m ++ r) p).bind fun a? => match a? with
              | none => pure (m ++ r, false)
              | some o => d.inChild (m ++ r) p o iv (fun c => setElemI p.ty c inc v iv (j :: pa))) := by
        intro inc
        refine (posInfo_frame d m r i).bindP fun p => FP.ite ?_ (into p inc m rfl)
        exact (moveEnd_frame d m r i p).bindP fun m' q h => into p inc m' h
      unfold setElemI
      refine FP.ite (FP.pure rfl) ((getCount_frame d m r).bindP fun k => FP.ite (FP.pure rfl) ?_)
      exact FP.ite ((getSize_frame d m r).bindP fun _ => (FR.refl _).bindP fun _ => tail _) (tail _)

theorem setElem_frame (d : Dti) (m r : Bytes) (pa : List Nat) (v : Datum) (inc : Nat) :
    FP r m.length (d.setElem m pa v inc) (d.setElem (m ++ r) pa v inc) := by
  unfold setElem
  cases d.typeAt pa with
  | none => exact FP.pure rfl
  | some t => exact setElemI_frame pa v t.isVar d m r inc

/-! ### Slots -/

theorem _root_.TS.copyBits_frame (r : Bytes) (o pb : Nat) (l : List (Nat × Nat)) :
    ∀ {m : Bytes}, FW r m.length (copyBits o pb m l) (copyBits o pb (m ++ r) l) := by
  induction l with
  | nil => intro m; exact FW.pure rfl
  | cons x l ih =>
    intro m
    exact (getBits_frame m r _ _ _).bindW fun _ => (setBits_frame r _ _ _ _).bindW fun m' h => h ▸ ih (m := m')

theorem _root_.TS.zeroBits_frame (r : Bytes) (o pb : Nat) (l : List Nat) :
    ∀ {m : Bytes}, FW r m.length (zeroBits o pb m l) (zeroBits o pb (m ++ r) l) := by
  induction l with
  | nil => intro m; exact FW.pure rfl
  | cons x l ih => intro m; exact (setBits_frame r _ _ _ _).bindW fun m' h => h ▸ ih (m := m')

theorem _root_.TS.resetBits_frame (r : Bytes) (o : Nat) (l : List Nat) :
    ∀ {m : Bytes}, FW r m.length (resetBits o m l) (resetBits o (m ++ r) l) := by
  induction l with
  | nil => intro m; exact FW.pure rfl
  | cons x l ih => intro m; exact (resetBit_frame r _ _).bindW fun m' h => h ▸ ih (m := m')

theorem _root_.TS.zeroTail_frame {m : Bytes} (r : Bytes) (o t : Nat) : FW r m.length (zeroTail m o t) (zeroTail (m ++ r) o t) :=
  FW.ite (setBits_frame r _ _ _ _) (FW.pure rfl)

theorem _root_.TS.whenB_frame {m : Bytes} (r : Bytes) (b : Bool) {f : Bytes → Option Bytes}
    (hf : FW r m.length (f m) (f (m ++ r))) : FW r m.length (whenB b f m) (whenB b f (m ++ r)) :=
  FW.ite hf (FW.pure rfl)

theorem shiftData_frame {m : Bytes} (r : Bytes) (o old a b : Nat) :
    FW r m.length (shiftData o old a b m) (shiftData o old a b (m ++ r)) :=
  FW.ite ((FR.refl _).bindW fun _ => moveIn_frame r _ _ _) (FW.pure rfl)

theorem growBit_frame (d c : Dti) {m : Bytes} (r : Bytes) (n i s : Nat) :
    FW r m.length (d.growBit c m n i s) (d.growBit c (m ++ r) n i s) := by
  refine (copyBits_frame r _ _ _).bindW fun m1 h1 => ?_
  rw [← h1]
  refine (zeroBits_frame r _ _ _).bindW fun m2 h2 => ?_
  rw [← h2]
  exact zeroTail_frame r _ _

theorem growValid_frame {m : Bytes} (r : Bytes) (o n i s : Nat) :
    FW r m.length (growValid o m n i s) (growValid o (m ++ r) n i s) := by
  refine (copyBits_frame r _ _ _).bindW fun m1 h1 => ?_
  rw [← h1]
  exact resetBits_frame r _ _

theorem growFixed_frame (d c : Dti) {m : Bytes} (r : Bytes) (old n i s : Nat) :
    FW r m.length (d.growFixed c m old n i s) (d.growFixed c (m ++ r) old n i s) := by
  refine (shiftData_frame r _ _ _ _).bindW fun m1 h1 => ?_
  rw [← h1]
  refine (whenB_frame r _ (growValid_frame r _ _ _ _)).bindW fun m2 h2 => ?_
  rw [← h2]
  refine (moveIn_frame r _ _ _).bindW fun m3 h3 => ?_
  rw [← h3]
  refine (zeroIn_frame r _ _).bindW fun m4 h4 => ?_
  rw [← h4]
  exact whenB_frame r _ (zeroTail_frame r _ _)

theorem fixOffs_frame (d : Dti) (g : Nat → Option Nat) (r : Bytes) (l : List Nat) :
    ∀ {m : Bytes}, FW r m.length (d.fixOffs g m l) (d.fixOffs g (m ++ r) l) := by
  induction l with
  | nil => intro m; exact FW.pure rfl
  | cons x l ih =>
    intro m
    have h1 : FW r m.length (d.fixOff g m x) (d.fixOff g (m ++ r) x) :=
      (loadVal_frame m r _ _).bindW fun _ => FW.ite ((FR.refl _).bindW fun _ => storeVal_frame r _ _ _) (FW.pure rfl)
    exact h1.bindW fun m' h => h ▸ ih (m := m')

theorem growVar_frame (d : Dti) {m : Bytes} (r : Bytes) (old n i s : Nat) :
    FW r m.length (d.growVar m old n i s) (d.growVar (m ++ r) old n i s) := by
  refine (FR.refl _).bindW fun _ => (moveIn_frame r _ _ _).bindW fun m1 h1 => (FR.refl _).bindW fun _ => ?_
  rw [← h1]
  refine (zeroIn_frame r _ _).bindW fun m2 h2 => ?_
  rw [← h2]
  exact fixOffs_frame d _ r _

theorem putPrefix_frame (d : Dti) {m : Bytes} (r : Bytes) (s n : Nat) :
    FW r m.length (d.putPrefix m s n) (d.putPrefix (m ++ r) s n) := by
  refine (whenB_frame r _ (storeVal_frame r _ _ _)).bindW fun m1 h1 => ?_
  rw [← h1]
  exact whenB_frame r _ (storeVal_frame r _ _ _)

theorem growBody_frame (d c : Dti) {m : Bytes} (r : Bytes) (old n i s : Nat) :
    FW r m.length (d.growBody c m old n i s) (d.growBody c (m ++ r) old n i s) :=
  FW.ite (growBit_frame d c r _ _ _) (FW.ite (growFixed_frame d c r _ _ _ _) (growVar_frame d r _ _ _ _))

theorem expand_frame (d : Dti) (m r : Bytes) (i s inc : Nat) :
    FP r m.length (d.expand m i s inc) (d.expand (m ++ r) i s inc) := by
  refine FP.ite (FP.pure rfl) ((getCount_frame d m r).bindP fun n => FP.ite (FP.pure rfl) (FP.ite (FP.pure rfl)
    (FP.ite (FP.pure rfl) ((FR.refl _).bindP fun c => (getSize_frame d m r).bindP fun old => FP.ite (FP.pure rfl) ?_))))
  refine (growBody_frame d c r _ _ _ _).bindP fun m1 h1 => ?_
  rw [← h1]
  exact (putPrefix_frame d r _ _).bindP fun _ h => FP.pure h

theorem nullAll_frame (d : Dti) (r : Bytes) (l : List Nat) :
    ∀ {m : Bytes}, FW r m.length (d.nullAll m l) (d.nullAll (m ++ r) l) := by
  induction l with
  | nil => intro m; exact FW.pure rfl
  | cons x l ih =>
    intro m
    exact (posInfo_frame d m r x).bindW fun p => (setNull_frame d m r x p).bindW fun m' _ h => h ▸ ih (m := m')

theorem shrinkBody_frame (d c : Dti) {m : Bytes} (r : Bytes) (old n i s : Nat) :
    FP r m.length (d.shrinkBody c m old n i s) (d.shrinkBody c (m ++ r) old n i s) := by
  refine FP.ite ?_ (FP.ite ?_ ?_)
  · exact (FR.refl _).bindP fun _ => (copyBits_frame r _ _ _).bindP fun _ h => FP.pure h
  · refine (FR.refl _).bindP fun _ => (whenB_frame r _ (copyBits_frame r _ _ _)).bindP fun m1 h1 => ?_
    rw [← h1]
    refine (shiftData_frame r _ _ _ _).bindP fun m2 h2 => ?_
    rw [← h2]
    exact (moveIn_frame r _ _ _).bindP fun _ h => FP.pure h
  · refine (nullAll_frame d r _).bindP fun m1 h1 => (getSize_frame d m1 r).bindP fun _ => (FR.refl _).bindP fun _ =>
      (FR.refl _).bindP fun _ => ?_
    rw [← h1]
    refine (moveIn_frame r _ _ _).bindP fun m2 h2 => ?_
    rw [← h2]
    exact (fixOffs_frame d _ r _).bindP fun _ h => FP.pure h

theorem discard_frame (d : Dti) (m r : Bytes) (i s : Nat) : FP r m.length (d.discard m i s) (d.discard (m ++ r) i s) := by
  refine FP.ite (FP.pure rfl) ((getCount_frame d m r).bindP fun n => FP.ite (FP.pure rfl) (FP.ite (FP.pure rfl)
    (FP.ite (FP.pure rfl) ((FR.refl _).bindP fun c => (getSize_frame d m r).bindP fun old => ?_))))
  refine (shrinkBody_frame d c r _ _ _ _).bindP fun m1 q h1 => ?_
  rw [← h1]
  exact (putPrefix_frame d r _ _).bindP fun _ h => FP.pure h

theorem expandElemI_frame (i s : Nat) (pa : List Nat) : ∀ (d : Dti) (m r : Bytes) (inc : Nat),
    FP r m.length (d.expandElemI m i s inc pa) (d.expandElemI (m ++ r) i s inc pa) := by
  induction pa with
  | nil => intro d m r inc; exact expand_frame d m r i s inc
  | cons j pa ih =>
    intro d m r inc
    unfold expandElemI
    refine FP.ite (FP.pure rfl) ((getCount_frame d m r).bindP fun k => FP.ite (FP.pure rfl) ((getSize_frame d m r).bindP fun _ =>
      (FR.refl _).bindP fun _ => (posInfo_frame d m r j).bindP fun p => (moveEnd_frame d m r j p).bindP fun m1 q h1 =>
      (ptrAt_frame d m1 r p).bindP fun a? => ?_))
    rw [← h1]
    cases a? with
    | none => exact FP.pure rfl
    | some a => exact inChild_frame d m1 r p a true fun c r => ih p.ty c r _

theorem expandElem_frame (d : Dti) (m r : Bytes) (pa : List Nat) (i s inc : Nat) :
    FP r m.length (d.expandElem m pa i s inc) (d.expandElem (m ++ r) pa i s inc) := by
  unfold expandElem
  cases d.typeAt pa with
  | none => exact FP.pure rfl
  | some t => exact FP.ite (FP.pure rfl) (expandElemI_frame i s pa d m r inc)

theorem discardElemI_frame (i s : Nat) (pa : List Nat) : ∀ (d : Dti) (m r : Bytes),
    FP r m.length (d.discardElemI m i s pa) (d.discardElemI (m ++ r) i s pa) := by
  induction pa with
  | nil => intro d m r; exact discard_frame d m r i s
  | cons j pa ih =>
    intro d m r
    unfold discardElemI
    refine FP.ite (FP.pure rfl) ((getCount_frame d m r).bindP fun k => FP.ite (FP.pure rfl)
      ((posInfo_frame d m r j).bindP fun p => (moveEnd_frame d m r j p).bindP fun m1 q h1 =>
      (ptrAt_frame d m1 r p).bindP fun a? => ?_))
    rw [← h1]
    cases a? with
    | none => exact FP.pure rfl
    | some a => exact inChild_frame d m1 r p a true fun c r => ih p.ty c r

theorem discardElem_frame (d : Dti) (m r : Bytes) (pa : List Nat) (i s : Nat) :
    FP r m.length (d.discardElem m pa i s) (d.discardElem (m ++ r) pa i s) := by
  unfold discardElem
  cases d.typeAt pa with
  | none => exact FP.pure rfl
  | some t => exact FP.ite (FP.pure rfl) (discardElemI_frame i s pa d m r)

/-! ### Reading elements -/

/-- The same datum; a pointer to a tuple or an array is followed by more memory. -/
def More (x y : Datum) : Prop := y = x ∨ ∃ b r, x = .ptr b ∧ y = .ptr (b ++ r)

/-- What `get_value_from_element_from_tuple` finds, it finds in larger memory as well. -/
def FG (x y : Option (Option Datum)) : Prop :=
  (x = some none → y = some none) ∧ ∀ v, x = some (some v) → ∃ w, y = some (some w) ∧ More v w

theorem FG.of {x y : Option (Option Datum)} (h : FR x y) : FG x y := ⟨fun hx => h _ hx, fun v hv => ⟨v, h _ hv, Or.inl rfl⟩⟩

theorem _root_.TS.FR.bindG {α : Type} {x y : Option α} {f g : α → Option (Option Datum)} (h : FR x y)
    (hf : ∀ v, FG (f v) (g v)) : FG (x.bind f) (y.bind g) := by
  cases x with
  | none => exact ⟨nofun, nofun⟩
  | some v => rw [h v rfl]; exact hf v

theorem getDatum_frame (d : Dti) (m r : Bytes) : FG (d.getDatum m) (d.getDatum (m ++ r)) := by
  cases d with
  | prim k h =>
    cases k with
    | bitField => exact FG.of (FR.refl _)
    | _ => exact FG.of ((load_frame m r _ _).bind fun _ => FR.refl _)
  | str b h => cases b <;> exact FG.of ((getCount_frame _ m r).bind fun _ => (load_frame m r _ _).bind fun _ => FR.refl _)
  | tup h fs => exact ⟨nofun, fun v hv => by cases hv; exact ⟨_, rfl, Or.inr ⟨m, r, rfl, rfl⟩⟩⟩
  | arr h c => exact ⟨nofun, fun v hv => by cases hv; exact ⟨_, rfl, Or.inr ⟨m, r, rfl, rfl⟩⟩⟩

theorem getCont_frame (d : Dti) (m r : Bytes) (i : Nat) : FG (d.getCont m i) (d.getCont (m ++ r) i) := by
  unfold getCont
  split
  · exact FG.of (FR.refl _)
  · refine (getCount_frame d m r).bindG fun k => ?_
    split
    · exact FG.of (FR.refl _)
    · refine (posInfo_frame d m r i).bindG fun p => (ptrAt_frame d m r p).bindG fun a? => ?_
      cases a? with
      | none => exact FG.of (FR.refl _)
      | some a =>
        simp only
        split
        · exact FG.of ((getBits_frame m r _ _ _).bind fun _ => FR.refl _)
        · rw [drop_frame]; exact getDatum_frame _ _ _

theorem getElem_frame (pa : List Nat) : ∀ (d : Dti) (m r : Bytes), FG (d.getElem m pa) (d.getElem (m ++ r) pa) := by
  induction pa with
  | nil => intro d m r; exact getDatum_frame d m r
  | cons i pa ih =>
    intro d m r
    cases pa with
    | nil => exact getCont_frame d m r i
    | cons j pa =>
      unfold getElem
      split
      · exact FG.of (FR.refl _)
      · refine (getCount_frame d m r).bindG fun k => ?_
        split
        · exact FG.of (FR.refl _)
        · refine (posInfo_frame d m r i).bindG fun p => (ptrAt_frame d m r p).bindG fun a? => ?_
          cases a? with
          | none => exact FG.of (FR.refl _)
          | some a => simp only [drop_frame]; exact ih _ _ _

theorem elemCount_frame (pa : List Nat) : ∀ (d : Dti) (m r : Bytes), FR (d.elemCount m pa) (d.elemCount (m ++ r) pa) := by
  induction pa with
  | nil => intro d m r; exact getCount_frame d m r
  | cons i pa ih =>
    intro d m r
    unfold elemCount
    refine FR.ite (FR.refl _) ((getCount_frame d m r).bind fun k => FR.ite (FR.refl _)
      ((posInfo_frame d m r i).bind fun p => (ptrAt_frame d m r p).bind fun a? => ?_))
    cases a? with
    | none => exact FR.refl _
    | some a => simp only [drop_frame]; exact ih _ _ _

end Dti
end TS
