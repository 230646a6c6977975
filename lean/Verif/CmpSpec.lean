import Verif.Compare
import Verif.ContGet
/-
Specification of comparisons: the order of the values that data stand for.
-/
namespace TS

namespace Num

/-- The order of numbers, NaN above all others. -/
def lt : Num → Num → Prop
  | .fin a, .fin b => a < b
  | .ninf, .ninf => False
  | .ninf, _ => True
  | .fin _, .pinf => True
  | .fin _, .nan => True
  | .pinf, .nan => True
  | _, _ => False

instance : DecidableRel lt := fun a b => by
  cases a <;> cases b <;> simp only [lt] <;> infer_instance

/-- -1, 0 or 1 for smaller, equal, greater. -/
def ord (a b : Num) : Int := if lt a b then -1 else if a = b then 0 else 1

theorem lt_irrefl (a : Num) : ¬ lt a a := by cases a <;> simp [lt]

theorem lt_asymm {a b : Num} (h : lt a b) : ¬ lt b a := by
  cases a <;> cases b <;> simp_all [lt]; omega

theorem lt_trans {a b c : Num} (h1 : lt a b) (h2 : lt b c) : lt a c := by
  cases a <;> cases b <;> cases c <;> simp_all [lt]; omega

theorem lt_total (a b : Num) : lt a b ∨ a = b ∨ lt b a := by
  cases a <;> cases b <;> simp [lt]; omega

theorem ord_self (a : Num) : ord a a = 0 := by simp [ord, lt_irrefl]

theorem ord_eq_zero {a b : Num} : ord a b = 0 ↔ a = b := by
  unfold ord
  split
  · rename_i h
    constructor
    · intro hh; cases hh
    · rintro rfl; exact absurd h (lt_irrefl _)
  · split <;> simp_all

theorem ord_swap (a b : Num) : ord b a = - ord a b := by
  unfold ord
  rcases lt_total a b with h | h | h
  · have h1 := lt_asymm h
    have h2 : a ≠ b := fun e => by subst e; exact lt_irrefl _ h
    rw [if_pos h, if_neg h1, if_neg (Ne.symm h2)]; rfl
  · subst h; simp [lt_irrefl]
  · have h1 := lt_asymm h
    have h2 : a ≠ b := fun e => by subst e; exact lt_irrefl _ h
    rw [if_pos h, if_neg h1, if_neg h2]

theorem ord_neg_iff {a b : Num} : ord a b = -1 ↔ lt a b := by
  unfold ord
  split <;> rename_i h
  · simp [h]
  · split <;> simp_all

theorem ord_range (a b : Num) : ord a b = -1 ∨ ord a b = 0 ∨ ord a b = 1 := by
  unfold ord; split
  · simp
  · split <;> simp

theorem ord_trans {a b c : Num} (h1 : ord a b ≤ 0) (h2 : ord b c ≤ 0) : ord a c ≤ 0 ∧
    (ord a b < 0 ∨ ord b c < 0 → ord a c < 0) := by
  have key : ∀ {x y : Num}, ord x y ≤ 0 → ord x y = 0 ∧ x = y ∨ ord x y = -1 ∧ lt x y := by
    intro x y h
    rcases ord_range x y with e | e | e
    · exact Or.inr ⟨e, ord_neg_iff.mp e⟩
    · exact Or.inl ⟨e, ord_eq_zero.mp e⟩
    · omega
  rcases key h1 with ⟨e1, rfl⟩ | ⟨e1, l1⟩
  · refine ⟨h2, ?_⟩
    intro h; rcases h with h | h
    · omega
    · exact h
  · rcases key h2 with ⟨e2, rfl⟩ | ⟨e2, l2⟩
    · exact ⟨h1, fun _ => by omega⟩
    · have := ord_neg_iff.mpr (lt_trans l1 l2)
      exact ⟨by omega, fun _ => by omega⟩

end Num

/-- What a datum stands for when it is compared: NULL, a number, or a sequence of values. -/
inductive SVal where
  | null
  | num (x : Num)
  | seq (xs : List SVal)

namespace SVal

mutual
/-- NULL is below everything, numbers are ordered by value, sequences lexicographically. (A number
and a sequence are never compared; they are ordered here to make the order total.) -/
def ord : SVal → SVal → Int
  | .null, .null => 0
  | .null, _ => -1
  | _, .null => 1
  | .num x, .num y => x.ord y
  | .num _, .seq _ => -1
  | .seq _, .num _ => 1
  | .seq xs, .seq ys => ords xs ys
/-- Lexicographic order; a proper prefix comes first. -/
def ords : List SVal → List SVal → Int
  | [], [] => 0
  | [], _ :: _ => -1
  | _ :: _, [] => 1
  | x :: xs, y :: ys => if ord x y = 0 then ords xs ys else ord x y
end

/-- Induction over values. -/
theorem ind {P : SVal → Prop} (h0 : P .null) (h1 : ∀ x, P (.num x))
    (h2 : ∀ xs, (∀ x, x ∈ xs → P x) → P (.seq xs)) : ∀ s, P s := by
  intro s
  refine SVal.rec (motive_1 := P) (motive_2 := fun xs => ∀ x, x ∈ xs → P x) h0 h1 h2 ?_ ?_ s
  · intro x hx; cases hx
  · intro a l ha hl x hx
    rcases List.mem_cons.mp hx with h | h
    · rw [h]; exact ha
    · exact hl x h

theorem ord_self : ∀ s : SVal, ord s s = 0 := by
  apply ind
  · simp [ord]
  · intro x; simp only [ord]; exact Num.ord_self x
  · intro xs ih
    simp only [ord]
    induction xs with
    | nil => simp [ords]
    | cons a xs ihx =>
      simp only [ords]
      rw [if_pos (ih a (by simp))]
      exact ihx (fun x hx => ih x (by simp [hx]))

theorem ord_swap : ∀ a b : SVal, ord b a = - ord a b := by
  apply ind (P := fun a => ∀ b, ord b a = - ord a b)
  · intro b; cases b <;> simp [ord]
  · intro x b
    cases b with
    | num y => simp only [ord]; exact Num.ord_swap x y
    | _ => simp [ord]
  · intro xs ih b
    cases b with
    | seq ys =>
      simp only [ord]
      induction xs generalizing ys with
      | nil => cases ys <;> simp [ords]
      | cons a xs ihx =>
        cases ys with
        | nil => simp [ords]
        | cons y ys =>
          simp only [ords]
          have := ih a (by simp) y
          have h2 := ihx (fun x hx => ih x (by simp [hx])) ys
          by_cases h : ord a y = 0
          · rw [if_pos h, if_pos (by rw [this, h]; rfl)]; exact h2
          · rw [if_neg h, if_neg (by rw [this]; omega)]; exact this
    | _ => simp [ord]

theorem ord_range : ∀ a b : SVal, ord a b = -1 ∨ ord a b = 0 ∨ ord a b = 1 := by
  apply ind (P := fun a => ∀ b, ord a b = -1 ∨ ord a b = 0 ∨ ord a b = 1)
  · intro b; cases b <;> simp [ord]
  · intro x b
    cases b with
    | num y => simp only [ord]; exact Num.ord_range x y
    | _ => simp [ord]
  · intro xs ih b
    cases b with
    | seq ys =>
      simp only [ord]
      induction xs generalizing ys with
      | nil => cases ys <;> simp [ords]
      | cons a xs ihx =>
        cases ys with
        | nil => simp [ords]
        | cons y ys =>
          simp only [ords]
          split
          · exact ihx (fun x hx => ih x (by simp [hx])) ys
          · exact ih a (by simp) y
    | _ => simp [ord]

theorem ord_eq_zero : ∀ a b : SVal, ord a b = 0 → a = b := by
  apply ind (P := fun a => ∀ b, ord a b = 0 → a = b)
  · intro b; cases b <;> simp [ord]
  · intro x b
    cases b with
    | num y => simp only [ord]; intro h; rw [Num.ord_eq_zero.mp h]
    | _ => simp [ord]
  · intro xs ih b
    cases b with
    | seq ys =>
      simp only [ord]
      intro h
      congr 1
      induction xs generalizing ys with
      | nil => cases ys <;> simp_all [ords]
      | cons a xs ihx =>
        cases ys with
        | nil => simp [ords] at h
        | cons y ys =>
          simp only [ords] at h
          split at h
          · rename_i h0
            rw [ih a (by simp) y h0, ihx (fun x hx => ih x (by simp [hx])) ys h]
          · contradiction
    | _ => simp [ord]

/-- The order is transitive, and strict if one of the two steps is. -/
theorem ord_trans : ∀ a b c : SVal, ord a b ≤ 0 → ord b c ≤ 0 →
    ord a c ≤ 0 ∧ (ord a b < 0 ∨ ord b c < 0 → ord a c < 0) := by
  apply ind (P := fun a => ∀ b c, ord a b ≤ 0 → ord b c ≤ 0 →
    ord a c ≤ 0 ∧ (ord a b < 0 ∨ ord b c < 0 → ord a c < 0))
  · intro b c h1 h2; cases b <;> cases c <;> simp_all [ord]
  · intro x b c h1 h2
    cases b with
    | null => simp [ord] at h1
    | num y =>
      cases c with
      | null => simp [ord] at h2
      | num z => simp only [ord] at h1 h2 ⊢; exact Num.ord_trans h1 h2
      | seq zs => simp [ord]
    | seq ys => cases c <;> simp_all [ord]
  · intro xs ih b c h1 h2
    cases b with
    | null => simp [ord] at h1
    | num y => simp [ord] at h1
    | seq ys =>
      cases c with
      | null => simp [ord] at h2
      | num z => simp [ord] at h2
      | seq zs =>
        simp only [ord] at h1 h2 ⊢
        induction xs generalizing ys zs with
        | nil => cases ys <;> cases zs <;> simp_all [ords]
        | cons a xs ihx =>
          cases ys with
          | nil => simp [ords] at h1
          | cons y ys =>
            cases zs with
            | nil => simp [ords] at h2
            | cons z zs =>
              simp only [ords] at h1 h2 ⊢
              have g1 : ord a y ≤ 0 := by split at h1 <;> omega
              have g2 : ord y z ≤ 0 := by split at h2 <;> omega
              obtain ⟨t1, t2⟩ := ih a (by simp) y z g1 g2
              by_cases e1 : ord a y = 0
              · by_cases e2 : ord y z = 0
                · have e3 : ord a z = 0 := by
                    rw [ord_eq_zero _ _ e1]; exact e2
                  rw [if_pos e1] at h1 ⊢
                  rw [if_pos e2] at h2 ⊢
                  rw [if_pos e3]
                  exact ihx (fun x hx => ih x (by simp [hx])) ys h1 zs h2
                · have : ord a z < 0 := t2 (Or.inr (by omega))
                  rw [if_neg (show ¬ ord a z = 0 by omega)]
                  exact ⟨t1, fun _ => this⟩
              · have : ord a z < 0 := t2 (Or.inl (by omega))
                rw [if_neg (show ¬ ord a z = 0 by omega)]
                exact ⟨t1, fun _ => this⟩

end SVal

namespace Dti

/-- The number a value of a numeral type is. -/
def numOf (k : PKind) (h : Hdr) (v : Datum) : Option Num :=
  match k with
  | .bitField | .uint | .largeUint => v.asUint.map (fun n : Nat => Num.ofInt (n : Int))
  | .int | .largeInt => v.asInt.map Num.ofInt
  | .float => (v.asFlt h.size).map Num.ofBits

/-- The sequence of the bytes of a string or binary. -/
def charSeq (b : Bytes) : SVal := .seq (b.map (fun c => .num (.ofInt c.toNat)))

/-- The number that little endian bytes of a numeral type are. -/
def rawNum (k : PKind) (b : Bytes) : Num :=
  match k with
  | .bitField | .uint | .largeUint => .ofInt (leDec b)
  | .int | .largeInt => .ofInt (intDec b)
  | .float => .ofBits b

/-- The byte of a character. -/
def byteOf : Val → UInt8
  | .raw (b :: _) => b
  | _ => 0

mutual
/-- What a stored value of a type stands for. A string ends at its first NUL. -/
def sval : Dti → Val → SVal
  | _, .null => .null
  | _, .bits n => .num (.ofInt n)
  | .prim k _, .raw b => .num (rawNum k b)
  | .prim _ _, .node _ => .null
  | .str bin _, .node vs => charSeq (if bin then vs.map byteOf else strn (vs.map byteOf))
  | .tup _ fs, .node vs => .seq (svals fs vs)
  | .arr _ c, .node vs => .seq (vs.map (fun v => sval c v))
  | _, .raw _ => .null
def svals : List (Fld × Dti) → List Val → List SVal
  | (_, t) :: r, v :: vs => sval t v :: svals r vs
  | _, _ => []
end

/-- The datum `v` of type `d` stands for `s`. -/
def Means (d : Dti) (v : Datum) (s : SVal) : Prop :=
  (v = .null ∧ s = .null) ∨ (v.isNull = false ∧
    match d with
    | .prim k h => ∃ x, numOf k h v = some x ∧ s = .num x
    | .str _ _ => ∃ b, v.asBytes = some b ∧ s = charSeq b
    | d => ∃ m S vs, v = .ptr m ∧ S ≤ m.length ∧ Enc d (m.take S) (.node vs) ∧ s = sval d (.node vs))

end Dti
end TS
