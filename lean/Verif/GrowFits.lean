import Verif.SetFits
import Verif.ContWalk
/-
How much the containers on the way to an element leave for it to grow.
-/
namespace TS
namespace Dti

/-- Every container on the way to `pa`, and the one at `pa`, has room for `g` bytes more. -/
def Spare (d : Dti) (val : Val) (pa : List Nat) (g : Nat) : Prop :=
  ∀ q u z n, q <+: pa → d.typeAt q = some u → val.at' q = some z → Sz u z n → n + g ≤ u.hdr.maxSize

theorem spare_nil {d : Dti} {val : Val} {S g : Nat} (hd : TyOk d) (hS : Sz d val S) :
    Spare d val [] g ↔ S + g ≤ d.hdr.maxSize := by
  constructor
  · intro h
    exact h [] d val S List.nil_prefix rfl rfl hS
  · intro h q u z n g1 g2 g3 g4
    have := List.prefix_nil.mp g1
    subst this
    simp only [typeAt, Option.some.injEq] at g2
    simp only [Val.at', Option.some.injEq] at g3
    subst g2; subst g3
    rw [Sz.unique hd g4 hS]; exact h

theorem spare_cons {d c : Dti} {vs : List Val} {i : Nat} {y : Val} {pa : List Nat} {g S : Nat}
    (hd : TyOk d) (hc : d.tyAtNoData i = some c) (hi : vs[i]? = some y) (hS : Sz d (.node vs) S) :
    Spare d (.node vs) (i :: pa) g ↔ S + g ≤ d.hdr.maxSize ∧ Spare c y pa g := by
  have hty : ∀ q, d.typeAt (i :: q) = c.typeAt q := fun q => by simp [typeAt, hc]
  have hat : ∀ q, (Val.node vs).at' (i :: q) = y.at' q := fun q => by simp only [Val.at', hi]
  constructor
  · intro h
    refine ⟨h [] d (.node vs) S List.nil_prefix rfl rfl hS, ?_⟩
    intro q u z n h1 h3 h4 h5
    exact h (i :: q) u z n (List.cons_prefix_cons.mpr ⟨rfl, h1⟩) (by rw [hty]; exact h3) (by rw [hat]; exact h4) h5
  · intro ⟨h1, h2⟩ q u z n g1 g3 g4 g5
    cases q with
    | nil =>
      simp only [typeAt, Option.some.injEq] at g3
      simp only [Val.at', Option.some.injEq] at g4
      subst g3; subst g4
      rw [Sz.unique hd g5 hS]; exact h1
    | cons j q =>
      obtain ⟨rfl, g0⟩ := List.cons_prefix_cons.mp g1
      exact h2 q u z n g0 (by rw [← hty]; exact g3) (by rw [← hat]; exact g4) g5

/-- What `get_max_size_increment_allowed_for_element_in_tuple` returns. -/
theorem maxInc_iff (pa : List Nat) : ∀ {d t : Dti} {m : Bytes} {S : Nat} {val : Val} {vs : List Val} {inc : Nat},
    TyOk d → S ≤ m.length → Enc d (m.take S) val → d.typeAt pa = some t → t.isVar = true →
    val.at' pa = some (.node vs) →
    ∃ k, d.maxInc m inc pa = some k ∧ ∀ g, g ≤ k ↔ g ≤ inc ∧ Spare d val pa g := by
  induction pa with
  | nil =>
    intro d t m S val vs inc h hS he ht htv hat
    simp only [typeAt, Option.some.injEq] at ht
    subst ht
    obtain ⟨hgs, _, hm, _⟩ := Props.IsTuple.size h ⟨hS, val, he⟩
    have hl : (m.take S).length = S := by simp; omega
    have hsz : Sz d val S := Or.inr ⟨_, he, hl⟩
    have hmx := (hm htv).2
    refine ⟨min inc (d.hdr.maxSize - S), ?_, ?_⟩
    · simp only [maxInc, htv, Bool.not_true, Bool.false_eq_true, if_false, hgs, Option.bind_eq_bind,
        Option.bind_some, sub32_eq hmx]; rfl
    · intro g
      rw [spare_nil h hsz]
      omega
  | cons i pa ih =>
    intro d t m S val vs inc h hS he ht htv hat
    have hdv := (typeAt_ok (i :: pa) h ht).2 htv
    cases hc : d.isCont with
    | false => rw [notCont_typeAt hc] at ht; cases ht
    | true =>
      obtain ⟨cs, o, ws, rfl, r, hv⟩ := crep_of_enc h hc hS he
      have hl : (m.take S).length = S := by simp; omega
      have hsz : Sz d (.node ws) S := Or.inr ⟨_, he, hl⟩
      have hmx := r.mx hdv
      by_cases hlt : i < cs.length
      · have hok := posOf_ok h hc r.countOk hlt
        have hty := tyAtNoData_pos h hc r.countOk hlt
        simp only [typeAt, hty, Option.bind_eq_bind, Option.bind_some] at ht
        simp only [maxInc, hc, hdv, getCount_eq h hc r, getSize_eq h hc r, sub32_eq hmx,
          posInfo_eq h hc r hlt, Bool.not_true, Bool.false_eq_true, if_false, Option.bind_eq_bind, Option.bind_some,
          ge_iff_le, Nat.not_le.mpr hlt]
        rcases walk h hc r hv hlt with ⟨h1, h2⟩ | ⟨h1, ⟨v, h2⟩, o', h3⟩ | ⟨o', S', y, h1, h2, h3, h4⟩
        · simp only [Val.at', h1, at_null] at hat
          exact absurd hat (by simp)
        · simp only [Val.at', h2] at hat
          cases pa <;> simp [Val.at'] at hat
        · simp only [h1, Option.bind_some]
          simp only [Val.at', h2] at hat
          obtain ⟨k, k1, k2⟩ := ih (inc := min inc (d.hdr.maxSize - S)) hok h3 h4 ht htv hat
          refine ⟨k, k1, fun g => ?_⟩
          rw [k2, spare_cons h hty h2 hsz]
          constructor
          · intro ⟨a, b⟩; exact ⟨by omega, by omega, b⟩
          · intro ⟨a, b, c⟩; exact ⟨by omega, c⟩
      · have hnone : ws[i]? = none := List.getElem?_eq_none (by rw [hv.1]; omega)
        simp [Val.at', hnone] at hat

end Dti
end TS
