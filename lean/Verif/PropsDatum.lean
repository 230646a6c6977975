import Verif.PropsNested
import Verif.ContWalk
import Verif.Accessor
/-
Further properties C54 and C55: the number of elements of a datum, the steps of a positional accessor.
-/
namespace TS
namespace Props
open Dti

/-- C54. `get_element_count_for_datum` on a datum that was read from a tuple: nothing is inside of NULL and of data that are
not containers, a string or binary has the bytes of the datum, a tuple or array the elements that it has in the tuple.
`get_containee_from_datum` finds nothing from the count on, and nothing at all inside of data that are not containers. -/
theorem C54_count {d u : Dti} {m : Bytes} {S : Nat} {pa : List Nat} {v : Datum} (hd : Usable d) (ht : IsTuple d m S)
    (hu : d.typeAt pa = some u) (hv : d.getElem m pa = some (some v)) :
    (u.isCont = false ∨ v = .null → countOf v u = some 0) ∧ (∀ b, v = .bytes b → countOf v u = some b.length) ∧
    (∀ x, v = .ptr x → countOf v u = d.elemCount m pa) ∧
    (v ≠ .null → ∀ n i, countOf v u = some n → n ≤ i → contOf v u i = some none) := by
  obtain ⟨hS, val, he⟩ := ht
  have hg := getElem_ok pa hd.ok hS he
  unfold GetOk at hg
  have hsh : v = .null ∨ ∃ y, val.at' pa = some y ∧ Shows u y v := by
    cases ha : val.at' pa with
    | none => rw [ha] at hg; simp only [hv] at hg; cases hg
    | some y =>
      rw [ha] at hg
      rcases hg with ⟨_, g⟩ | ⟨t, dt, g1, g2, g3⟩
      · rw [hv] at g; cases g; exact .inl rfl
      · rw [hu] at g1; rw [hv] at g2; cases g1; cases g2; exact .inr ⟨y, rfl, g3⟩
  refine ⟨?_, ?_, ?_, ?_⟩
  · rintro (h | rfl)
    · simp [countOf, h]
    · cases u <;> rfl
  · rintro b rfl
    rcases hsh with h | ⟨y, hy, h⟩
    · cases h
    · cases y with
      | null => cases h
      | bits x => obtain ⟨_, h⟩ := h; cases h
      | raw x => cases u <;> rename_i k _ <;> first | cases k <;> cases h | cases h
      | node vs =>
        cases u with
        | prim => cases h
        | str bin hh => rfl
        | tup => obtain ⟨_, _, h, _⟩ := h; cases h
        | arr => obtain ⟨_, _, h, _⟩ := h; cases h
  · rintro x rfl
    rcases hsh with h | ⟨y, hy, h⟩
    · cases h
    · cases y with
      | null => cases h
      | bits x => obtain ⟨_, h⟩ := h; cases h
      | raw x => cases u <;> rename_i k _ <;> first | cases k <;> cases h | cases h
      | node vs =>
        have huc : u.isCont = true ∧ ∃ m S, Datum.ptr x = .ptr m ∧ S ≤ m.length ∧ Enc u (m.take S) (.node vs) := by
          cases u with
          | prim => cases h
          | str bin hh => obtain ⟨_, _, h⟩ := h; cases h
          | tup => exact ⟨rfl, h⟩
          | arr => exact ⟨rfl, h⟩
        obtain ⟨huc, m', S', hm', k1, k2⟩ := huc
        cases hm'
        obtain ⟨cs, o, vs', h1, r, hv'⟩ := crep_of_enc ((typeAt_ok pa hd.ok hu).1) huc k1 k2
        cases h1
        rw [elemCount_ok pa hd.ok hS he hu huc, hy]
        have hcnt := getCount_eq ((typeAt_ok pa hd.ok hu).1) huc r
        unfold countOf
        rw [huc]
        simp only [Bool.not_true, Bool.false_eq_true, if_false, Datum.isNull, valCount]
        rw [hv'.1, ← hcnt]
        cases u with
        | prim => cases huc
        | str bin hh => obtain ⟨_, _, h⟩ := h; cases h
        | tup => rfl
        | arr => rfl
  · intro hv0 n i hn hi
    have : v.isNull = false := by cases v <;> first | rfl | exact absurd rfl hv0
    unfold contOf
    cases hc : u.isCont with
    | false => simp
    | true => simp [this, hn, hi]

example : ∃ u, Usable exFinal ∧ IsTuple exFinal exMem 11 ∧ exFinal.typeAt [3] = some u ∧ exFinal.getElem exMem [3] = some (some .null) ∧
    countOf .null u = some 0 := ⟨_, exFinal_usable, exMem_tuple, rfl, rfl, rfl⟩

section
open Pa

/-- C55. The steps of the traversal as edits of the path; capacity is kept. A position is counted up modulo 2^32. The path of the tuple
itself has no parent, sibling or uncle, its elements have no uncle; then the functions return 0 and change nothing. A
child can be pointed to exactly if there is room for it. -/
theorem C55_moves {a : Pa} (hl : a.len ≤ a.cells.length) :
    (a.path = [] → a.toParent = (a, false) ∧ a.toNextSibling = some (a, false) ∧ a.toNextUncle = some (a, false)) ∧
    (∀ p i, a.path = p ++ [i] →
      (∃ b, a.toParent = (b, true) ∧ b.path = p ∧ b.cells = a.cells) ∧
      (∃ b, a.toNextSibling = some (b, true) ∧ b.path = p ++ [(i + 1) % 2 ^ 32] ∧ b.cells.length = a.cells.length) ∧
      (p = [] → a.toNextUncle = some (a, false)) ∧
      (∀ q j, p = q ++ [j] → ∃ b, a.toNextUncle = some (b, true) ∧ b.path = q ++ [(j + 1) % 2 ^ 32] ∧ b.cells.length = a.cells.length)) ∧
    (∀ t : Pa, t.len ≤ t.cells.length →
      (a.len + t.len ≤ a.cells.length → ∃ b, a.append t = some b ∧ b.path = a.path ++ t.path ∧ b.cells.length = a.cells.length) ∧
      (a.cells.length < a.len + t.len → a.append t = none)) ∧
    (∀ i, (a.len < a.cells.length → ∃ b, a.toChild i = some b ∧ b.path = a.path ++ [i] ∧ b.cells.length = a.cells.length) ∧
      (a.len = a.cells.length → a.toChild i = none)) ∧ a.toFirstChild = a.toChild 0 := by
  have hap : ∀ t : Pa, t.len ≤ t.cells.length →
      (a.len + t.len ≤ a.cells.length → ∃ b, a.append t = some b ∧ b.path = a.path ++ t.path ∧ b.cells.length = a.cells.length) ∧
      (a.cells.length < a.len + t.len → a.append t = none) := by
    intro t ht
    constructor
    · intro h
      refine ⟨_, by unfold append; rw [if_pos ⟨ht, h⟩], ?_, ?_⟩
      · simp only [path]
        rw [List.append_assoc, List.take_append, List.take_append]
        simp only [List.length_take, Nat.min_eq_left hl, Nat.min_eq_left ht, List.take_take]
        have h1 : min (a.len + t.len) a.len = a.len := by omega
        have h2 : a.len + t.len - a.len = t.len := by omega
        have h3 : t.len - t.len = 0 := by omega
        simp [h1, h2]
      · simp; omega
    · intro h
      unfold append
      rw [if_neg (by omega)]
  have hlen : a.path.length = a.len := by simp [path]; omega
  refine ⟨?_, ?_, hap, ?_, rfl⟩
  · intro h
    have h0 : a.len = 0 := by rw [← hlen, h]; rfl
    simp [toParent, toNextSibling, toNextUncle, isSelf, h0]
  · intro p i hp
    have hn : a.len = p.length + 1 := by rw [← hlen, hp]; simp
    have hc : a.cells = p ++ i :: a.cells.drop a.len := by
      have := List.take_append_drop a.len a.cells
      rw [show a.cells.take a.len = p ++ [i] from hp] at this
      simpa using this.symm
    refine ⟨⟨{ a with len := a.len - 1 }, by simp [toParent, isSelf, hn], ?_, rfl⟩, ?_, ?_, ?_⟩
    · simp only [path, hn]
      rw [hc]
      simp
    · refine ⟨⟨p ++ (i + 1) % 2 ^ 32 :: a.cells.drop a.len, a.len⟩, ?_, ?_, ?_⟩
      · unfold toNextSibling bump
        have : a.cells[a.len - 1]? = some i := by rw [hc, hn]; simp
        have h2 : a.cells.set (a.len - 1) ((i + 1) % 2 ^ 32) = p ++ (i + 1) % 2 ^ 32 :: a.cells.drop a.len := by
          conv => lhs; rw [hc]
          rw [hn]; simp
        simp [isSelf, hn] at *
        simp [this, h2]
      · simp [path, hn, List.take_append, List.take_of_length_le]
      · simp; omega
    · rintro rfl
      simp [toNextUncle, hn]
    · rintro q j rfl
      refine ⟨⟨q ++ (j + 1) % 2 ^ 32 :: i :: a.cells.drop a.len, a.len - 1⟩, ?_, ?_, ?_⟩
      · unfold toNextUncle bump
        have : a.cells[a.len - 1 - 1]? = some j := by rw [hc, hn]; simp
        have h2 : a.cells.set (a.len - 1 - 1) ((j + 1) % 2 ^ 32) = q ++ (j + 1) % 2 ^ 32 :: i :: a.cells.drop a.len := by
          conv => lhs; rw [hc]
          rw [hn]; simp
        simp [hn] at *
        simp [this, h2]
      · simp [path, hn, List.take_append, List.take_of_length_le]
      · simp at hn; simp; omega
  · intro i
    have := hap ⟨[i], 1⟩ (Nat.le_refl _)
    exact ⟨fun h => this.1 h, fun h => this.2 (by simp only; omega)⟩

example : (⟨[3, 5, 0, 9], 2⟩ : Pa).path = [3] ++ [5] ∧ (⟨[3, 5, 0, 9], 2⟩ : Pa).toNextUncle = some (⟨[4, 5, 0, 9], 1⟩, true) := ⟨rfl, rfl⟩

end

end Props
end TS
