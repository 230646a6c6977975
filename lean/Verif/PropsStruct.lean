import Verif.StructSize
import Verif.TypeHeapProof
import Verif.Untrusted
import Verif.PropsType
import Verif.PropsHeap
import Verif.PropsCode
/-
C99: the objects that types are kept in are large enough for the containees of a tuple type, unless `size_t` is small.
-/
namespace TS
namespace Dti

/-- The number of containees that is read from bytes is a 32 bit number. -/
theorem deserHead_count {c : Nat} {m : Bytes} {n : Nat} {h : Hdr} {b : Nat} (hd : deserHead c m n = some (some (.tup h b))) :
    h.count < 4294967296 := by
  have key : ∀ x, num4 m n 1 = some (some x) → x < 4294967296 := fun x hx => num4_lt hx
  unfold deserHead at hd
  generalize num4 m n 1 = p at hd key
  generalize num4 m n 5 = q at hd
  generalize num4 m n 9 = q' at hd
  simp only [Option.bind_eq_bind, Option.pure_def] at hd
  split at hd
  · simp only [Option.bind_eq_some_iff] at hd
    obtain ⟨_, _, _, _, hd⟩ := hd
    split at hd <;> cases hd
  split at hd
  · simp only [Option.bind_eq_some_iff] at hd
    obtain ⟨_, _, hd⟩ := hd
    cases hd
  rcases p with _ | _ | x
  · exfalso; revert hd; repeat' split
    all_goals (intro hd; cases hd)
  · exfalso; revert hd; simp only [Option.bind_some]; repeat' split
    all_goals (intro hd; cases hd)
  · have hx := key x rfl
    clear key
    simp only [Option.bind_some] at hd
    split at hd
    · split at hd <;> cases hd
    split at hd
    · cases hd; exact hx
    split at hd
    · rcases q with _ | _ | y
      · cases hd
      · cases hd
      · cases hd; exact hx
    split at hd
    · cases hd
    split at hd
    · rcases q with _ | _ | y <;> cases hd
    split at hd <;> cases hd

theorem deserHead_tup {m : Bytes} {n x : Nat} (h : num4 m n 1 = some (some x)) :
    deserHead 127 m n = some (some (.tup { count := x } 5)) := by
  unfold deserHead
  rw [h]
  have h1 : (primOf 127).isSome = false := by decide +kernel
  have h2 : (floatOf 127).isSome = false := by decide +kernel
  simp [h1, h2]

theorem num4_leEnc {x : Nat} (hx : x < 4294967296) (r : Bytes) {n : Nat} (hn : 5 ≤ n) :
    num4 (127 :: (leEnc 4 x ++ r)) n 1 = some (some x) := by
  have : load (127 :: (leEnc 4 x ++ r)) 1 4 = some (leEnc 4 x) := by
    simp only [load, rd, List.length_cons, List.length_append, leEnc_length, List.drop_succ_cons, List.drop_zero]
    rw [if_pos (by omega), List.take_append_of_le_length (by simp), List.take_of_length_le (by simp)]
  simp only [num4, if_neg (show ¬ 1 + 4 > n by omega), this, Option.bind_eq_bind, Option.bind_some, leDec_leEnc,
    Nat.mod_eq_of_lt (show x < 256 ^ 4 by omega), Option.pure_def]

theorem deserFieldsS_room {A : Abi} {sz : Nat} {r r' : Bytes → Nat → Option (Option Dti)} (hr : ∀ m n, r m n = r' m n)
    (m : Bytes) (n : Nat) : ∀ k i b, A.head + A.pos * (i + k) ≤ sz →
    deserFieldsS A sz r m n k i b = deserFields r' m n k b := by
  intro k
  induction k with
  | zero => intros; rfl
  | succ k ih =>
    intro i b hs
    have h1 : ¬ sz < A.head + A.pos * (i + 1) := by
      have : A.pos * (i + 1) ≤ A.pos * (i + (k + 1)) := Nat.mul_le_mul_left _ (by omega)
      omega
    have h2 : A.head + A.pos * (i + 1 + k) ≤ sz := by rwa [show i + 1 + k = i + (k + 1) by omega]
    simp only [deserFieldsS, deserFields, if_neg h1, hr, fun b => ih (i + 1) b h2]
    rfl

theorem deserTupS_room {A : Abi} {r r' : Bytes → Nat → Option (Option Dti)} (hr : ∀ m n, r m n = r' m n)
    {h : Hdr} (hA : A.head + A.pos * h.count < A.word) (m : Bytes) (n b : Nat) :
    deserTupS A r h m n b = deserTup r' h m n b := by
  have hs : sizeofTup A h.count = A.head + A.pos * h.count := Nat.mod_eq_of_lt hA
  have h1 : ¬ sizeofTup A h.count < A.head := by omega
  simp only [deserTupS, deserTup, if_neg h1, fun b => deserFieldsS_room hr m n h.count 0 b (sz := sizeofTup A h.count) (A := A)
    (by rw [hs, Nat.zero_add]; exact Nat.le_refl _)]
  rfl

theorem deserFieldsS_in {A : Abi} {sz : Nat} {r : Bytes → Nat → Option (Option Dti)} {m : Bytes} {n : Nat} :
    ∀ k i b fs, deserFieldsS A sz r m n k i b = some (some fs) → A.head + A.pos * i ≤ sz → A.head + A.pos * (i + k) ≤ sz := by
  intro k
  induction k with
  | zero => intro i b fs _ h; exact h
  | succ k ih =>
    intro i b fs h hs
    simp only [deserFieldsS, Option.bind_eq_bind, Option.bind_eq_some_iff, Option.pure_def] at h
    obtain ⟨x, _, h⟩ := h
    rcases x with _ | ⟨nm, l⟩
    · cases h
    simp only at h
    split at h
    · cases h
    rename_i hi
    simp only [Option.bind_eq_some_iff] at h
    obtain ⟨y, _, h⟩ := h
    rcases y with _ | t
    · cases h
    simp only [Option.bind_eq_some_iff] at h
    obtain ⟨c, _, z, hz, h⟩ := h
    rcases z with _ | fs'
    · cases h
    have := ih _ _ _ hz (by omega)
    rwa [show i + (k + 1) = i + 1 + k by omega]

end Dti

namespace Props
open Dti

theorem serAll_length (fs : List (Fld × Dti)) : 2 * fs.length ≤ (serAll fs).length := by
  induction fs with
  | nil => simp
  | cons p r ih =>
    obtain ⟨f, t⟩ := p
    have h1 := serName_pos f.name
    have h2 := ser_pos t
    simp only [serAll, List.length_append, List.length_cons]
    omega

/-- C99. If `size_t` has room for the size of a tuple type of 2^32 - 1 containees (as it has with 64 bits), then reading a type from
any bytes, whatever lies behind them, writes no containee outside of the object that is allocated for it: it does
what it does with objects of unlimited size. -/
theorem C99_inside {A : Abi} (hA : A.head + A.pos * 4294967295 < A.word) (f : Nat) :
    ∀ m n, deserS A f m n = deserF f m n := by
  induction f with
  | zero => intros; rfl
  | succ f ih =>
    intro m n
    have hrec : deserS A f = deserF f := by funext m n; exact ih m n
    simp only [deserF, deserS]
    by_cases hn : n < 1
    · rw [if_pos hn, if_pos hn]
    · rw [if_neg hn, if_neg hn]
      cases hm : m[0]? with
      | none => rfl
      | some c =>
        simp only [Option.bind_eq_bind, Option.bind_some]
        rcases head_of (deserF f) (c := c.toNat) (m := m) (n := n) with
          ⟨h1, h2⟩ | ⟨h1, h2⟩ | ⟨d, b, h1, h2, h3⟩ | ⟨h, b, h1, h2⟩ | ⟨h, b, h1, h2⟩
        · rw [h1, h2]; rfl
        · rw [h1, h2]; rfl
        · rw [h1, h2]; rfl
        · rw [h1, h2]
          have hc := deserHead_count h1
          have : A.pos * h.count ≤ A.pos * 4294967295 := Nat.mul_le_mul_left _ (by omega)
          exact deserTupS_room ih (by omega) m n b
        · rw [h1, h2]; simp only [Option.bind_some, hrec]

/-- C99. All containees of a tuple type lie in `get_shallow_copy_struct_size_for_data_type_info` bytes from its start on (so that
copying these copies all of them, and nothing else) exactly if the size of the tuple type is a number of `size_t`. -/
theorem C99_shallow (A : Abi) (h : Hdr) (fs : List (Fld × Dti)) (hw : 0 < A.word) :
    ((∀ i, i < h.count → A.head + A.pos * (i + 1) ≤ structSize A (.tup h fs)) ∧ A.head ≤ structSize A (.tup h fs) ↔
      A.head + A.pos * h.count < A.word) ∧
    (A.head + A.pos * h.count < A.word → structSize A (.tup h fs) = A.head + A.pos * h.count) := by
  have hlt := Nat.mod_lt (A.head + A.pos * h.count) hw
  have hs : structSize A (.tup h fs) = (A.head + A.pos * h.count) % A.word := rfl
  refine ⟨⟨fun ⟨h1, h2⟩ => ?_, fun hl => ?_⟩, fun hl => by rw [hs, Nat.mod_eq_of_lt hl]⟩
  · rw [hs] at h1 h2
    by_cases h0 : h.count = 0
    · rw [h0] at h2 hlt ⊢
      simp only [Nat.mul_zero, Nat.add_zero] at *
      omega
    · have := h1 (h.count - 1) (by omega)
      rw [show h.count - 1 + 1 = h.count by omega] at this
      omega
  · rw [hs, Nat.mod_eq_of_lt hl]
    refine ⟨fun i hi => ?_, by omega⟩
    have : A.pos * (i + 1) ≤ A.pos * h.count := Nat.mul_le_mul_left _ (by omega)
    omega

/-- C99. Whatever `size_t` is, a tuple type that is returned has all of its containees inside of its object. -/
theorem C99_returned {A : Abi} {f : Nat} {m : Bytes} {n : Nat} {h : Hdr} {fs : List (Fld × Dti)}
    (hd : deserS A f m n = some (some (.tup h fs))) : A.head + A.pos * h.count ≤ structSize A (.tup h fs) := by
  cases f with
  | zero => cases hd
  | succ f =>
    rw [deserS] at hd
    split at hd
    · cases hd
    cases hm : m[0]? with
    | none => rw [hm] at hd; cases hd
    | some c =>
      rw [hm] at hd
      simp only [Option.bind_eq_bind, Option.bind_some] at hd
      rcases head_of (deserF f) (c := c.toNat) (m := m) (n := n) with
        ⟨h1, _⟩ | ⟨h1, _⟩ | ⟨d, b, h1, _, h3⟩ | ⟨g, b, h1, _⟩ | ⟨g, b, h1, _⟩
      all_goals rw [h1] at hd
      · cases hd
      · cases hd
      · simp only [Option.bind_some, finishName, Option.bind_eq_bind, Option.bind_eq_some_iff] at hd
        obtain ⟨x, _, hd⟩ := hd
        rcases h3 with ⟨k, g, rfl⟩ | ⟨k, g, rfl, _⟩ <;> rcases x with _ | ⟨nm, l⟩ <;> cases hd
      · simp only [Option.bind_some, deserTupS] at hd
        split at hd
        · cases hd
        rename_i hs
        simp only [Option.bind_eq_bind, Option.bind_eq_some_iff] at hd
        obtain ⟨x, _, hd⟩ := hd
        rcases x with _ | ⟨nm, l⟩
        · cases hd
        simp only [Option.bind_eq_some_iff] at hd
        obtain ⟨y, hy, hd⟩ := hd
        rcases y with _ | gs
        · cases hd
        cases hd
        have := deserFieldsS_in _ _ _ _ hy (by omega)
        rwa [Nat.zero_add] at this
      · simp only [Option.bind_some, deserArr, Option.bind_eq_bind, Option.bind_eq_some_iff] at hd
        obtain ⟨x, _, hd⟩ := hd
        rcases x with _ | ⟨nm, l⟩
        · cases hd
        simp only [Option.bind_eq_some_iff] at hd
        obtain ⟨y, _, hd⟩ := hd
        rcases y with _ | t <;> cases hd

/-- C99. `finalize_type_info` does not change the size of the object that a type is kept in. -/
theorem C99_finalised {A : Abi} {d d' : Dti} (hf : finalize d = some d') : structSize A d' = structSize A d := by
  cases d with
  | prim k h =>
    simp only [finalize, finPrim] at hf
    repeat' split at hf
    all_goals first | cases hf; rfl | cases hf
  | str b h =>
    simp only [finalize, finStr] at hf
    repeat' split at hf
    all_goals first | cases hf; rfl | cases hf
  | tup h fs =>
    simp only [finalize] at hf
    split at hf
    · cases hf; rfl
    · split at hf
      · cases hf
      · simp only [Option.bind_eq_bind, Option.bind_eq_some_iff] at hf
        obtain ⟨gs, _, hf⟩ := hf
        simp only [finTup] at hf
        generalize w32 _ = s at hf
        split at hf
        · cases hf
        · cases hf; rfl
  | arr h c =>
    simp only [finalize] at hf
    split at hf
    · cases hf; rfl
    · simp only [Option.bind_eq_bind, Option.bind_eq_some_iff] at hf
      obtain ⟨c', _, hf⟩ := hf
      unfold finArr at hf
      split at hf
      · cases hf
      · unfold finArrSize at hf
        split at hf
        · cases hf; rfl
        · split at hf
          · cases hf
          · cases hf; rfl

/-- C99. If the size of a tuple type of `x` containees is no number of `size_t`, and what is left of it has no room for one containee,
then 7 bytes, which are no type (and are found to be none with objects of unlimited size), make `deserialize_type_info` write outside of
the object that it allocated. -/
theorem C99_outside {A : Abi} {x : Nat} (hx : x < 4294967296) (h0 : 0 < x) (hz : sizeofTup A x < A.head + A.pos) :
    deserS A 8 (127 :: (leEnc 4 x ++ [0, 0])) 7 = none ∧ deser (127 :: (leEnc 4 x ++ [0, 0])) = some none := by
  have hd : deserHead 127 (127 :: (leEnc 4 x ++ [0, 0])) 7 = some (some (.tup { count := x } 5)) :=
    deserHead_tup (num4_leEnc hx _ (by omega))
  have hl : (127 :: (leEnc 4 x ++ [0, 0]) : Bytes).length = 7 := by simp
  have h5 : (127 :: (leEnc 4 x ++ [0, 0]) : Bytes).drop 5 = [0, 0] := by
    rw [List.drop_succ_cons, List.drop_left' (by simp)]
  have h6 : (127 :: (leEnc 4 x ++ [0, 0]) : Bytes).drop 6 = [0] := by
    rw [show 6 = 5 + 1 from rfl, ← List.drop_drop, h5]; rfl
  have hg : (127 :: (leEnc 4 x ++ [0, 0]) : Bytes)[0]? = some 127 := rfl
  have hw : w32 (5 + 1) = 6 := by decide +kernel
  have hw' : w32 (6 + 1) = 7 := by decide +kernel
  have hw7 : wsub 7 7 = 0 := by decide +kernel
  have hn : deserName ([0, 0] : Bytes) (wsub 7 5) = some (some ([], 1)) := by decide +kernel
  have hn6 : deserName ([0] : Bytes) (wsub 7 6) = some (some ([], 1)) := by decide +kernel
  generalize (127 :: (leEnc 4 x ++ [0, 0]) : Bytes) = m at *
  obtain ⟨k, rfl⟩ : ∃ k, x = k + 1 := ⟨x - 1, by omega⟩
  constructor
  · rw [deserS, if_neg (by omega), hg]
    simp only [Option.bind_eq_bind, Option.bind_some, show (127 : UInt8).toNat = 127 from rfl, hd, deserTupS, h5, hn, hw,
      deserFieldsS, h6, hn6, Nat.zero_add, Nat.mul_one, if_pos hz, Option.bind_none, ite_self]
  · unfold deser
    rw [hl, deserF, if_neg (by omega), hg]
    simp only [Option.bind_eq_bind, Option.bind_some, show (127 : UInt8).toNat = 127 from rfl]
    rcases head_of (deserF 7) (c := 127) (m := m) (n := 7) with
      ⟨h1, _⟩ | ⟨h1, _⟩ | ⟨d, b, h1, _⟩ | ⟨h, b, h1, h2⟩ | ⟨h, b, h1, _⟩
    all_goals rw [hd] at h1
    all_goals cases h1
    have hq : ∀ m, deserF 7 m 0 = some none := by intro m; rw [deserF, if_pos (by omega)]
    rw [h2]
    simp only [Option.bind_eq_bind, Option.bind_some, deserTup, h5, hn, hw, deserFields, h6, hn6, hw', hw7, hq, Option.pure_def]

/-- C99. So it is where `size_t` has 32 bits and `sizeof(data_position_info)` is even. -/
theorem C99_outside32 {A : Abi} (hw : A.word = 4294967296) (hh : A.head < 4294967296) (hp : 0 < A.pos) (he : A.pos % 2 = 0) :
    deserS A 8 [127, 0, 0, 0, 128, 0, 0] 7 = none ∧ deser [127, 0, 0, 0, 128, 0, 0] = some none := by
  have hz : sizeofTup A 2147483648 = A.head := by
    obtain ⟨k, hk⟩ : ∃ k, A.pos = 2 * k := ⟨A.pos / 2, by omega⟩
    unfold sizeofTup
    rw [hw, hk, show A.head + 2 * k * 2147483648 = A.head + 4294967296 * k by omega, Nat.add_mul_mod_self_left,
      Nat.mod_eq_of_lt hh]
  have := C99_outside (A := A) (x := 2147483648) (by omega) (by omega) (by omega)
  rwa [show (127 :: (leEnc 4 2147483648 ++ [0, 0]) : Bytes) = [127, 0, 0, 0, 128, 0, 0] by decide +kernel] at this

/-- C99. Five bytes are enough to make `deserialize_type_info` ask for an object for any number of containees, before it finds that
there are none. If the allocation fails this is reported as an allocation error; otherwise NULL is returned and nothing leaks. -/
theorem C99_request (fails : Nat → Bool) (sa : Statics) (x : Nat) (hx : x < 4294967296) (s : Mem) (hi : s.live s.next = false) :
    ∃ s', deserialize fails sa (127 :: leEnc 4 x) false s = some (none, fails s.next, s') ∧
      s'.next = s.next + 1 ∧ s'.live = s.live ∧ deserHead 127 (127 :: leEnc 4 x) 5 = some (some (.tup { count := x } 5)) := by
  have hl : (127 :: leEnc 4 x : Bytes).length = 5 := by simp
  have hd : deserHead 127 (127 :: leEnc 4 x) 5 = some (some (.tup { count := x } 5)) := by
    have := num4_leEnc hx [] (n := 5) (by omega)
    rw [List.append_nil] at this
    exact deserHead_tup this
  have hnm : deserName ((127 :: leEnc 4 x : Bytes).drop 5) (wsub 5 5) = some none := by
    rw [List.drop_of_length_le (by omega)]; decide +kernel
  unfold deserialize
  rw [hl, deserH, if_neg (by omega)]
  simp only [List.getElem?_cons_zero, Option.bind_eq_bind, Option.bind_some, show (127 : UInt8).toNat = 127 from rfl]
  rw [hd]
  simp only [Option.bind_some]
  unfold deserTupH Mem.malloc
  by_cases hf : fails s.next = true
  · rw [if_pos hf]; exact ⟨{ s with next := s.next + 1 }, by rw [hf], rfl, rfl, trivial⟩
  · have hf' : fails s.next = false := by simpa using hf
    rw [if_neg hf]
    simp only [hnm, Option.bind_eq_bind, Option.bind_some, Mem.free, beq_self_eq_true, Bool.true_or, if_true, Option.pure_def, hf']
    refine ⟨_, rfl, rfl, ?_, trivial⟩
    funext b
    by_cases hb : b = s.next
    · subst hb; simp [hi]
    · have : (b == s.next) = false := by simpa using hb
      simp only [bne, this, Bool.not_false, Bool.true_and, Bool.false_or]

/-- C99. What `serialize_type_info` writes for a tuple type is never that short: it has two bytes and more for every containee. So a type
whose count is above half of the number of bytes could be refused before anything is allocated. -/
theorem C99_honest {h : Hdr} {fs : List (Fld × Dti)} (hl : fs.length = h.count) :
    2 * h.count + 6 ≤ (ser (.tup h fs)).length := by
  have h1 := serAll_length fs
  have h2 := serName_pos h.name
  have h3 : 5 ≤ (serTup h).length := by
    unfold serTup
    split
    · simp
    · simp only [List.length_cons, List.length_append, leEnc_length]; omega
  simp only [ser, List.length_append]
  omega

/-! ### the hypotheses can be met -/

/-- `size_t` of 64 bits; `data_position_info` is a name of 64 bytes and three members of 8 bytes. -/
def exAbi64 : Abi := ⟨18446744073709551616, 120, 88⟩

/-- `size_t` and pointers of 32 bits, members of 8 bytes aligned to 4. -/
def exAbi32 : Abi := ⟨4294967296, 112, 84⟩

/-- A tuple type of two containees is read with objects of limited size, and is kept in one of 296 bytes. -/
example : exAbi64.head + exAbi64.pos * 4294967295 < exAbi64.word ∧
    (match deserS exAbi64 20 [127, 2, 0, 0, 0, 0, 97, 0, 3, 2, 0, 98, 0, 3, 4, 0] 16 with
      | some (some (.tup h fs)) => decide (h.count = 2 ∧ fs.length = 2 ∧ structSize exAbi64 (.tup h fs) = 296)
      | _ => false) = true := by decide +kernel

example : exAbi32.word = 4294967296 ∧ exAbi32.head < 4294967296 ∧ 0 < exAbi32.pos ∧ exAbi32.pos % 2 = 0 := by decide

/-- Another number of containees whose size is no number of `size_t`, here odd: 51130563 * 84 = 2^32 - 4. -/
example : 51130563 < 4294967296 ∧ sizeofTup exAbi32 51130563 = 108 ∧ sizeofTup exAbi32 51130563 < exAbi32.head + exAbi32.pos ∧
    deserS exAbi32 8 (127 :: (leEnc 4 51130563 ++ [0, 0])) 7 = none :=
  ⟨by decide, by decide, by decide, (C99_outside (A := exAbi32) (by decide) (by decide) (by decide)).1⟩

/-- A type of 51130563 containees does not lie in the bytes that are said to be its size; one of four does. -/
example : ¬ (exAbi32.head + exAbi32.pos * ({ count := 51130563 } : Hdr).count < exAbi32.word) ∧ 0 < exAbi32.word ∧
    exAbi32.head + exAbi32.pos * exFinal.hdr.count < exAbi32.word := by decide

/-- `exFinal` has four containees. -/
example : ∃ h fs, exFinal = .tup h fs ∧ fs.length = h.count ∧ h.count = 4 ∧ (ser exFinal).length = 35 :=
  ⟨_, _, rfl, rfl, rfl, by decide +kernel⟩

example : exHeap.live exHeap.next = false ∧ 4294967295 < 4294967296 := by decide

example : structSize exAbi64 exFinal = 472 ∧ structSize exAbi64 exType = 472 :=
  ⟨rfl, (C99_finalised (A := exAbi64) exType_finalize).symm.trans rfl⟩

end Props
end TS
