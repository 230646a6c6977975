import Verif.PropsHash
/-
Reading and writing of floating point numbers, /repo/inc/tuplestore/float_accesses.h, on machines of any byte order.

A `float` or `double` is its bit pattern, a number below `256 ^ n` for its size `n` of 4 or 8 bytes. How a machine lays out an integer or a
floating point number in its memory is one of two orders each; `memory_move` between the two variables copies these bytes.
-/
namespace TS

/-- The byte orders of a machine: whether integers, and whether floating point numbers, have the most significant byte first. -/
structure Machine where
  intBig : Bool
  fltBig : Bool

/-- The bytes of a variable of `n` bytes with the bit pattern `x`, in the memory of a machine. -/
def varBytes (big : Bool) (n x : Nat) : Bytes := if big then (leEnc n x).reverse else leEnc n x

/-- The bit pattern of a variable with the bytes `b`. -/
def varBits (big : Bool) (b : Bytes) : Nat := if big then leDec b.reverse else leDec b

/-- `serialize_float` (`n = 4`) and `serialize_double` (`n = 8`), /repo/inc/tuplestore/float_accesses.h:60-76: the bytes of `x` are
copied into an unsigned integer, which serint `serialize_uint32` or `serialize_uint64` writes as little endian. -/
def serFloat (M : Machine) (n : Nat) (m : Bytes) (off x : Nat) : Option Bytes :=
  let temp := varBits M.intBig (varBytes M.fltBig n x)
  store m off (leEnc n temp)

/-- `deserialize_float` (`n = 4`) and `deserialize_double` (`n = 8`), /repo/inc/tuplestore/float_accesses.h:40-58. -/
def desFloat (M : Machine) (n : Nat) (m : Bytes) (off : Nat) : Option Nat := do
  let temp := leDec (← load m off n)
  pure (varBits M.fltBig (varBytes M.intBig n temp))

@[simp] theorem varBytes_length (big : Bool) (n x : Nat) : (varBytes big n x).length = n := by unfold varBytes; split <;> simp

theorem varBits_varBytes (big : Bool) {n x : Nat} (hx : x < 256 ^ n) : varBits big (varBytes big n x) = x := by
  unfold varBits varBytes
  cases big <;> simp [leDec_leEnc, Nat.mod_eq_of_lt hx]

theorem varBytes_varBits (big : Bool) (b : Bytes) : varBytes big b.length (varBits big b) = b := by
  unfold varBits varBytes
  cases big
  · simp [leEnc_leDec]
  · have := leEnc_leDec b.reverse
    simp only [List.length_reverse] at this
    simp [this]

theorem leDec_lt' (b : Bytes) : leDec b < 256 ^ b.length := by
  induction b with
  | nil => simp [leDec]
  | cons a b ih =>
    have := a.toNat_lt
    simp only [leDec, List.length_cons, Nat.pow_succ]
    omega

theorem varBits_lt (big : Bool) (b : Bytes) : varBits big b < 256 ^ b.length := by
  unfold varBits
  have h1 := leDec_lt' b
  have h2 := leDec_lt' b.reverse
  simp only [List.length_reverse] at h2
  split <;> assumption

namespace Props

/-- C91. A floating point number that is written is read back bit for bit (NaNs and negative zeros too), on a machine of any byte orders, and
no other byte of memory changes. -/
theorem C91_round {M : Machine} {n : Nat} {m m' : Bytes} {off x : Nat} (hx : x < 256 ^ n) (h : serFloat M n m off x = some m') :
    desFloat M n m' off = some x ∧ m'.length = m.length ∧ ∀ o l, o + l ≤ off ∨ off + n ≤ o → rd m' o l = rd m o l := by
  unfold serFloat store at h
  simp only [leEnc_length] at h
  split at h
  · rename_i hb
    cases h
    have hb' : off + (leEnc n (varBits M.intBig (varBytes M.fltBig n x))).length ≤ m.length := by simpa using hb
    refine ⟨?_, by simp, fun o l ho => rd_wr_disj _ _ _ _ _ (by simpa using ho)⟩
    have e := rd_wr_same m off _ hb'
    simp only [leEnc_length] at e
    unfold desFloat
    rw [load_eq (by simpa using hb)]
    simp only [e, Option.bind_eq_bind, Option.bind_some, leDec_leEnc]
    have l1 := varBits_lt M.intBig (varBytes M.fltBig n x)
    rw [varBytes_length] at l1
    rw [Nat.mod_eq_of_lt l1]
    have := varBytes_varBits M.intBig (varBytes M.fltBig n x)
    rw [varBytes_length] at this
    rw [this, varBits_varBytes _ hx]
    rfl
  · cases h

example : serFloat ⟨true, false⟩ 4 [9, 9, 9, 9, 9, 9] 1 0x7fc00001 = some [9, 127, 192, 0, 1, 9] ∧ 0x7fc00001 < 256 ^ 4 := by decide +kernel

/-- C91. What is stored is the little endian bit pattern, on every machine on which integers and floating point numbers have the same
byte order, whichever it is. (The comments at lines 8 and 16 of the header say "processor order only".) -/
theorem C91_bytes {M : Machine} (hM : M.intBig = M.fltBig) (n : Nat) (m : Bytes) (off : Nat) {x : Nat} (hx : x < 256 ^ n) :
    serFloat M n m off x = store m off (leEnc n x) ∧ desFloat M n m off = (load m off n).map leDec := by
  refine ⟨by unfold serFloat; rw [hM, varBits_varBytes _ hx], ?_⟩
  unfold desFloat load
  split
  · rename_i hb
    have hl := leDec_lt' (rd m off n)
    have : (rd m off n).length = n := by simp [rd]; omega
    rw [this] at hl
    simp [hM, varBits_varBytes _ hl]
  · rfl

example : (⟨true, true⟩ : Machine).intBig = (⟨true, true⟩ : Machine).fltBig ∧ serFloat ⟨true, true⟩ 4 [0, 0, 0, 0] 0 0x3f800000 = some [0, 0, 128, 63] ∧
    serFloat ⟨false, false⟩ 4 [0, 0, 0, 0] 0 0x3f800000 = some [0, 0, 128, 63] := by decide +kernel

/-- C91. So a number written by one such machine is read by every other one. -/
theorem C91_portable {M N : Machine} (hM : M.intBig = M.fltBig) (hN : N.intBig = N.fltBig) {n : Nat} {m m' : Bytes} {off x : Nat}
    (hx : x < 256 ^ n) (h : serFloat M n m off x = some m') : desFloat N n m' off = some x := by
  have : serFloat M n m off x = serFloat N n m off x := by rw [(C91_bytes hM n m off hx).1, (C91_bytes hN n m off hx).1]
  exact (C91_round hx (this ▸ h)).1

example : (serFloat ⟨true, true⟩ 8 (List.replicate 9 0) 1 0x3ff0000000000001).bind (fun m => desFloat ⟨false, false⟩ 8 m 1) = some 0x3ff0000000000001 := by
  decide +kernel

/-- C91. On a machine whose integers and floating point numbers differ in byte order, the bytes are stored in reverse. -/
theorem C91_mixed {M : Machine} (hM : M.intBig ≠ M.fltBig) (n : Nat) (m : Bytes) (off x : Nat) :
    serFloat M n m off x = store m off (leEnc n x).reverse := by
  obtain ⟨i, f⟩ := M
  have key : ∀ b : Bytes, b.length = n → leEnc n (leDec b) = b := fun b hb => hb ▸ leEnc_leDec b
  unfold serFloat varBits varBytes
  cases i <;> cases f <;> simp at hM ⊢ <;> rw [key _ (by simp)]

/-- C91. Such a machine and one without this difference read each other's numbers correctly only if the bytes of the number are the same
in reverse. -/
theorem C91_mixed_foreign {M N : Machine} (hM : M.intBig ≠ M.fltBig) (hN : N.intBig = N.fltBig) {n : Nat} {m m' : Bytes} {off x : Nat}
    (hx : x < 256 ^ n) (h : serFloat M n m off x = some m') : desFloat N n m' off = some x ↔ (leEnc n x).reverse = leEnc n x := by
  rw [C91_mixed hM] at h
  unfold store at h
  split at h
  · rename_i hb
    cases h
    have e := rd_wr_same m off _ hb
    simp only [List.length_reverse, leEnc_length] at e hb
    rw [(C91_bytes hN n _ off hx).2, load_eq (by simpa using hb), e]
    simp only [Option.map_some, Option.some.injEq]
    constructor
    · intro h
      have := leEnc_leDec (leEnc n x).reverse
      simp only [List.length_reverse, leEnc_length] at this
      rw [← this, h]
    · intro h
      rw [h, leDec_leEnc, Nat.mod_eq_of_lt hx]
  · cases h

example : (⟨true, false⟩ : Machine).intBig ≠ (⟨true, false⟩ : Machine).fltBig ∧ serFloat ⟨true, false⟩ 4 [0, 0, 0, 0] 0 0x3f800000 = some [63, 128, 0, 0] ∧
    desFloat ⟨false, false⟩ 4 [63, 128, 0, 0] 0 ≠ some 0x3f800000 := by decide +kernel

/-- C91. `set_datum_for_type_info` and `get_datum_for_type_info` of FLOATs, as they are modelled for all other properties, are these two
functions: on every machine with one byte order, the datum of the bit pattern `x` is `.flt (leEnc size x)`. -/
theorem C91_datum {M : Machine} (hM : M.intBig = M.fltBig) {h : Hdr} (hu : Usable (.prim .float h)) (m : Bytes) :
    (∀ x valid inc, x < 256 ^ h.size →
      Dti.setDatum (.prim .float h) m valid inc (.flt (leEnc h.size x)) = (serFloat M h.size m 0 x).map (·, true)) ∧
    Dti.getDatum (.prim .float h) m = (desFloat M h.size m 0).map (fun x => some (.flt (leEnc h.size x))) := by
  have hv : h.isVar = false := by cases hu.ok; assumption
  constructor
  · intro x valid inc hx
    rw [(C91_bytes hM h.size m 0 hx).1]
    cases hs : store m 0 (leEnc h.size x) <;>
      simp [Dti.setDatum, Datum.isNull, Dti.isBit, Dti.isVar, Dti.hdr, hv, Datum.asFlt, hs]
  · rw [(C91_bytes hM h.size m 0 (x := 0) (Nat.pow_pos (by decide))).2]
    by_cases hb : 0 + h.size ≤ m.length
    · have hl : (rd m 0 h.size).length = h.size := by simp [rd]; omega
      have := leEnc_leDec (rd m 0 h.size)
      rw [hl] at this
      simp [Dti.getDatum, load_eq hb, this]
    · have : load m 0 h.size = none := by unfold load; rw [if_neg hb]
      simp [Dti.getDatum, this]

example : Usable exFloat ∧ Dti.setDatum exFloat [1, 1, 1, 1, 1] false 0 (.flt (leEnc 4 0x3f800000)) = some ([0, 0, 128, 63, 1], true) :=
  ⟨⟨.prim .float { size := 4 }, .prim _ _ rfl, rfl, .prim _ _⟩, by decide +kernel⟩

end Props
end TS
