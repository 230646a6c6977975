/-
Byte level memory model: buffers are lists of bytes, every access is bounds checked.
A `none` result anywhere in the model is a *fault*: the C code would touch memory outside of
the buffer it was given, or an unsigned 32 bit computation would wrap around.
-/
namespace TS

abbrev Bytes := List UInt8

/-- 32-bit unsigned result check. Models the C `uint32_t` arithmetic of the whole library:
`none` means the C computation would have wrapped. (All sub-expressions used under one `u32`
are sums and products of naturals, so no intermediate result exceeds the final one.) -/
def u32 (x : Nat) : Option Nat := if x < 4294967296 then some x else none

/-- `uint32_t` subtraction, faulting where C would wrap. -/
def sub32 (a b : Nat) : Option Nat := if b ≤ a then some (a - b) else none

/-- serint `serialize_uint32(data, w, v)`: little endian, low `w` bytes of `v`
(external library, used by /repo/inc/tuplestore/page_layout_util.h:49-52). -/
def leEnc : Nat → Nat → Bytes
  | 0, _ => []
  | w + 1, v => UInt8.ofNat v :: leEnc w (v / 256)

/-- serint `deserialize_uint32(data, w)`
(external library, used by /repo/inc/tuplestore/page_layout_util.h:44-47). -/
def leDec : Bytes → Nat
  | [] => 0
  | b :: bs => b.toNat + 256 * leDec bs

/-- Plain (unchecked) view of `len` bytes at `off`; only ever used below a bounds check. -/
def rd (m : Bytes) (off len : Nat) : Bytes := (m.drop off).take len

/-- Plain (unchecked) overwrite of the bytes at `off` with `src`; only ever used below a
bounds check (under which the final `take` does nothing, see `wr_eq`). -/
def wr (m : Bytes) (off : Nat) (src : Bytes) : Bytes :=
  (m.take off ++ src ++ m.drop (off + src.length)).take m.length

/-- Checked read of a byte range (source operand of cutlery `memory_move`). -/
def load (m : Bytes) (off len : Nat) : Option Bytes :=
  if off + len ≤ m.length then some (rd m off len) else none

/-- Checked write of a byte range (cutlery `memory_move`, `memory_set` destination). -/
def store (m : Bytes) (off : Nat) (src : Bytes) : Option Bytes :=
  if off + src.length ≤ m.length then some (wr m off src) else none

/-- `get_value_size_on_page`, /repo/inc/tuplestore/page_layout_util.h:29-42. -/
def vsz (ps : Nat) : Nat :=
  4 - (if ps ≤ 2 ^ 24 then 1 else 0) - (if ps ≤ 2 ^ 16 then 1 else 0)
    - (if ps ≤ 2 ^ 8 then 1 else 0)

/-- `read_value_from_page`, /repo/inc/tuplestore/page_layout_util.h:44-47
(`ps` is the page size, or the `max_size` of a container). -/
def loadVal (m : Bytes) (ps off : Nat) : Option Nat := (load m off (vsz ps)).map leDec

/-- `write_value_to_page`, /repo/inc/tuplestore/page_layout_util.h:49-52. -/
def storeVal (m : Bytes) (ps off v : Nat) : Option Bytes := store m off (leEnc (vsz ps) v)

/-- cutlery `memory_move(m + dst, m + src, len)` inside one buffer (overlap allowed). -/
def moveIn (m : Bytes) (dst src len : Nat) : Option Bytes := do
  let b ← load m src len
  store m dst b

/-- cutlery `memory_set(m + off, 0, len)`. -/
def zeroIn (m : Bytes) (off len : Nat) : Option Bytes := store m off (List.replicate len 0)

/-- cutlery `memory_right_rotate(m + off, len, rot)`: rotates `len` bytes right by `rot`. -/
def rotRight (m : Bytes) (off len rot : Nat) : Option Bytes := do
  let b ← load m off len
  if rot ≤ len then store m off (b.drop (len - rot) ++ b.take (len - rot)) else none

/-- cutlery `memory_swap(m + a, m + b, len)` on two ranges; also models
`swap_values_on_page`, /repo/inc/tuplestore/page_layout_util.h:54-73, whose byte loop has this
effect on non-overlapping ranges (the only way it is called). -/
def swapIn (m : Bytes) (a b len : Nat) : Option Bytes := do
  let x ← load m a len
  let y ← load m b len
  let m ← store m a y
  store m b x

/-! ### Laws -/

@[simp] theorem leEnc_length (w v : Nat) : (leEnc w v).length = w := by
  induction w generalizing v with
  | zero => rfl
  | succ w ih => simp [leEnc, ih]

theorem leDec_leEnc (w v : Nat) : leDec (leEnc w v) = v % 256 ^ w := by
  induction w generalizing v with
  | zero => simp [leEnc, leDec, Nat.mod_one]
  | succ w ih =>
    simp only [leEnc, leDec, ih, UInt8.toNat_ofNat']
    rw [show (2:Nat)^8 = 256 from rfl, Nat.pow_succ (n := 256), Nat.mul_comm (256 ^ w) 256, Nat.mod_mul]

theorem leDec_lt (b : Bytes) : leDec b < 256 ^ b.length := by
  induction b with
  | nil => simp [leDec]
  | cons x xs ih =>
    simp only [leDec, List.length_cons, Nat.pow_succ]
    have := x.toNat_lt
    omega

theorem leEnc_leDec (b : Bytes) : leEnc b.length (leDec b) = b := by
  induction b with
  | nil => rfl
  | cons x xs ih =>
    simp only [List.length_cons, leEnc, leDec]
    have hx := x.toNat_lt
    have h1 : (x.toNat + 256 * leDec xs) / 256 = leDec xs := by omega
    have h2 : UInt8.ofNat (x.toNat + 256 * leDec xs) = x := by
      apply UInt8.toNat_inj.mp
      simp only [UInt8.toNat_ofNat']
      omega
    rw [h1, h2, ih]

theorem leDec_replicate_zero (n : Nat) : leDec (List.replicate n 0) = 0 := by
  induction n with
  | zero => rfl
  | succ n ih => simp [List.replicate_succ, leDec, ih]

theorem rd_length (m : Bytes) (off len : Nat) (h : off + len ≤ m.length) :
    (rd m off len).length = len := by
  simp [rd]; omega

theorem wr_eq (m : Bytes) (off : Nat) (s : Bytes) (h : off + s.length ≤ m.length) :
    wr m off s = m.take off ++ s ++ m.drop (off + s.length) := by
  unfold wr
  rw [List.take_of_length_le]
  simp; omega

@[simp] theorem wr_length (m : Bytes) (off : Nat) (s : Bytes) :
    (wr m off s).length = m.length := by
  simp [wr]; omega

theorem wr_getElem? (m : Bytes) (off : Nat) (s : Bytes)
    (i : Nat) : (wr m off s)[i]? =
      if off ≤ i ∧ i < off + s.length ∧ i < m.length then s[i - off]? else m[i]? := by
  unfold wr
  rw [List.getElem?_take]
  by_cases h0 : i < m.length
  · rw [if_pos h0]
    by_cases h1 : i < off
    · rw [List.append_assoc, List.getElem?_append_left (by simp; omega)]
      rw [if_neg (by omega), List.getElem?_take, if_pos h1]
    · by_cases h2 : i < off + s.length
      · rw [if_pos (by omega), List.getElem?_append_left (by simp; omega),
          List.getElem?_append_right (by simp; omega)]
        congr 1; simp; omega
      · rw [if_neg (by omega), List.getElem?_append_right (by simp; omega), List.getElem?_drop]
        congr 1; simp; omega
  · rw [if_neg h0, if_neg (by omega), List.getElem?_eq_none (by omega)]

theorem rd_getElem? (m : Bytes) (off len i : Nat) :
    (rd m off len)[i]? = if i < len then m[off + i]? else none := by
  simp [rd, List.getElem?_take]

/-- Two ranges are equal as soon as they agree byte by byte. -/
theorem rd_ext {m m' : Bytes} {o o' len : Nat}
    (h : ∀ i, i < len → m[o + i]? = m'[o' + i]?) : rd m o len = rd m' o' len := by
  apply List.ext_getElem?
  intro i
  rw [rd_getElem?, rd_getElem?]
  split
  · exact h i ‹_›
  · rfl

theorem rd_wr_same (m : Bytes) (off : Nat) (s : Bytes) (h : off + s.length ≤ m.length) :
    rd (wr m off s) off s.length = s := by
  apply List.ext_getElem?
  intro i
  rw [rd_getElem?, wr_getElem?]
  by_cases h1 : i < s.length
  · rw [if_pos h1, if_pos (by omega)]; congr 1; omega
  · rw [if_neg h1, List.getElem?_eq_none (by omega)]

theorem rd_wr_disj (m : Bytes) (off : Nat) (s : Bytes)
    (o l : Nat) (hd : o + l ≤ off ∨ off + s.length ≤ o) :
    rd (wr m off s) o l = rd m o l := by
  apply rd_ext
  intro i hi
  rw [wr_getElem?, if_neg (by omega)]

/-- Reading a sub-range of a freshly written range. -/
theorem rd_wr_sub (m : Bytes) (off : Nat) (s : Bytes) (h : off + s.length ≤ m.length)
    (o l : Nat) (ho : off ≤ o) (hl : o + l ≤ off + s.length) :
    rd (wr m off s) o l = rd s (o - off) l := by
  apply rd_ext
  intro i hi
  rw [wr_getElem?, if_pos (by omega)]
  congr 1; omega

theorem rd_rd (m : Bytes) (o l o' l' : Nat) (h : o' + l' ≤ l) :
    rd (rd m o l) o' l' = rd m (o + o') l' := by
  apply rd_ext
  intro i hi
  rw [rd_getElem?, if_pos (by omega)]
  congr 1; omega

theorem load_eq {m : Bytes} {o l : Nat} (h : o + l ≤ m.length) : load m o l = some (rd m o l) := by
  simp [load, h]

theorem store_eq {m : Bytes} {o : Nat} {s : Bytes} (h : o + s.length ≤ m.length) :
    store m o s = some (wr m o s) := by
  simp [store, h]

theorem u32_eq {x : Nat} (h : x < 4294967296) : u32 x = some x := by simp [u32, h]

theorem sub32_eq {a b : Nat} (h : b ≤ a) : sub32 a b = some (a - b) := by simp [sub32, h]

theorem vsz_pos (ps : Nat) : 1 ≤ vsz ps := by unfold vsz; split <;> split <;> split <;> omega

theorem vsz_le (ps : Nat) : vsz ps ≤ 4 := by unfold vsz; omega

theorem vsz_cases (ps : Nat) : vsz ps = 1 ∨ vsz ps = 2 ∨ vsz ps = 3 ∨ vsz ps = 4 := by
  have := vsz_pos ps; have := vsz_le ps; omega

/-- A page of `ps` bytes only has offsets that fit its value width. -/
theorem le_pow_vsz {ps : Nat} (h : ps < 4294967296) : ps ≤ 256 ^ vsz ps := by
  unfold vsz
  split <;> split <;> split <;> simp <;> omega

theorem vsz_mono {a b : Nat} (h : a ≤ b) : vsz a ≤ vsz b := by
  unfold vsz
  split <;> split <;> split <;> split <;> split <;> split <;> omega

end TS
