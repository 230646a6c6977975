import Verif.SizeDef
/-
Model of the serialisation of `tuple_size_def` and of the remaining functions of
/repo/src/tuple_def.c that only need the size definition.
-/
namespace TS
namespace SD

/-- The byte `s[0] |= 1 << bit`. -/
def bit (b : Bool) (n : Nat) : Nat := if b then 2 ^ n else 0

/-- `serialize_tuple_size_def`, /repo/src/tuple_def.c:189-228: the bytes written to `data`, in
order (the return value `data_size` is their number). The flag byte, which C builds up in place
with `|=`, is written once with its final value; the bits are distinct, so `|` is `+`. -/
def serialize (d : SizeDef) : Bytes :=
  if d.isVar = false then
    UInt8.ofNat 0 :: leEnc 4 d.size
  else if d.hasSize then
    UInt8.ofNat (bit true 0 + bit true 1 + bit d.hasCount 2) ::
      (leEnc 4 d.size ++ leEnc 4 d.maxSize)
  else
    UInt8.ofNat (bit true 0 + bit false 1 + bit d.hasCount 2 + bit d.contValid 3 +
      bit d.contIsBit 4) ::
      (leEnc 4 d.size ++ leEnc 4 d.maxSize ++ leEnc 4 d.contSize)

/-- `!!(s[0] & (1 << n))`. -/
def tst (b : UInt8) (n : Nat) : Bool := b.toNat.testBit n

/-- serint `deserialize_uint32(s + off, 4)`. -/
def u32At (m : Bytes) (off : Nat) : Option Nat := (load m off 4).map leDec

/-- `deserialize_tuple_size_def`, /repo/src/tuple_def.c:230-268. `data` is the memory from the
pointer on, `size` the claimed number of bytes; `d0` the old contents of the structure, which
stay where the function does not write. The outer `none` is an access outside of `data`, the
inner `none` the return value 0. -/
def deserialize (d0 : SizeDef) (data : Bytes) (size : Nat) : Option (Option SizeDef) := do
  if size = 0 then pure none
  else do
    let s0 ← data[0]?
    if tst s0 0 = false then
      if 1 + 4 > size then pure none
      else do
        let n ← u32At data 1
        pure (some { d0 with isVar := false, size := n })
    else if 1 + 8 > size then pure none
    else do
      let mn ← u32At data 1
      let mx ← u32At data 5
      let d1 := { d0 with
        isVar := true, size := mn, maxSize := mx, hasSize := tst s0 1, hasCount := tst s0 2 }
      if tst s0 1 then pure (some d1)
      else if 9 + 4 > size then pure none
      else do
        let c ← u32At data 9
        pure (some { d1 with contValid := tst s0 3, contIsBit := tst s0 4, contSize := c })

/-- `get_tuple_size_using_tuple_size_def2`, /repo/src/tuple_def.c:99-117, with the user's
`read_tuple_prefix` modelled as a function from the number of bytes asked for to the bytes it
delivers (at most as many as asked for). The 4 byte `buffer` is zero initialised.
`get_tuple_size2`, /repo/src/tuple_def.c:119-122, calls it with the size definition of a tuple
definition. -/
def tupleSize2 (d : SizeDef) (readPrefix : Nat → Bytes) : Option Nat :=
  if d.isVar = false then some d.size
  else
    let want := vsz d.maxSize
    let got := readPrefix want
    if got.length < want then some 0
    else do
      let buffer ← store (List.replicate 4 0) 0 got
      tupleSize d buffer

/-- `initialize_minimal_tuple_for_tuple_size_info`, /repo/src/tuple_def.c:166-181. -/
def initMinimal (d : SizeDef) (tupl : Bytes) : Option (Bytes × Nat) :=
  if d.isVar = false then do
    let t ← zeroIn tupl 0 d.size
    pure (t, d.size)
  else do
    let t ← zeroIn tupl 0 d.size
    let t ← if d.hasSize then storeVal t d.maxSize 0 d.size else pure t
    pure (t, d.size)

/-- A `tuple_size_def` whose numbers are `uint32_t`. -/
structure U32 (d : SizeDef) : Prop where
  size : d.size < 4294967296
  maxSize : d.maxSize < 4294967296
  contSize : d.contSize < 4294967296

end SD

namespace Props

theorem u32At_enc {a b : Bytes} {v o : Nat} (hv : v < 4294967296) (ho : a.length = o) :
    SD.u32At (a ++ (leEnc 4 v ++ b)) o = some v := by
  have hl : load (a ++ (leEnc 4 v ++ b)) o 4 = some (leEnc 4 v) := by
    rw [load_eq (by simp; omega)]
    congr 1
    simp only [rd]
    rw [List.drop_append_of_le_length (by omega), ← ho, List.drop_length, List.nil_append,
      List.take_append_of_le_length (by simp), List.take_of_length_le (by simp)]
  rw [SD.u32At, hl, Option.map_some, leDec_leEnc, Nat.mod_eq_of_lt (by simpa using hv)]

/-- C26: serialising any definition and reading it back (into any structure, with any bytes
following in memory) succeeds and gives a definition with the same layout, minimum and maximum,
which assigns the same size to every tuple; at most 13 bytes are written. -/
theorem C26_size_def_roundtrip {d : SizeDef} (hd : SD.U32 d) (d0 : SizeDef) (rest : Bytes) :
    (SD.serialize d).length ≤ 13 ∧
    ∃ d', SD.deserialize d0 (SD.serialize d ++ rest) (SD.serialize d).length = some (some d') ∧
      d'.isVar = d.isVar ∧ (∀ t, tupleSize d' t = tupleSize d t) ∧
      minTupleSize d' = minTupleSize d ∧ maxTupleSize d' = maxTupleSize d := by
  have h1 := hd.size
  have h2 := hd.maxSize
  have h3 := hd.contSize
  unfold SD.serialize
  split
  · rename_i hv
    refine ⟨by simp, ?_⟩
    have e1 := u32At_enc (a := [UInt8.ofNat 0]) (b := rest) (o := 1) h1 rfl
    simp only [List.singleton_append] at e1
    refine ⟨{ d0 with isVar := false, size := d.size }, ?_, ?_⟩
    · simp only [SD.deserialize, List.length_cons, leEnc_length, List.cons_append]
      simp only [List.getElem?_cons_zero, Option.bind_eq_bind, Option.bind_some, e1]
      simp [SD.tst]
    · simp [tupleSize, hv, minTupleSize, maxTupleSize]
  · rename_i hv
    have hv : d.isVar = true := by simpa using hv
    split
    · rename_i hs
      refine ⟨by simp, ?_⟩
      generalize hf : UInt8.ofNat (SD.bit true 0 + SD.bit true 1 + SD.bit d.hasCount 2) = f
      have t0 : SD.tst f 0 = true := by rw [← hf]; cases d.hasCount <;> decide
      have t1 : SD.tst f 1 = true := by rw [← hf]; cases d.hasCount <;> decide
      have e1 := u32At_enc (a := [f]) (b := leEnc 4 d.maxSize ++ rest) (o := 1) h1 rfl
      have e2 := u32At_enc (a := f :: leEnc 4 d.size) (b := rest) (o := 5) h2 (by simp)
      simp only [List.cons_append, List.nil_append] at e1 e2
      refine ⟨{ d0 with
        isVar := true, size := d.size, maxSize := d.maxSize, hasSize := true,
        hasCount := SD.tst f 2 }, ?_, ?_⟩
      · simp only [SD.deserialize, List.length_cons, List.length_append, leEnc_length,
          List.cons_append, List.append_assoc]
        simp only [List.getElem?_cons_zero, Option.bind_eq_bind, Option.bind_some, e1, e2, t0, t1]
        simp
      · simp [tupleSize, hv, hs, minTupleSize, maxTupleSize]
    · rename_i hs
      refine ⟨by simp, ?_⟩
      generalize hf : UInt8.ofNat (SD.bit true 0 + SD.bit false 1 + SD.bit d.hasCount 2 +
        SD.bit d.contValid 3 + SD.bit d.contIsBit 4) = f
      have t0 : SD.tst f 0 = true := by
        rw [← hf]; cases d.hasCount <;> cases d.contValid <;> cases d.contIsBit <;> decide
      have t1 : SD.tst f 1 = false := by
        rw [← hf]; cases d.hasCount <;> cases d.contValid <;> cases d.contIsBit <;> decide
      have t3 : SD.tst f 3 = d.contValid := by
        rw [← hf]; cases d.hasCount <;> cases d.contValid <;> cases d.contIsBit <;> decide
      have t4 : SD.tst f 4 = d.contIsBit := by
        rw [← hf]; cases d.hasCount <;> cases d.contValid <;> cases d.contIsBit <;> decide
      have e1 := u32At_enc (a := [f]) (b := leEnc 4 d.maxSize ++ (leEnc 4 d.contSize ++ rest))
        (o := 1) h1 rfl
      have e2 := u32At_enc (a := f :: leEnc 4 d.size) (b := leEnc 4 d.contSize ++ rest) (o := 5)
        h2 (by simp)
      have e3 := u32At_enc (a := f :: (leEnc 4 d.size ++ leEnc 4 d.maxSize)) (b := rest) (o := 9)
        h3 (by simp)
      simp only [List.cons_append, List.nil_append, List.append_assoc] at e1 e2 e3
      refine ⟨⟨true, d.size, d.maxSize, false, SD.tst f 2, d.contValid, d.contIsBit, d.contSize⟩, ?_, ?_⟩
      · simp only [SD.deserialize, List.length_cons, List.length_append, leEnc_length,
          List.cons_append, List.append_assoc]
        simp only [List.getElem?_cons_zero, Option.bind_eq_bind, Option.bind_some, e1, e2, e3, t0,
          t1, t3, t4]
        simp
      · simp [tupleSize, hv, hs, minTupleSize, maxTupleSize]

example : SD.U32 ⟨true, 5, 70000, false, true, true, true, 13⟩ := by constructor <;> decide

theorem u32At_some {m : Bytes} {o : Nat} (h : o + 4 ≤ m.length) : ∃ v, SD.u32At m o = some v := by
  exact ⟨_, by rw [SD.u32At, load_eq h]; rfl⟩

/-- C27: reading a definition from an arbitrary buffer never touches a byte outside of it. -/
theorem C27_no_over_read (d0 : SizeDef) (data : Bytes) :
    ∃ r, SD.deserialize d0 data data.length = some r := by
  unfold SD.deserialize
  split
  · exact ⟨_, rfl⟩
  · rename_i h0
    have hz : data[0]? = some data[0] := List.getElem?_eq_getElem (by omega)
    simp only [hz, Option.bind_eq_bind, Option.bind_some]
    split
    · split
      · exact ⟨_, rfl⟩
      · obtain ⟨v, hv⟩ := u32At_some (m := data) (o := 1) (by omega)
        exact ⟨_, by rw [hv]; rfl⟩
    · split
      · exact ⟨_, rfl⟩
      · obtain ⟨v, hv⟩ := u32At_some (m := data) (o := 1) (by omega)
        obtain ⟨w, hw⟩ := u32At_some (m := data) (o := 5) (by omega)
        rw [hv, hw]
        simp only [Option.bind_some]
        split
        · exact ⟨_, rfl⟩
        · split
          · exact ⟨_, rfl⟩
          · obtain ⟨x, hx⟩ := u32At_some (m := data) (o := 9) (by omega)
            exact ⟨_, by rw [hx]; rfl⟩

/-- C27: a truncated definition is refused. -/
theorem C27_prefix_rejected (d d0 : SizeDef) {n : Nat} (hn : n < (SD.serialize d).length) :
    SD.deserialize d0 ((SD.serialize d).take n) n = some none := by
  unfold SD.deserialize
  by_cases h0 : n = 0
  · simp [h0]
  rw [if_neg h0]
  unfold SD.serialize at *
  split at hn
  · rename_i hv
    simp only [List.length_cons, leEnc_length] at hn
    obtain ⟨m, rfl⟩ : ∃ m, n = m + 1 := ⟨n - 1, by omega⟩
    rw [if_pos hv]
    simp [SD.tst]
    omega
  · rename_i hv
    rw [if_neg hv]
    obtain ⟨m, rfl⟩ : ∃ m, n = m + 1 := ⟨n - 1, by omega⟩
    split at hn
    · rename_i hs
      rw [if_pos hs]
      generalize hf : UInt8.ofNat (SD.bit true 0 + SD.bit true 1 + SD.bit d.hasCount 2) = f
      have t0 : SD.tst f 0 = true := by rw [← hf]; cases d.hasCount <;> decide
      simp at hn
      simp only [List.take_succ_cons, List.getElem?_cons_zero, Option.bind_eq_bind,
        Option.bind_some, t0]
      simp
      omega
    · rename_i hs
      rw [if_neg hs]
      generalize hf : UInt8.ofNat (SD.bit true 0 + SD.bit false 1 + SD.bit d.hasCount 2 +
        SD.bit d.contValid 3 + SD.bit d.contIsBit 4) = f
      have t0 : SD.tst f 0 = true := by
        rw [← hf]; cases d.hasCount <;> cases d.contValid <;> cases d.contIsBit <;> decide
      have t1 : SD.tst f 1 = false := by
        rw [← hf]; cases d.hasCount <;> cases d.contValid <;> cases d.contIsBit <;> decide
      simp at hn
      simp only [List.take_succ_cons, List.getElem?_cons_zero, Option.bind_eq_bind,
        Option.bind_some, t0, t1, Bool.true_eq_false, if_false]
      by_cases h8 : 1 + 8 > m + 1
      · rw [if_pos h8]; rfl
      · rw [if_neg h8]
        have hlen : (f :: List.take m (leEnc 4 d.size ++ leEnc 4 d.maxSize ++ leEnc 4 d.contSize)).length
            = m + 1 := by simp; omega
        obtain ⟨v, hv⟩ := u32At_some (o := 1) (show 1 + 4 ≤ (f :: List.take m (leEnc 4 d.size ++
          leEnc 4 d.maxSize ++ leEnc 4 d.contSize)).length by omega)
        obtain ⟨w, hw⟩ := u32At_some (o := 5) (show 5 + 4 ≤ (f :: List.take m (leEnc 4 d.size ++
          leEnc 4 d.maxSize ++ leEnc 4 d.contSize)).length by omega)
        simp only [hv, hw, Option.bind_some, Bool.false_eq_true, if_false]
        rw [if_pos (by omega)]
        rfl

example : (SD.serialize ⟨true, 5, 70000, false, true, true, true, 13⟩).length = 13 := by decide

/-! ### Reading the size of a tuple from a stream -/

theorem loadVal_take {t u : Bytes} {ps : Nat} (ht : vsz ps ≤ t.length) (hu : vsz ps ≤ u.length)
    (hp : u.take (vsz ps) = t.take (vsz ps)) : loadVal u ps 0 = loadVal t ps 0 := by
  unfold loadVal
  rw [load_eq (by omega), load_eq (by omega)]
  simp [rd, hp]

/-- C51: if the stream delivers the first bytes of a tuple, the stream version computes the size
that the version working on the whole tuple computes; it never writes outside of its 4 byte
buffer. -/
theorem C51_stream_size {d : SizeDef} {t : Bytes} {readPrefix : Nat → Bytes}
    (hr : ∀ n, readPrefix n = t.take n) (ht : (tupleSize d t).isSome) :
    SD.tupleSize2 d readPrefix = tupleSize d t := by
  unfold SD.tupleSize2
  split
  · rename_i hv; simp [tupleSize, hv]
  · rename_i hv
    have hlen : vsz d.maxSize ≤ t.length := by
      apply Classical.byContradiction
      intro hc
      have : loadVal t d.maxSize 0 = none := by simp [loadVal, load]; omega
      unfold tupleSize at ht
      rw [if_neg hv, this] at ht
      split at ht <;> cases ht
    have h4 := vsz_le d.maxSize
    simp only [hr, List.length_take]
    rw [if_neg (by omega), store_eq (by simp; omega)]
    simp only [Option.bind_eq_bind, Option.bind_some]
    have := loadVal_take (t := t) (u := wr (List.replicate 4 0) 0 (t.take (vsz d.maxSize)))
      (ps := d.maxSize) hlen (by simp; omega) (by
        rw [wr_eq _ _ _ (by simp; omega)]
        simp only [List.take_zero, List.nil_append]
        rw [List.take_append_of_le_length (by simp; omega), List.take_take, Nat.min_self])
    unfold tupleSize
    rw [if_neg hv, if_neg hv, this]

/-- C51: a stream that ends before the size can be known gives 0. -/
theorem C51_stream_short {d : SizeDef} (hv : d.isVar = true) {readPrefix : Nat → Bytes}
    (hr : (readPrefix (vsz d.maxSize)).length < vsz d.maxSize) :
    SD.tupleSize2 d readPrefix = some 0 := by
  simp [SD.tupleSize2, hv, hr]

example : SD.tupleSize2 ⟨true, 2, 70000, true, false, false, false, 0⟩ (fun n => [5, 1, 0, 9].take n)
    = some 261 := by decide

/-! ### Minimal tuples -/

/-- C52: for a definition whose minimum tuple can hold its own prefix, the minimal tuple is well
formed, has the minimum size and all its bytes after the prefix are 0; nothing after it in
memory changes. -/
theorem C52_minimal_tuple {d : SizeDef} (hsz : d.size < 2147483648) {m : Bytes}
    (hm : d.size ≤ m.length)
    (hvar : d.isVar = true → vsz d.maxSize ≤ d.size ∧ d.size ≤ d.maxSize ∧
      d.maxSize < 4294967296 ∧ 0 < d.size ∧ (d.hasSize = false → d.size = vsz d.maxSize)) :
    ∃ m', SD.initMinimal d m = some (m', d.size) ∧ m'.length = m.length ∧
      WellFormed d (m'.take d.size) ∧
      (∀ i, d.size ≤ i → m'[i]? = m[i]?) ∧
      (∀ i, i < d.size → (d.isVar = true → vsz d.maxSize ≤ i) → m'[i]? = some 0) := by
  have hz : zeroIn m 0 d.size = some (wr m 0 (List.replicate d.size 0)) := by
    unfold zeroIn; rw [store_eq (by simp; omega)]
  unfold SD.initMinimal
  cases hv : d.isVar with
  | false =>
    simp only [if_true, hz, Option.bind_eq_bind, Option.bind_some, Option.pure_def]
    refine ⟨_, rfl, by simp, ⟨?_, ?_, ?_⟩, ?_, ?_⟩
    · simp [tupleSize, hv]; omega
    · simp [minTupleSize]; omega
    · simp; omega
    · intro i hi; rw [wr_getElem?, if_neg (by simp; omega)]
    · intro i hi _
      rw [wr_getElem?, if_pos (by simp; omega)]
      simp [hi]
  | true =>
    obtain ⟨v1, v2, v3, v4, v5⟩ := hvar hv
    have hpow := le_pow_vsz v3
    simp only [Bool.true_eq_false, if_false, hz, Option.bind_eq_bind, Option.bind_some,
      Option.pure_def]
    cases hs : d.hasSize with
    | true =>
      have hst : storeVal (wr m 0 (List.replicate d.size 0)) d.maxSize 0 d.size =
          some (wr (wr m 0 (List.replicate d.size 0)) 0 (leEnc (vsz d.maxSize) d.size)) := by
        unfold storeVal; rw [store_eq (by simp; omega)]
      simp only [if_true, hst, Option.bind_some]
      refine ⟨_, rfl, by simp, ⟨?_, ?_, ?_⟩, ?_, ?_⟩
      · have hl : loadVal (List.take d.size (wr (wr m 0 (List.replicate d.size 0)) 0
            (leEnc (vsz d.maxSize) d.size))) d.maxSize 0 = some (d.size % 256 ^ vsz d.maxSize) := by
          unfold loadVal
          rw [load_eq (by simp; omega)]
          have h1 := rd_wr_same (wr m 0 (List.replicate d.size 0)) 0
            (leEnc (vsz d.maxSize) d.size) (by simp; omega)
          rw [leEnc_length] at h1
          have h2 : rd (List.take d.size (wr (wr m 0 (List.replicate d.size 0)) 0
            (leEnc (vsz d.maxSize) d.size))) 0 (vsz d.maxSize) = leEnc (vsz d.maxSize) d.size := by
            simp only [rd, List.drop_zero, List.take_take, Nat.min_eq_left v1] at h1 ⊢
            exact h1
          rw [h2, Option.map_some, leDec_leEnc]
        unfold tupleSize
        rw [if_neg (by simp [hv]), if_pos hs, hl]
        simp only [Option.bind_eq_bind, Option.bind_some, Option.pure_def, Option.some.injEq,
          List.length_take, wr_length]
        rw [Nat.min_eq_left hm]
        split <;> rename_i h0
        · rcases Nat.lt_or_ge d.size (256 ^ vsz d.maxSize) with hlt | hge
          · rw [Nat.mod_eq_of_lt hlt] at h0; omega
          · omega
        · rcases Nat.lt_or_ge d.size (256 ^ vsz d.maxSize) with hlt | hge
          · exact Nat.mod_eq_of_lt hlt
          · have : d.size = 256 ^ vsz d.maxSize := by omega
            rw [this, Nat.mod_self] at h0; omega
      · simp [minTupleSize]; omega
      · simp; omega
      · intro i hi
        rw [wr_getElem?, if_neg (by simp; omega), wr_getElem?, if_neg (by simp; omega)]
      · intro i hi hi2
        have := hi2 trivial
        rw [wr_getElem?, if_neg (by simp; omega), wr_getElem?, if_pos (by simp; omega)]
        simp [hi]
    | false =>
      have h5 := v5 hs
      simp only [Bool.false_eq_true, if_false]
      refine ⟨_, rfl, by simp, ⟨?_, ?_, ?_⟩, ?_, ?_⟩
      · have hl : loadVal (List.take d.size (wr m 0 (List.replicate d.size 0))) d.maxSize 0 =
            some 0 := by
          unfold loadVal
          rw [load_eq (by simp; omega)]
          have h1 := rd_wr_same m 0 (List.replicate d.size 0) (by simp; omega)
          have h2 : rd (List.take d.size (wr m 0 (List.replicate d.size 0))) 0 (vsz d.maxSize) =
              List.replicate d.size 0 := by
            simp only [rd, List.drop_zero, List.take_take, List.length_replicate, ← h5,
              Nat.min_self] at h1 ⊢
            exact h1
          rw [h2, Option.map_some, leDec_replicate_zero]
        unfold tupleSize
        rw [if_neg (by simp [hv]), if_neg (by simp [hs]), hl]
        have h4 := vsz_le d.maxSize
        simp only [Option.bind_eq_bind, Option.bind_some, List.length_take, wr_length]
        rw [Nat.min_eq_left hm]
        split
        · rw [u32_eq (by simp [bitmapBytes]; omega)]; simp [bitmapBytes]; omega
        · rw [u32_eq (by simp [bitmapBytes]; omega)]; simp [bitmapBytes]; omega
      · simp [minTupleSize]; omega
      · simp; omega
      · intro i hi
        rw [wr_getElem?, if_neg (by simp; omega)]
      · intro i hi hi2
        have := hi2 trivial
        omega

example : (SD.initMinimal ⟨true, 6, 256, true, false, false, false, 0⟩ (List.replicate 8 7)) =
    some ([6, 0, 0, 0, 0, 0, 7, 7], 6) := by decide

end Props
end TS
