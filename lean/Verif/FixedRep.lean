import Verif.FixedModel
import Verif.SlottedTail
/-
Representation relation between the bytes of a fixed array page and the logical page.
-/
namespace TS

/-! ### Bits of a byte string -/

/-- Bit `i` of the bitmap at `o`. -/
def bit (pg : Bytes) (o i : Nat) : Bool := ((pg[o + i / 8]?).getD 0).toNat.testBit (i % 8)

/-- The byte string with bit `i` of the bitmap at `o` replaced by `v`. -/
def withBit (pg : Bytes) (o i : Nat) (v : Bool) : Bytes :=
  wr pg (o + i / 8) [if v then byteSet ((pg[o + i / 8]?).getD 0) (i % 8)
    else byteReset ((pg[o + i / 8]?).getD 0) (i % 8)]

theorem byteSet_testBit (b : UInt8) {k j : Nat} (hk : k < 8) :
    (byteSet b k).toNat.testBit j = if j = k then true else b.toNat.testBit j := by
  have hb := b.toNat_lt
  have hlt : b.toNat ||| 2 ^ k < 2 ^ 8 :=
    Nat.or_lt_two_pow hb (Nat.pow_lt_pow_right (by omega) hk)
  unfold byteSet
  rw [UInt8.toNat_ofNat', Nat.mod_eq_of_lt hlt, Nat.testBit_or, Nat.testBit_two_pow]
  by_cases h : j = k
  · simp [h]
  · simp [h, Ne.symm h]

theorem byteReset_testBit (b : UInt8) {k j : Nat} (hj : j < 8) :
    (byteReset b k).toNat.testBit j = if j = k then false else b.toNat.testBit j := by
  have hb := b.toNat_lt
  have hlt : b.toNat &&& (255 ^^^ 2 ^ k) < 2 ^ 8 :=
    Nat.lt_of_le_of_lt Nat.and_le_left hb
  unfold byteReset
  rw [UInt8.toNat_ofNat', Nat.mod_eq_of_lt hlt, Nat.testBit_and, Nat.testBit_xor,
    Nat.testBit_two_pow, show (255 : Nat) = 2 ^ 8 - 1 from rfl, Nat.testBit_two_pow_sub_one]
  by_cases h : j = k
  · subst h; simp [hj]
  · simp [h, Ne.symm h, hj]

theorem getBit_eq {pg : Bytes} {o i : Nat} (h : o + i / 8 < pg.length) :
    getBit pg o i = some (bit pg o i) := by
  simp [getBit, bit, List.getElem?_eq_getElem h]

theorem putBit_eq {pg : Bytes} {o i : Nat} (h : o + i / 8 < pg.length) (v : Bool) :
    putBit pg o i v = some (withBit pg o i v) := by
  unfold putBit withBit
  cases v
  · simp only [Bool.false_eq_true, if_false, resetBit, List.getElem?_eq_getElem h,
      Option.bind_eq_bind, Option.bind_some]
    rw [store_eq (by simp; omega)]; simp
  · simp only [if_true, setBit, List.getElem?_eq_getElem h,
      Option.bind_eq_bind, Option.bind_some]
    rw [store_eq (by simp; omega)]; simp

theorem setBit_eq {pg : Bytes} {o i : Nat} (h : o + i / 8 < pg.length) :
    setBit pg o i = some (withBit pg o i true) := by
  rw [← putBit_eq h]; rfl

theorem resetBit_eq {pg : Bytes} {o i : Nat} (h : o + i / 8 < pg.length) :
    resetBit pg o i = some (withBit pg o i false) := by
  rw [← putBit_eq h]; rfl

@[simp] theorem withBit_length (pg : Bytes) (o i : Nat) (v : Bool) :
    (withBit pg o i v).length = pg.length := by simp [withBit]

theorem bit_withBit {pg : Bytes} {o i : Nat} (h : o + i / 8 < pg.length) (v : Bool) (j : Nat) :
    bit (withBit pg o i v) o j = if j = i then v else bit pg o j := by
  unfold bit withBit
  rw [wr_getElem?]
  by_cases hb : j / 8 = i / 8
  · rw [if_pos (by simp; omega), hb, Nat.sub_self]
    simp only [List.getElem?_cons_zero, Option.getD_some]
    cases v
    · simp only [Bool.false_eq_true, if_false]
      rw [byteReset_testBit _ (by omega)]
      by_cases hji : j = i
      · simp [hji]
      · rw [if_neg (by omega), if_neg hji]
    · simp only [if_true]
      rw [byteSet_testBit _ (by omega)]
      by_cases hji : j = i
      · simp [hji]
      · rw [if_neg (by omega), if_neg hji]
  · rw [if_neg (by simp; omega), if_neg (by intro h; subst h; exact hb rfl)]

theorem rd_withBit (pg : Bytes) {o i : Nat} (v : Bool) {a l : Nat}
    (hd : a + l ≤ o + i / 8 ∨ o + i / 8 + 1 ≤ a) : rd (withBit pg o i v) a l = rd pg a l :=
  rd_wr_disj _ _ _ _ _ (by simpa using hd)

theorem bit_wr (pg : Bytes) {o j a : Nat} {s : Bytes}
    (hd : o + j / 8 < a ∨ a + s.length ≤ o + j / 8) : bit (wr pg a s) o j = bit pg o j := by
  unfold bit
  rw [wr_getElem?, if_neg (by omega)]

namespace Fixed

/-! ### Geometry -/

/-- Number of slots of the page. -/
def cap (ps h : Nat) (d : SizeDef) : Nat := (ps - wAddr ps h 2) * 8 / (d.size * 8 + 1)

/-- Byte offset of slot `i`. -/
def tAddr (ps h : Nat) (d : SizeDef) (i : Nat) : Nat :=
  wAddr ps h 2 + bitmapBytes (cap ps h d) + i * d.size

/-- Bytes of slot `i`. -/
def slot (ps h : Nat) (d : SizeDef) (pg : Bytes) (i : Nat) : Bytes :=
  rd pg (tAddr ps h d i) d.size

variable {ps h : Nat} {d : SizeDef} {pg : Bytes} {s : Slots}

theorem tAddr_succ (i : Nat) : tAddr ps h d (i + 1) = tAddr ps h d i + d.size := by
  simp [tAddr, Nat.succ_mul]; omega

theorem tAddr_add (i j : Nat) : tAddr ps h d (i + j) = tAddr ps h d i + j * d.size := by
  simp [tAddr, Nat.add_mul]; omega

theorem tAddr_mono {i j : Nat} (hij : i ≤ j) : tAddr ps h d i ≤ tAddr ps h d j := by
  obtain ⟨k, rfl⟩ := Nat.exists_eq_add_of_le hij
  rw [tAddr_add]; omega

/-- The bitmap and all the slots fit in the page. -/
theorem tAddr_cap (hfit : wAddr ps h 2 ≤ ps) : tAddr ps h d (cap ps h d) ≤ ps := by
  unfold tAddr bitmapBytes
  have h1 : cap ps h d * (d.size * 8 + 1) ≤ (ps - wAddr ps h 2) * 8 := Nat.div_mul_le_self _ _
  have h2 : cap ps h d * (d.size * 8 + 1) = 8 * (cap ps h d * d.size) + cap ps h d := by
    rw [Nat.mul_add, Nat.mul_one, Nat.mul_comm d.size 8, Nat.mul_left_comm]
  omega

theorem bits_le_tAddr (i : Nat) : wAddr ps h 2 ≤ tAddr ps h d i := by
  unfold tAddr; omega

theorem bit_in {i : Nat} (hi : i < cap ps h d) :
    wAddr ps h 2 + i / 8 < tAddr ps h d 0 := by
  unfold tAddr bitmapBytes; omega

theorem cap_lt (hlt : ps < 4294967296) (hfit : wAddr ps h 2 ≤ ps) (hpos : 1 ≤ d.size) :
    cap ps h d < ps := by
  have h1 := tAddr_cap (d := d) hfit
  have h2 : cap ps h d * 1 ≤ cap ps h d * d.size := Nat.mul_le_mul_left _ hpos
  have h3 := lt_wAddr ps h 2
  unfold tAddr at h1
  omega

/-! ### Offsets computed from the page -/

theorem offCount_eq (b : Base ps h 2 pg) : offCount pg ps = some (wAddr ps h 0) := offEndHdr_eq b

theorem offTomb_eq (b : Base ps h 2 pg) : offTomb pg ps = some (wAddr ps h 1) := by
  simp [offTomb, offCount_eq b, Slotted.u32_wAddr b (show 0 < 2 by omega)]

theorem offBits_eq (b : Base ps h 2 pg) : offBits pg ps = some (wAddr ps h 2) := by
  simp [offBits, offTomb_eq b, Slotted.u32_wAddr b (show 1 < 2 by omega)]

theorem capacity_eq (b : Base ps h 2 pg) (hpos : 1 ≤ d.size) :
    capacity pg ps d = some (cap ps h d) := by
  have h1 := cap_lt b.lt b.fits hpos
  have h2 := b.lt
  simp only [capacity, offBits_eq b, Option.bind_eq_bind, Option.bind_some, sub32_eq b.fits]
  exact u32_eq (show cap ps h d < 4294967296 by omega)

theorem offTuples_eq (b : Base ps h 2 pg) (hpos : 1 ≤ d.size) :
    offTuples pg ps d = some (tAddr ps h d 0) := by
  have h1 := tAddr_cap (d := d) b.fits
  have h2 := b.lt
  have h3 := tAddr_mono (ps := ps) (h := h) (d := d) (Nat.zero_le (cap ps h d))
  simp only [offTuples, offBits_eq b, capacity_eq b hpos, Option.bind_eq_bind, Option.bind_some]
  rw [u32_eq]
  · simp [tAddr]
  · simp [tAddr] at h3 h1; omega

theorem offIth_eq (b : Base ps h 2 pg) (hpos : 1 ≤ d.size) {i : Nat} (hi : i ≤ cap ps h d) :
    offIth pg ps d i = some (tAddr ps h d i) := by
  have h1 := tAddr_cap (d := d) b.fits
  have h2 := b.lt
  have h3 := tAddr_mono (ps := ps) (h := h) (d := d) hi
  have h4 : tAddr ps h d (0 + i) = tAddr ps h d 0 + i * d.size := tAddr_add 0 i
  rw [Nat.zero_add] at h4
  simp only [offIth, offTuples_eq b hpos, Option.bind_eq_bind, Option.bind_some]
  rw [u32_eq (by omega), h4]

/-! ### Effect of the three kinds of writes -/

theorem bit_setWord (pg : Bytes) {k : Nat} (hk : k < 2) (v j : Nat) :
    bit (setWord ps h pg k v) (wAddr ps h 2) j = bit pg (wAddr ps h 2) j := by
  unfold setWord
  apply bit_wr
  right
  have := wAddr_mono ps h (show k + 1 ≤ 2 from hk)
  rw [wAddr_succ] at this
  simp; omega

theorem slot_setWord (pg : Bytes) {k : Nat} (hk : k < 2) (v j : Nat) :
    slot ps h d (setWord ps h pg k v) j = slot ps h d pg j :=
  rd_setWord_ge 2 pg hk v (bits_le_tAddr j)

theorem Base.withBit (b : Base ps h 2 pg) (i : Nat) (v : Bool) :
    Base ps h 2 (withBit pg (wAddr ps h 2) i v) :=
  b.wr (by have := wAddr_mono ps h (show 0 ≤ 2 by omega); omega)

theorem word_withBit (pg : Bytes) {k : Nat} (hk : k < 2) (i : Nat) (v : Bool) :
    word ps h (withBit pg (wAddr ps h 2) i v) k = word ps h pg k :=
  word_wr_ge 2 pg hk (by omega)

theorem slot_withBit (pg : Bytes) {i : Nat} (hi : i < cap ps h d) (v : Bool) (j : Nat) :
    slot ps h d (withBit pg (wAddr ps h 2) i v) j = slot ps h d pg j := by
  apply rd_withBit
  right
  have h1 := bit_in hi
  have h2 := tAddr_mono (ps := ps) (h := h) (d := d) (Nat.zero_le j)
  omega

theorem hdr_withBit (pg : Bytes) (i : Nat) (v : Bool) :
    hdrBytes ps h (withBit pg (wAddr ps h 2) i v) = hdrBytes ps h pg :=
  hdrBytes_wr pg (by have := wAddr_mono ps h (show 0 ≤ 2 by omega); omega)

theorem Base.bit_lt (b : Base ps h 2 pg) {i : Nat} (hi : i < cap ps h d) :
    wAddr ps h 2 + i / 8 < pg.length := by
  have h1 := bit_in hi
  have h2 := tAddr_mono (ps := ps) (h := h) (d := d) (Nat.zero_le (cap ps h d))
  have h3 := tAddr_cap (d := d) b.fits
  have h4 := b.len
  omega

theorem Base.slot_le (b : Base ps h 2 pg) {i : Nat} (hi : i < cap ps h d) :
    tAddr ps h d i + d.size ≤ pg.length := by
  have h2 := tAddr_mono (ps := ps) (h := h) (d := d) (show i + 1 ≤ cap ps h d from hi)
  have h3 := tAddr_cap (d := d) b.fits
  have h4 := b.len
  rw [tAddr_succ] at h2
  omega

theorem Base.wrSlot (b : Base ps h 2 pg) (i : Nat) (t : Bytes) :
    Base ps h 2 (wr pg (tAddr ps h d i) t) :=
  b.wr (by
    have := wAddr_mono ps h (show 0 ≤ 2 by omega)
    have := bits_le_tAddr (ps := ps) (h := h) (d := d) i; omega)

theorem word_wrSlot (pg : Bytes) {k : Nat} (hk : k < 2) (i : Nat) (t : Bytes) :
    word ps h (wr pg (tAddr ps h d i) t) k = word ps h pg k :=
  word_wr_ge 2 pg hk (bits_le_tAddr i)

theorem hdr_wrSlot (pg : Bytes) (i : Nat) (t : Bytes) :
    hdrBytes ps h (wr pg (tAddr ps h d i) t) = hdrBytes ps h pg :=
  hdrBytes_wr pg (by
    have := wAddr_mono ps h (show 0 ≤ 2 by omega)
    have := bits_le_tAddr (ps := ps) (h := h) (d := d) i; omega)

theorem bit_wrSlot (pg : Bytes) (i : Nat) (t : Bytes) {j : Nat} (hj : j < cap ps h d) :
    bit (wr pg (tAddr ps h d i) t) (wAddr ps h 2) j = bit pg (wAddr ps h 2) j := by
  apply bit_wr
  left
  have h1 := bit_in hj
  have h2 := tAddr_mono (ps := ps) (h := h) (d := d) (Nat.zero_le i)
  omega

theorem slot_wrSlot (b : Base ps h 2 pg) {i : Nat} (hi : i < cap ps h d) {t : Bytes}
    (ht : t.length = d.size) (j : Nat) :
    slot ps h d (wr pg (tAddr ps h d i) t) j = if j = i then t else slot ps h d pg j := by
  unfold slot
  by_cases hj : j = i
  · subst hj
    rw [if_pos rfl, ← ht, rd_wr_same]
    have := Base.slot_le b hi
    omega
  · rw [if_neg hj, rd_wr_disj]
    rw [ht]
    rcases Nat.lt_or_gt_of_ne hj with h1 | h1
    · left
      have := tAddr_mono (ps := ps) (h := h) (d := d) (show j + 1 ≤ i from h1)
      rwa [tAddr_succ] at this
    · right
      have := tAddr_mono (ps := ps) (h := h) (d := d) (show i + 1 ≤ j from h1)
      rwa [tAddr_succ] at this

/-! ### Representation -/

/-- The bytes `pg` represent the logical page `s` (page size `ps`, header of `h` bytes). -/
structure Rep (ps h : Nat) (d : SizeDef) (pg : Bytes) (s : Slots) : Prop where
  fixed : d.isVar = false
  pos : 1 ≤ d.size
  base : Base ps h 2 pg
  cnt : word ps h pg 0 = s.length
  tomb : word ps h pg 1 = tombs s
  le : s.length ≤ cap ps h d
  bits : ∀ i x, s[i]? = some x → bit pg (wAddr ps h 2) i = x.isSome
  data : ∀ i t, s[i]? = some (some t) → t.length = d.size ∧ slot ps h d pg i = t

theorem Rep.tupleCount (r : Rep ps h d pg s) : Fixed.tupleCount pg ps = some s.length := by
  simp [Fixed.tupleCount, offCount_eq r.base, loadVal_word r.base (show 0 < 2 by omega), r.cnt]

theorem Rep.tombCount (r : Rep ps h d pg s) : Fixed.tombCount pg ps = some (tombs s) := by
  simp [Fixed.tombCount, offTomb_eq r.base, loadVal_word r.base (show 1 < 2 by omega), r.tomb]

theorem Rep.length_lt (r : Rep ps h d pg s) : s.length < ps :=
  Nat.lt_of_le_of_lt r.le (cap_lt r.base.lt r.base.fits r.pos)

theorem Rep.startFree (r : Rep ps h d pg s) :
    Fixed.startFree pg ps d = some (tAddr ps h d s.length) := by
  simp only [Fixed.startFree, r.tupleCount, Option.bind_eq_bind, Option.bind_some,
    offIth_eq r.base r.pos r.le]

theorem Rep.tAddr_le (r : Rep ps h d pg s) : tAddr ps h d s.length ≤ ps :=
  Nat.le_trans (tAddr_mono r.le) (tAddr_cap r.base.fits)

theorem Rep.freeSpace (r : Rep ps h d pg s) :
    Fixed.freeSpace pg ps d = some (ps - tAddr ps h d s.length) := by
  simp only [Fixed.freeSpace, r.startFree, Option.bind_eq_bind, Option.bind_some,
    sub32_eq r.tAddr_le]

theorem Rep.mul_le (r : Rep ps h d pg s) {n : Nat} (hn : n ≤ s.length) : n * d.size ≤ ps := by
  have h1 := r.tAddr_le
  have h2 : n * d.size ≤ s.length * d.size := Nat.mul_le_mul_right _ hn
  unfold tAddr at h1
  omega

theorem Rep.spaceOcc (r : Rep ps h d pg s) :
    Fixed.spaceOcc pg ps d = some (s.length * d.size) := by
  have := r.mul_le (Nat.le_refl _)
  have := r.base.lt
  simp only [Fixed.spaceOcc, r.tupleCount, Option.bind_eq_bind, Option.bind_some,
    u32_eq (show s.length * d.size < 4294967296 by omega)]

theorem Rep.spaceTomb (r : Rep ps h d pg s) :
    Fixed.spaceTomb pg ps d = some (tombs s * d.size) := by
  have := r.mul_le (Slotted.tombs_le s)
  have := r.base.lt
  simp only [Fixed.spaceTomb, r.tombCount, Option.bind_eq_bind, Option.bind_some,
    u32_eq (show tombs s * d.size < 4294967296 by omega)]

theorem Rep.spaceOccBy (r : Rep ps h d pg s) {a b : Nat} (hab : a ≤ b) (hb : b < s.length) :
    Fixed.spaceOccBy d a b = some ((b - a + 1) * d.size) := by
  have := r.mul_le (show b - a + 1 ≤ s.length by omega)
  have := r.base.lt
  simp only [Fixed.spaceOccBy, sub32_eq hab, Option.bind_eq_bind, Option.bind_some,
    u32_eq (show (b - a + 1) * d.size < 4294967296 by omega)]

theorem Rep.spaceAllotted (r : Rep ps h d pg s) :
    Fixed.spaceAllotted pg ps d = some (ps - tAddr ps h d 0) := by
  have h1 := tAddr_mono (ps := ps) (h := h) (d := d) (Nat.zero_le s.length)
  have h2 := r.tAddr_le
  simp only [Fixed.spaceAllotted, offTuples_eq r.base r.pos, Option.bind_eq_bind,
    Option.bind_some, sub32_eq (show tAddr ps h d 0 ≤ ps by omega)]

theorem Rep.getBit (r : Rep ps h d pg s) {i : Nat} {x : Option Bytes} (hi : s[i]? = some x) :
    getBit pg (wAddr ps h 2) i = some x.isSome := by
  have hl := (List.getElem?_eq_some_iff.mp hi).1
  have := r.le
  rw [getBit_eq (Base.bit_lt (d := d) r.base (by omega)), r.bits i x hi]

theorem Rep.existsTuple (r : Rep ps h d pg s) (i : Nat) :
    Fixed.existsTuple pg ps i = some (lookup s i).isSome := by
  simp only [Fixed.existsTuple, r.tupleCount, Option.bind_eq_bind, Option.bind_some, lookup]
  by_cases hi : i < s.length
  · rw [if_neg (by omega), offBits_eq r.base]
    have hs : s[i]? = some s[i] := List.getElem?_eq_getElem hi
    simp [r.getBit hs, hs]
  · rw [if_pos (by omega)]
    simp [List.getElem?_eq_none (show s.length ≤ i by omega)]

theorem Rep.wellFormed (r : Rep ps h d pg s) {i : Nat} {t : Bytes} (hi : s[i]? = some (some t)) :
    tupleSize d t = some t.length := by
  simp [tupleSize, r.fixed, (r.data i t hi).1]

theorem Rep.getNth (r : Rep ps h d pg s) (i : Nat) :
    (∃ o t, Fixed.getNth pg ps d i = some (some o) ∧ s[i]? = some (some t) ∧
      o + t.length ≤ pg.length ∧ rd pg o t.length = t ∧
      tupleSize d (pg.drop o) = some t.length) ∨
    (Fixed.getNth pg ps d i = some none ∧ ∀ t, s[i]? ≠ some (some t)) := by
  simp only [Fixed.getNth, r.tupleCount, Option.bind_eq_bind, Option.bind_some]
  by_cases hi : i < s.length
  · have hs : s[i]? = some s[i] := List.getElem?_eq_getElem hi
    have hle := r.le
    rw [if_neg (by omega), offBits_eq r.base]
    simp only [Option.bind_some, r.getBit hs]
    cases hx : s[i] with
    | none =>
      right
      simp [hs, hx]
    | some t =>
      left
      rw [hx] at hs
      have hd := r.data i t hs
      refine ⟨tAddr ps h d i, t, ?_, hs, ?_, ?_, ?_⟩
      · simp [offIth_eq r.base r.pos (show i ≤ cap ps h d by omega)]
      · rw [hd.1]; exact Base.slot_le r.base (by omega)
      · rw [hd.1]; exact hd.2
      · simp [tupleSize, r.fixed, hd.1]
  · right
    rw [if_pos (by omega)]
    simp [List.getElem?_eq_none (show s.length ≤ i by omega)]

/-! ### Initialisation -/

theorem initPageHeader_spec {pg0 : Bytes} {K : Nat} (hlen : pg0.length = ps)
    (hlt : ps < 4294967296) (hfit : wAddr ps h K ≤ ps) :
    ∃ p1, initPageHeader pg0 ps h = some (p1, true) ∧ Base ps h K p1 ∧
      hdrBytes ps h p1 = List.replicate h 0 := by
  have hge := wAddr_ge ps h K
  have hu : u32 (vsz ps + h) = some (vsz ps + h) := u32_eq (by omega)
  have hs1 : storeVal pg0 ps 0 h = some (wr pg0 0 (leEnc (vsz ps) h)) := by
    simp [storeVal, store_eq (s := leEnc (vsz ps) h) (o := 0) (m := pg0) (by simp; omega)]
  have hl1 : (wr pg0 0 (leEnc (vsz ps) h)).length = ps := by
    rw [wr_length]; exact hlen
  have hs2 : zeroIn (wr pg0 0 (leEnc (vsz ps) h)) (vsz ps) h =
      some (wr (wr pg0 0 (leEnc (vsz ps) h)) (vsz ps) (List.replicate h 0)) := by
    unfold zeroIn; rw [store_eq]; simp; omega
  have hN := vsz_pos ps
  refine ⟨wr (wr pg0 0 (leEnc (vsz ps) h)) (vsz ps) (List.replicate h 0), ?_, ⟨?_, ?_, hlt, hfit⟩, ?_⟩
  · simp [initPageHeader, hu, hs1, hs2, show ¬ ps < vsz ps + h by omega]
  · rw [wr_length]; exact hl1
  · rw [rd_wr_disj _ _ _ _ _ (.inl (by omega))]
    have := rd_wr_same pg0 0 (leEnc (vsz ps) h) (by simp; omega)
    rw [leEnc_length] at this
    rw [this, leDec_leEnc, Nat.mod_eq_of_lt]
    have := le_pow_vsz hlt
    omega
  · have := rd_wr_same (wr pg0 0 (leEnc (vsz ps) h)) (vsz ps) (List.replicate h 0)
      (by simp; omega)
    rw [List.length_replicate] at this
    exact this

theorem init_rep {pg0 : Bytes} (hv : d.isVar = false) (hpos : 1 ≤ d.size) (hlen : pg0.length = ps)
    (hlt : ps < 4294967296) (hfit : wAddr ps h 2 ≤ ps) {m : Nat}
    (hmin : minPageSize h d 1 = some m) :
    ∃ pg ok, init pg0 ps h d = some (pg, ok) ∧
      (ok = true ↔ m ≤ ps) ∧ (ok = false → pg = pg0) ∧
      (ok = true → Rep ps h d pg [] ∧ hdrBytes ps h pg = List.replicate h 0) := by
  simp only [init, hmin, Option.bind_eq_bind, Option.bind_some]
  by_cases hm : ps < m
  · rw [if_pos hm]
    exact ⟨pg0, false, rfl, by simp; omega, by simp, by simp⟩
  rw [if_neg hm]
  obtain ⟨p1, hI, b1, hb1⟩ := initPageHeader_spec (K := 2) hlen hlt hfit
  have hpow : 0 < 256 ^ vsz ps := Nat.pow_pos (by omega)
  have b2 := b1.setWord 0 0
  have b3 := b2.setWord 1 0
  have h0 := wAddr_mono ps h (show 0 ≤ 2 by omega)
  have b4 := b3.wr (o := wAddr ps h 2) (s := List.replicate (bitmapBytes (cap ps h d)) 0) h0
  have hz : ∀ p, p.length = ps → zeroIn p (wAddr ps h 2) (bitmapBytes (cap ps h d)) =
      some (wr p (wAddr ps h 2) (List.replicate (bitmapBytes (cap ps h d)) 0)) := by
    intro p hp
    unfold zeroIn
    rw [store_eq]
    have h3 := tAddr_cap (d := d) b1.fits
    unfold tAddr at h3
    simp; omega
  simp only [hI, Option.bind_some, Bool.not_true, Bool.false_eq_true, if_false,
    offCount_eq b1, storeVal_word b1 (show 0 < 2 by omega),
    offTomb_eq b2, storeVal_word b2 (show 1 < 2 by omega),
    offBits_eq b3, capacity_eq b3 hpos, hz _ b3.len]
  refine ⟨_, true, rfl, by simp; omega, by simp, fun _ => ⟨?_, ?_⟩⟩
  · refine ⟨hv, hpos, b4, ?_, ?_, by simp, by simp, by simp⟩
    · rw [word_wr_ge 2 _ (by omega) (by omega), word_setWord_ne _ (by omega),
        word_setWord_eq b1 (by omega) hpow]; simp
    · rw [word_wr_ge 2 _ (by omega) (by omega), word_setWord_eq b2 (by omega) hpow]; simp
  · rw [hdrBytes_wr _ h0]
    simp only [hdrBytes_setWord, hb1]

end Fixed
end TS
