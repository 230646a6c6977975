import Verif.SlottedModel
/-
Metadata words: every on-page value that follows the page header sits in an array of `vsz ps`
byte words starting right after the header. Word 0 is the occupied space, 1 the tuple count,
2 the tomb stone count, 3 the end of free space, 4 + i the offset of tuple i (slotted layout).
-/
namespace TS

/-- Byte offset of metadata word `k`. -/
def wAddr (ps h k : Nat) : Nat := vsz ps + h + k * vsz ps

/-- Value of metadata word `k`. -/
def word (ps h : Nat) (pg : Bytes) (k : Nat) : Nat := leDec (rd pg (wAddr ps h k) (vsz ps))

/-- Page with metadata word `k` overwritten by `v`. -/
def setWord (ps h : Nat) (pg : Bytes) (k v : Nat) : Bytes :=
  wr pg (wAddr ps h k) (leEnc (vsz ps) v)

/-- The page has the right length, its header has `h` bytes, and at least `K` metadata words fit. -/
structure Base (ps h K : Nat) (pg : Bytes) : Prop where
  len : pg.length = ps
  hdr : leDec (rd pg 0 (vsz ps)) = h
  lt : ps < 4294967296
  fits : wAddr ps h K ≤ ps

theorem wAddr_succ (ps h k : Nat) : wAddr ps h (k + 1) = wAddr ps h k + vsz ps := by
  simp [wAddr, Nat.succ_mul]; omega

theorem wAddr_add (ps h k j : Nat) : wAddr ps h (k + j) = wAddr ps h k + j * vsz ps := by
  simp [wAddr, Nat.add_mul]; omega

theorem wAddr_mono (ps h : Nat) {k j : Nat} (hk : k ≤ j) : wAddr ps h k ≤ wAddr ps h j := by
  obtain ⟨d, rfl⟩ := Nat.exists_eq_add_of_le hk
  rw [wAddr_add]; omega

theorem wAddr_ge (ps h k : Nat) : vsz ps + h ≤ wAddr ps h k := by simp [wAddr]

variable {ps h K : Nat} {pg : Bytes}

theorem Base.mono (b : Base ps h K pg) {J : Nat} (hJ : J ≤ K) : Base ps h J pg :=
  ⟨b.len, b.hdr, b.lt, Nat.le_trans (wAddr_mono ps h hJ) b.fits⟩

theorem Base.wb (b : Base ps h K pg) {k : Nat} (hk : k < K) :
    wAddr ps h k + vsz ps ≤ pg.length := by
  have := wAddr_mono ps h (show k + 1 ≤ K from hk)
  rw [wAddr_succ] at this
  have := b.fits; have := b.len; omega

theorem Base.hlt (b : Base ps h K pg) : vsz ps + h ≤ ps :=
  Nat.le_trans (wAddr_ge ps h K) b.fits

theorem hdrSize_eq (b : Base ps h K pg) : hdrSize pg ps = some h := by
  have := b.hlt; have := b.len
  simp [hdrSize, loadVal, load_eq (show 0 + vsz ps ≤ pg.length by omega), b.hdr]

theorem offEndHdr_eq (b : Base ps h K pg) : offEndHdr pg ps = some (wAddr ps h 0) := by
  have := b.hlt; have := b.lt
  simp [offEndHdr, hdrSize_eq b, u32_eq (show vsz ps + h < 4294967296 by omega), wAddr]

theorem loadVal_word (b : Base ps h K pg) {k : Nat} (hk : k < K) :
    loadVal pg ps (wAddr ps h k) = some (word ps h pg k) := by
  simp [loadVal, load_eq (b.wb hk), word]

theorem storeVal_word (b : Base ps h K pg) {k : Nat} (hk : k < K) (v : Nat) :
    storeVal pg ps (wAddr ps h k) v = some (setWord ps h pg k v) := by
  have := b.wb hk
  simp [storeVal, setWord, store_eq (s := leEnc (vsz ps) v) (by simpa using this)]

@[simp] theorem setWord_length (ps h : Nat) (pg : Bytes) (k v : Nat) :
    (setWord ps h pg k v).length = pg.length := by simp [setWord]

theorem word_lt (pg : Bytes) (k : Nat) : word ps h pg k < 256 ^ vsz ps := by
  have h1 := leDec_lt (rd pg (wAddr ps h k) (vsz ps))
  have h2 : (rd pg (wAddr ps h k) (vsz ps)).length ≤ vsz ps := by
    simp [rd]; omega
  exact Nat.lt_of_lt_of_le h1 (Nat.pow_le_pow_right (by omega) h2)

theorem rd_setWord (pg : Bytes) (k v : Nat) {o l : Nat}
    (hd : o + l ≤ wAddr ps h k ∨ wAddr ps h (k + 1) ≤ o) :
    rd (setWord ps h pg k v) o l = rd pg o l := by
  rw [wAddr_succ] at hd
  exact rd_wr_disj _ _ _ _ _ (by simpa using hd)

theorem Base.setWord (b : Base ps h K pg) (k v : Nat) :
    Base ps h K (setWord ps h pg k v) := by
  refine ⟨by rw [setWord_length, b.len], ?_, b.lt, b.fits⟩
  rw [rd_setWord pg k v (.inl (by have := wAddr_ge ps h k; omega))]
  exact b.hdr

theorem word_setWord_same (b : Base ps h K pg) {k : Nat} (hk : k < K) (v : Nat) :
    word ps h (setWord ps h pg k v) k = v % 256 ^ vsz ps := by
  have := b.wb hk
  unfold word TS.setWord
  have h2 := rd_wr_same pg (wAddr ps h k) (leEnc (vsz ps) v) (by simpa using this)
  rw [leEnc_length] at h2
  rw [h2, leDec_leEnc]

theorem word_setWord_ne (pg : Bytes) {k j : Nat} (hj : j ≠ k) (v : Nat) :
    word ps h (setWord ps h pg k v) j = word ps h pg j := by
  unfold word
  rw [rd_setWord pg k v]
  rcases Nat.lt_or_gt_of_ne hj with h1 | h1
  · left
    have := wAddr_mono ps h (show j + 1 ≤ k from h1)
    rw [wAddr_succ] at this; exact this
  · right
    exact wAddr_mono ps h (show k + 1 ≤ j from h1)

theorem word_setWord_eq (b : Base ps h K pg) {k : Nat} (hk : k < K) {v : Nat}
    (hv : v < 256 ^ vsz ps) : word ps h (TS.setWord ps h pg k v) k = v := by
  rw [word_setWord_same b hk, Nat.mod_eq_of_lt hv]

/-- A write to the heap part of the page leaves the metadata words below it alone. -/
theorem word_wr (pg : Bytes) {o : Nat} {s : Bytes} {k : Nat}
    (hk : wAddr ps h (k + 1) ≤ o) : word ps h (wr pg o s) k = word ps h pg k := by
  unfold word
  rw [wAddr_succ] at hk
  rw [rd_wr_disj _ _ _ _ _ (.inl hk)]

theorem Base.wr (b : Base ps h K pg) {o : Nat} {s : Bytes}
    (hk : wAddr ps h 0 ≤ o) : Base ps h K (wr pg o s) := by
  refine ⟨by rw [wr_length _ _ _, b.len], ?_, b.lt, b.fits⟩
  rw [rd_wr_disj _ _ _ _ _ (.inl (by have := wAddr_ge ps h 0; omega))]
  exact b.hdr

/-- Metadata writes leave everything from the end of the metadata on alone. -/
theorem rd_setWord_ge (K : Nat) (pg : Bytes) {k : Nat} (hk : k < K) (v : Nat) {o l : Nat}
    (ho : wAddr ps h K ≤ o) : rd (setWord ps h pg k v) o l = rd pg o l :=
  rd_setWord pg k v (.inr (Nat.le_trans (wAddr_mono ps h hk) ho))

theorem word_wr_ge (K : Nat) (pg : Bytes) {o : Nat} {s : Bytes} {k : Nat} (hk : k < K)
    (ho : wAddr ps h K ≤ o) : word ps h (TS.wr pg o s) k = word ps h pg k :=
  word_wr pg (Nat.le_trans (wAddr_mono ps h hk) ho)

theorem lt_wAddr (ps h k : Nat) : k < wAddr ps h k := by
  have h1 := vsz_pos ps
  have h2 : k * 1 ≤ k * vsz ps := Nat.mul_le_mul_left k h1
  simp only [wAddr]; omega

/-- Bytes of the user's page header. -/
def hdrBytes (ps h : Nat) (pg : Bytes) : Bytes := rd pg (vsz ps) h

@[simp] theorem hdrBytes_setWord (pg : Bytes) (k v : Nat) :
    hdrBytes ps h (setWord ps h pg k v) = hdrBytes ps h pg :=
  rd_setWord pg k v (.inl (wAddr_ge ps h k))

theorem hdrBytes_wr (pg : Bytes) {o : Nat} {s : Bytes}
    (hk : wAddr ps h 0 ≤ o) : hdrBytes ps h (wr pg o s) = hdrBytes ps h pg :=
  rd_wr_disj _ _ _ _ _ (.inl (by have := wAddr_ge ps h 0; omega))

namespace Slotted

/-- Decoded end of free space. -/
def eofs (ps h : Nat) (pg : Bytes) : Nat :=
  if word ps h pg 3 = 0 then ps else word ps h pg 3

theorem offOcc_eq (b : Base ps h K pg) : offOcc pg ps = some (wAddr ps h 0) := offEndHdr_eq b

theorem u32_wAddr (b : Base ps h K pg) {k : Nat} (hk : k < K) :
    u32 (wAddr ps h k + vsz ps) = some (wAddr ps h (k + 1)) := by
  have := b.wb hk; have := b.len; have := b.lt
  rw [u32_eq (by omega), wAddr_succ]

theorem offCount_eq (b : Base ps h K pg) (hK : 4 ≤ K) : offCount pg ps = some (wAddr ps h 1) := by
  simp [offCount, offOcc_eq b, u32_wAddr b (show 0 < K by omega)]

theorem offTomb_eq (b : Base ps h K pg) (hK : 4 ≤ K) : offTomb pg ps = some (wAddr ps h 2) := by
  simp [offTomb, offCount_eq b hK, u32_wAddr b (show 1 < K by omega)]

theorem offEofs_eq (b : Base ps h K pg) (hK : 4 ≤ K) : offEofs pg ps = some (wAddr ps h 3) := by
  simp [offEofs, offTomb_eq b hK, u32_wAddr b (show 2 < K by omega)]

theorem offOffs_eq (b : Base ps h K pg) (hK : 4 ≤ K) : offOffs pg ps = some (wAddr ps h 4) := by
  simp [offOffs, offEofs_eq b hK, u32_wAddr b (show 3 < K by omega)]

theorem offIth_eq (b : Base ps h K pg) (hK : 4 ≤ K) {i : Nat} (hi : 4 + i ≤ K) :
    offIth pg ps i = some (wAddr ps h (4 + i)) := by
  have h1 := wAddr_mono ps h hi
  have h2 := b.fits; have h3 := b.lt
  rw [wAddr_add] at h1
  simp [offIth, offOffs_eq b hK, u32_eq (show wAddr ps h 4 + i * vsz ps < 4294967296 by omega),
    wAddr_add]

theorem tupleCount_eq (b : Base ps h K pg) (hK : 4 ≤ K) :
    tupleCount pg ps = some (word ps h pg 1) := by
  simp [tupleCount, offCount_eq b hK, loadVal_word b (show 1 < K by omega)]

theorem tombCount_eq (b : Base ps h K pg) (hK : 4 ≤ K) :
    tombCount pg ps = some (word ps h pg 2) := by
  simp [tombCount, offTomb_eq b hK, loadVal_word b (show 2 < K by omega)]

theorem endFree_eq (b : Base ps h K pg) (hK : 4 ≤ K) :
    endFree pg ps = some (eofs ps h pg) := by
  simp [endFree, offEofs_eq b hK, loadVal_word b (show 3 < K by omega), eofs]

theorem tupOff_eq (b : Base ps h K pg) (hK : 4 ≤ K) {i : Nat} (hi : 4 + i < K) :
    tupOff pg ps i = some (word ps h pg (4 + i)) := by
  simp [tupOff, offIth_eq b hK (Nat.le_of_lt hi), loadVal_word b hi]

theorem startFree_eq (b : Base ps h K pg) (hK : 4 ≤ K) (hn : 4 + word ps h pg 1 ≤ K) :
    startFree pg ps = some (wAddr ps h (4 + word ps h pg 1)) := by
  simp [startFree, tupleCount_eq b hK, offIth_eq b hK hn]

theorem freeSpace_eq (b : Base ps h K pg) (hK : 4 ≤ K) (hn : 4 + word ps h pg 1 ≤ K)
    (hle : wAddr ps h (4 + word ps h pg 1) ≤ eofs ps h pg) :
    freeSpace pg ps = some (eofs ps h pg - wAddr ps h (4 + word ps h pg 1)) := by
  simp [freeSpace, endFree_eq b hK, startFree_eq b hK hn, sub32_eq hle]

/-- Writing the end of free space works even for `ps` itself, which may be truncated to 0. -/
theorem eofs_setWord (b : Base ps h K pg) (hK : 4 ≤ K) {e : Nat} (h0 : 0 < e) (he : e ≤ ps) :
    eofs ps h (setWord ps h pg 3 e) = e := by
  have hp := le_pow_vsz b.lt
  unfold eofs
  rw [word_setWord_same b (by omega)]
  rcases Nat.lt_or_ge e (256 ^ vsz ps) with h1 | h1
  · rw [Nat.mod_eq_of_lt h1]; split <;> omega
  · have : e = 256 ^ vsz ps := by omega
    rw [this, Nat.mod_self]; simp; omega

theorem eofs_setWord_ne (pg : Bytes) {k : Nat} (h3 : k ≠ 3) (v : Nat) :
    eofs ps h (setWord ps h pg k v) = eofs ps h pg := by
  simp [eofs, word_setWord_ne pg (Ne.symm h3) v]

theorem eofs_wr (pg : Bytes) {o : Nat} {s : Bytes}
    (hk : wAddr ps h 4 ≤ o) : eofs ps h (wr pg o s) = eofs ps h pg := by
  simp [eofs, word_wr (k := 3) pg hk]

theorem eofs_wr_ge (K : Nat) (pg : Bytes) (hK : 4 ≤ K) {o : Nat} {s : Bytes}
    (ho : wAddr ps h K ≤ o) : eofs ps h (wr pg o s) = eofs ps h pg :=
  eofs_wr pg (Nat.le_trans (wAddr_mono ps h hK) ho)

end Slotted
end TS
