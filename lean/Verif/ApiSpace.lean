import Verif.ApiRep
/-
Space figures of represented pages, for both layouts.
-/
namespace TS

variable {ps h : Nat} {d : SizeDef} {pg : Bytes} {s : Slots}

/-- Specification: the space one slot accounts for. A slotted page pays the overhead for every
slot and the bytes of a tuple only if there is one; a fixed array page reserves the bytes of a
tuple for every slot. -/
def slotSpace (ps : Nat) (d : SizeDef) (x : Option Bytes) : Nat :=
  Api.overhead ps d + (if d.isVar then dataLen x else d.size)

/-- Specification: the space all slots of a logical page account for. -/
def usedSpace (ps : Nat) (d : SizeDef) (s : Slots) : Nat := (s.map (slotSpace ps d)).sum

theorem usedSpace_var (hv : d.isVar = true) (s : Slots) :
    usedSpace ps d s = liveSum s + s.length * vsz ps := by
  induction s with
  | nil => simp [usedSpace]
  | cons x s ih =>
    simp only [usedSpace, List.map_cons, List.sum_cons] at *
    rw [ih]
    simp [slotSpace, hv, Api.overhead, Api.slotted, Slotted.overhead, Nat.add_mul]; omega

theorem usedSpace_fix (hv : d.isVar = false) (s : Slots) :
    usedSpace ps d s = s.length * d.size := by
  induction s with
  | nil => simp [usedSpace]
  | cons x s ih =>
    simp only [usedSpace, List.map_cons, List.sum_cons] at *
    rw [ih]
    simp [slotSpace, hv, Api.overhead, Api.slotted, Fixed.overhead, Nat.add_mul]; omega

theorem usedSpace_append (a b : Slots) :
    usedSpace ps d (a ++ b) = usedSpace ps d a + usedSpace ps d b := by simp [usedSpace]

theorem usedSpace_cons (a : Option Bytes) (b : Slots) :
    usedSpace ps d (a :: b) = slotSpace ps d a + usedSpace ps d b := by simp [usedSpace]

/-- Start of the area for tuples. -/
def areaStart (ps h : Nat) (d : SizeDef) : Nat :=
  if d.isVar then wAddr ps h 4 else Fixed.tAddr ps h d 0

theorem PRep.areaStart_le (r : PRep ps h d pg s) : areaStart ps h d ≤ ps := by
  unfold areaStart
  rcases r with r | ⟨r, -⟩
  · have := r.base.fits
    have := wAddr_mono ps h (show 4 ≤ 4 + s.length by omega)
    simp [r.var]; omega
  · have := r.tAddr_le
    have := Fixed.tAddr_mono (ps := ps) (h := h) (d := d) (show 0 ≤ s.length by omega)
    simp [r.fixed]; omega

theorem PRep.spaceAllotted (r : PRep ps h d pg s) :
    Api.spaceAllotted pg ps d = some (ps - areaStart ps h d) := by
  unfold areaStart
  rcases r with r | ⟨r, -⟩
  · simp [Api.spaceAllotted, slotted_var r, r.spaceAllotted, r.var]
  · simp [Api.spaceAllotted, slotted_fix r, r.spaceAllotted, r.fixed]

theorem PRep.spaceToBeAllotted (r : PRep ps h d pg s) :
    Api.spaceToBeAllotted h ps d = some (ps - areaStart ps h d) := by
  have hle := r.areaStart_le
  have hlt := r.base0.lt
  unfold areaStart at *
  rcases r with r | ⟨r, -⟩
  · simp only [r.var, if_true] at hle ⊢
    simp only [Api.spaceToBeAllotted, slotted_var r, if_true, Slotted.spaceToBeAllotted,
      Option.bind_eq_bind]
    have he : vsz ps + h + 4 * vsz ps = wAddr ps h 4 := rfl
    rw [he, u32_eq (by omega), Option.bind_some, sub32_eq hle]
  · simp only [r.fixed] at hle ⊢
    have hf := r.base.fits
    have hc := Fixed.cap_lt r.base.lt hf r.pos
    have he : vsz ps + h + vsz ps * 2 = wAddr ps h 2 := by simp [wAddr]; omega
    simp only [Api.spaceToBeAllotted, slotted_fix r, Fixed.spaceToBeAllotted, Fixed.spacePlusBits,
      Option.bind_eq_bind]
    rw [he, u32_eq (by omega)]
    simp only [Option.bind_some, Bool.false_eq_true, if_false, sub32_eq hf]
    have : (ps - wAddr ps h 2) * 8 / (d.size * 8 + 1) = Fixed.cap ps h d := rfl
    rw [this, u32_eq (by omega)]
    simp only [Option.bind_some]
    simp only [Fixed.tAddr, Bool.false_eq_true, if_false] at hle ⊢
    rw [sub32_eq (by omega)]
    congr 1; omega

theorem PRep.spaceOcc (r : PRep ps h d pg s) :
    Api.spaceOcc pg ps d = some (usedSpace ps d s) := by
  rcases r with r | ⟨r, -⟩
  · simp [Api.spaceOcc, slotted_var r, r.spaceOcc, usedSpace_var r.var]
  · simp [Api.spaceOcc, slotted_fix r, r.spaceOcc, usedSpace_fix r.fixed]

/-- Free space of a represented page. -/
def freeBytes (ps h : Nat) (d : SizeDef) (pg : Bytes) (s : Slots) : Nat :=
  if d.isVar then Slotted.free ps h pg s else ps - Fixed.tAddr ps h d s.length

theorem PRep.freeSpace (r : PRep ps h d pg s) :
    Api.freeSpace pg ps d = some (freeBytes ps h d pg s) := by
  unfold freeBytes
  rcases r with r | ⟨r, -⟩
  · simp [Api.freeSpace, slotted_var r, r.freeSpace, r.var]
  · simp [Api.freeSpace, slotted_fix r, r.freeSpace, r.fixed]

theorem PRep.conserve (r : PRep ps h d pg s) :
    usedSpace ps d s + freeBytes ps h d pg s ≤ ps - areaStart ps h d ∧
    (d.isVar = false →
      usedSpace ps d s + freeBytes ps h d pg s = ps - areaStart ps h d) := by
  unfold freeBytes areaStart
  rcases r with r | ⟨r, -⟩
  · have h1 := r.sum_le
    have h2 := r.space
    have h3 := r.eofs_le
    have h4 := wAddr_add ps h 4 s.length
    simp only [usedSpace_var r.var, r.var, if_true, Slotted.free]
    refine ⟨by omega, by simp⟩
  · have h1 := r.tAddr_le
    have h2 := Fixed.tAddr_add (ps := ps) (h := h) (d := d) 0 s.length
    rw [Nat.zero_add] at h2
    simp only [usedSpace_fix r.fixed, r.fixed, Bool.false_eq_true, if_false]
    exact ⟨by omega, fun _ => by omega⟩

theorem PRep.spaceTomb (r : PRep ps h d pg s) :
    Api.spaceTomb pg ps d = some (tombs s * slotSpace ps d none) := by
  rcases r with r | ⟨r, -⟩
  · simp [Api.spaceTomb, slotted_var r, r.spaceTomb, slotSpace, r.var, Api.overhead,
      Slotted.overhead]
  · simp [Api.spaceTomb, slotted_fix r, r.spaceTomb, slotSpace, r.fixed, Api.overhead,
      Fixed.overhead]

theorem PRep.spaceOccBy (r : PRep ps h d pg s) (a b : Nat) :
    Api.spaceOccBy pg ps d a b =
      some (if a ≤ b ∧ b < s.length then usedSpace ps d ((s.drop a).take (b - a + 1)) else 0) := by
  have hc := r.tupleCount
  simp only [Api.spaceOccBy, hc, Option.bind_eq_bind, Option.bind_some]
  by_cases hab : a ≤ b ∧ b < s.length
  · rw [if_neg (by omega), if_pos hab]
    have hl : ((s.drop a).take (b - a + 1)).length = b - a + 1 := by simp; omega
    rcases r with r | ⟨r, -⟩
    · rw [slotted_var r, if_pos rfl, r.spaceOccBy hab.1 hab.2, usedSpace_var r.var, hl]
    · rw [slotted_fix r, usedSpace_fix r.fixed, hl]
      simp [r.spaceOccBy hab.1 hab.2]
  · rw [if_pos (by omega), if_neg hab]; rfl

theorem PRep.spaceFor (r : PRep ps h d pg s) {ext : Option Bytes} (he : ExtOk d ext) :
    Api.spaceFor ps d ext = some (slotSpace ps d ext) := by
  rcases r with r | ⟨r, -⟩
  · simp [Api.spaceFor, slotted_var r, Slotted.spaceFor_eq he, slotSpace, r.var, Api.overhead,
      Slotted.overhead]
  · simp [Api.spaceFor, slotted_fix r, slotSpace, r.fixed, Api.overhead, Fixed.overhead,
      Fixed.spaceFor]

theorem PRep.fragmentation (r : PRep ps h d pg s) :
    Api.fragmentation pg ps d =
      some (ps - areaStart ps h d - (usedSpace ps d s + freeBytes ps h d pg s)) := by
  have h1 := r.conserve.1
  have hlt := r.base0.lt
  simp only [Api.fragmentation, r.spaceAllotted, r.spaceOcc, r.freeSpace, Option.bind_eq_bind,
    Option.bind_some]
  rw [u32_eq (by omega), Option.bind_some, sub32_eq h1]

/-- Header writes do not change the free space either. -/
theorem PRep.writeHeader_free (r : PRep ps h d pg s) {off : Nat} {bs : Bytes}
    (ho : off + bs.length ≤ h) :
    freeBytes ps h d (wr pg (vsz ps + off) bs) s = freeBytes ps h d pg s := by
  have e2 : ∀ o l, vsz ps + h ≤ o → rd (wr pg (vsz ps + off) bs) o l = rd pg o l :=
    fun o l hol => rd_wr_disj _ _ _ _ _ (by omega)
  unfold freeBytes
  split
  · have hw3 : word ps h (wr pg (vsz ps + off) bs) 3 = word ps h pg 3 := by
      unfold word; rw [e2 _ _ (wAddr_ge ps h 3)]
    simp only [Slotted.free, Slotted.eofs, hw3]
  · rfl

theorem PRep.getNth_writeHeader (r : PRep ps h d pg s) {off : Nat} {bs : Bytes}
    (ho : off + bs.length ≤ h) (i : Nat) :
    Api.getNth (wr pg (vsz ps + off) bs) ps d i = Api.getNth pg ps d i := by
  have h1 := r.base0.hlt
  have h2 := r.base0.len
  have e1 : rd (wr pg (vsz ps + off) bs) 0 (vsz ps) = rd pg 0 (vsz ps) :=
    rd_wr_disj _ _ _ _ _ (by omega)
  have e2 : ∀ o l, vsz ps + h ≤ o → rd (wr pg (vsz ps + off) bs) o l = rd pg o l :=
    fun o l hol => rd_wr_disj _ _ _ _ _ (by omega)
  rcases r with r | ⟨r, hw⟩
  · obtain ⟨r', hwd⟩ := r.congr_hdr (by simp) e1 e2
    simp only [Api.getNth, slotted_var r, if_true, Slotted.getNth, r.tupleCount, r'.tupleCount,
      Option.bind_eq_bind, Option.bind_some]
    by_cases hi : i < s.length
    · rw [r.tupOff hi, r'.tupOff hi, hwd]
    · rw [if_pos (by omega), if_pos (by omega)]
  · have r' := r.congr_hdr (by simp) e1 e2
    simp only [Api.getNth, slotted_fix r, Bool.false_eq_true, if_false, Fixed.getNth, r.tupleCount, r'.tupleCount,
      Option.bind_eq_bind, Option.bind_some, Fixed.offBits_eq r.base, Fixed.offBits_eq r'.base]
    by_cases hi : i < s.length
    · have hs : s[i]? = some s[i] := List.getElem?_eq_getElem hi
      rw [r.getBit hs, r'.getBit hs, Fixed.offIth_eq r.base r.pos (by have := r.le; omega),
        Fixed.offIth_eq r'.base r.pos (by have := r.le; omega)]
    · rw [if_pos (by omega), if_pos (by omega)]

end TS
