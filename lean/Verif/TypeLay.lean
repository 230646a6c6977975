import Verif.Container
/-
Specification of a sound physical layout and of a well formed finalised type; proof that
`finalize_type_info` produces them.
-/
namespace TS
namespace Dti

/-- Bytes an element that is not a bit field takes in the fixed part of its container: itself if
it is fixed sized, its offset otherwise. -/
def slot (w : Nat) (t : Dti) : Nat := if t.isVar then w else t.hdr.size

/-- What must hold between an element at a lower index (`x`) and one at a higher index (`y`):
their is-valid bits, bit ranges and byte ranges do not overlap (the lower one comes first). -/
structure Apart (w : Nat) (x y : PosInfo) : Prop where
  vv : x.ty.needsValid → y.ty.needsValid → x.vbit < y.vbit
  vb : x.ty.needsValid → y.ty.isBit → x.vbit < y.off
  bv : x.ty.isBit → y.ty.needsValid → x.off + x.ty.hdr.size ≤ y.vbit
  bb : x.ty.isBit → y.ty.isBit → x.off + x.ty.hdr.size ≤ y.off
  ff : x.ty.isBit = false → y.ty.isBit = false → x.off + slot w x.ty ≤ y.off

/-- A sound layout for `n` elements: `bb` bits of bitmap, byte slots between `b0` (where the
bitmap ends) and `e`. -/
structure Lay (w bb b0 e n : Nat) (pos : Nat → PosInfo) : Prop where
  vb : ∀ i, i < n → (pos i).ty.needsValid → (pos i).vbit < bb
  bf : ∀ i, i < n → (pos i).ty.isBit → (pos i).off + (pos i).ty.hdr.size ≤ bb
  own : ∀ i, i < n → (pos i).ty.isBit → (pos i).ty.needsValid → (pos i).vbit < (pos i).off
  fx : ∀ i, i < n → (pos i).ty.isBit = false →
    b0 ≤ (pos i).off ∧ (pos i).off + slot w (pos i).ty ≤ e
  ord : ∀ i j, i < j → j < n → Apart w (pos i) (pos j)

/-- Positions of the elements of a container with `n` elements. -/
def posOf (d : Dti) (n i : Nat) : PosInfo :=
  match d with
  | .prim k h => ⟨0, 0, .prim k h⟩
  | .tup h fs =>
    match fs[i]? with
    | some (f, t) => ⟨f.off, f.vbit, t⟩
    | none => ⟨0, 0, .tup h fs⟩
  | .str b h => ⟨offBitmap (.str b h) + i, 0, u8⟩
  | .arr h c =>
    let d := Dti.arr h c
    if c.isBit then
      if c.needsValid then ⟨(1 + c.hdr.size) * i + 1, (1 + c.hdr.size) * i, c⟩
      else ⟨c.hdr.size * i, 0, c⟩
    else ⟨d.offBitmap + bitmapBytes (n * c.needsValid.toNat) + slot d.w c * i,
      i * c.needsValid.toNat, c⟩

/-- Bits in the prefix bitmap of a container with `n` elements. -/
def bitsOf (d : Dti) (n : Nat) : Nat :=
  match d with
  | .prim .. => 0
  | .tup h _ => h.bits
  | .str .. => 0
  | .arr _ c => if c.isBit then n * (c.needsValid.toNat + c.hdr.size) else n * c.needsValid.toNat

/-- End of the fixed part (prefix, bitmap, fixed sized elements, offsets) of a container with `n`
elements. -/
def fixedEnd (d : Dti) (n : Nat) : Nat :=
  match d with
  | .prim _ h => h.size
  | .tup h _ => h.size
  | .str b h => offBitmap (.str b h) + n
  | .arr h c =>
    let d := Dti.arr h c
    if c.isBit then d.offBitmap + bitmapBytes (d.bitsOf n)
    else d.offBitmap + bitmapBytes (d.bitsOf n) + n * slot d.w c

/-- README limit on all sizes (/repo/README.md:14-18). -/
def lim : Nat := 2147483648

/-- A well formed finalised type: every type in it is finalised and small enough, the positions
of the fields of a tuple are a sound layout that fits the minimum size, and the minimum size is
at most the maximum size. -/
inductive TyOk : Dti → Prop
  | prim (k : PKind) (h : Hdr) : h.isFinal = true → h.isVar = false → 1 ≤ h.size → h.size ≤ 64 →
      (k ≠ .bitField → h.size ≤ 32) → (k = .uint ∨ k = .int → h.size ≤ 8) →
      (k = .float → h.size = 4 ∨ h.size = 8) → TyOk (.prim k h)
  | str (b : Bool) (h : Hdr) : h.isFinal = true → h.isVar = h.varCount →
      (h.isVar = false → h.size = h.count ∧ 1 ≤ h.count ∧ h.count < lim) →
      (h.isVar = true → h.size = vsz h.maxSize ∧ h.size ≤ h.maxSize ∧ h.maxSize < lim) →
      TyOk (.str b h)
  | tup (h : Hdr) (fs : List (Fld × Dti)) : h.isFinal = true → h.varCount = false →
      (∀ f t, (f, t) ∈ fs → TyOk t) → fs.length = h.count → 1 ≤ h.count →
      h.isVar = fs.any (fun p => p.2.isVar) →
      Lay (vsz h.maxSize) h.bits ((if h.isVar then vsz h.maxSize else 0) + bitmapBytes h.bits) h.size
        h.count (posOf (.tup h fs) h.count) →
      (if h.isVar then vsz h.maxSize else 0) + bitmapBytes h.bits ≤ h.size →
      1 ≤ h.size → h.size < lim → h.count < lim →
      (h.isVar = true → h.size ≤ h.maxSize ∧ h.maxSize < lim) → TyOk (.tup h fs)
  | arr (h : Hdr) (c : Dti) : h.isFinal = true → TyOk c → h.isVar = (h.varCount || c.isVar) →
      (h.varCount = false → 1 ≤ h.count ∧ h.count < lim ∧ h.size = fixedEnd (.arr h c) h.count) →
      (h.varCount = true → h.size = fixedEnd (.arr h c) 0) →
      1 ≤ h.size → h.size < lim →
      (h.isVar = true → h.size ≤ h.maxSize ∧ h.maxSize < lim) → TyOk (.arr h c)

/-- The documented limits (/repo/README.md:14-23) on the finalised type: maximum sizes are below
2GB and the fixed part of every tuple and array, computed without wrap around, is too. -/
inductive Small : Dti → Prop
  | prim (k h) : Small (.prim k h)
  | str (b : Bool) (h : Hdr) : (h.isVar = true → h.maxSize < lim) → (h.isVar = false → h.count < lim) →
      Small (.str b h)
  | tup (h : Hdr) (fs : List (Fld × Dti)) : (∀ f t, (f, t) ∈ fs → Small t) →
      (h.isVar = true → h.maxSize < lim) → h.count < lim →
      vsz h.maxSize + bitmapBytes h.bits +
        (fs.map (fun p => if p.2.isBit then 0 else slot (vsz h.maxSize) p.2)).sum < lim →
      Small (.tup h fs)
  | arr (h : Hdr) (c : Dti) : Small c → (h.isVar = true → h.maxSize < lim) →
      (h.varCount = false → h.count < lim ∧ fixedEnd (.arr h c) h.count < lim) → Small (.arr h c)

/-- A type as a user builds it: every node is either not yet finalised or an already well formed
finalised type, tuples have as many fields as they say. -/
inductive Fresh : Dti → Prop
  | ok {d} : TyOk d → Fresh d
  | prim (k) (h : Hdr) : h.isFinal = false → Fresh (.prim k h)
  | str (b) (h : Hdr) : h.isFinal = false → Fresh (.str b h)
  | tup (h : Hdr) (fs : List (Fld × Dti)) : h.isFinal = false → fs.length = h.count →
      (∀ f t, (f, t) ∈ fs → Fresh t) → Fresh (.tup h fs)
  | arr (h : Hdr) (c) : h.isFinal = false → Fresh c → Fresh (.arr h c)

end Dti
end TS
