import Verif.PropsHash
/-
Hashing data of different types.
-/
namespace TS
namespace Dti

/-- The kinds of whole numbers that are stored as bytes. -/
def Whole (k : PKind) : Prop := k = .uint ∨ k = .largeUint ∨ k = .int ∨ k = .largeInt

/-- Types whose values, if they are the same, are hashed by the same bytes: bit fields of the same
width; whole numbers of the same size, signed or not; strings and binaries of any size, and arrays of
one byte numbers; arrays of such types; tuples of such types. -/
inductive HashAlike : Dti → Dti → Prop
  | bits (h1 h2 : Hdr) : h1.size = h2.size → HashAlike (.prim .bitField h1) (.prim .bitField h2)
  | whole (k1 k2 : PKind) (h1 h2 : Hdr) : Whole k1 → Whole k2 → h1.size = h2.size → HashAlike (.prim k1 h1) (.prim k2 h2)
  | strs (b1 b2 : Bool) (h1 h2 : Hdr) : HashAlike (.str b1 h1) (.str b2 h2)
  | strArr (b : Bool) (h1 h2 hc : Hdr) (k : PKind) : Whole k → hc.size = 1 → HashAlike (.str b h1) (.arr h2 (.prim k hc))
  | arrStr (b : Bool) (h1 h2 hc : Hdr) (k : PKind) : Whole k → hc.size = 1 → HashAlike (.arr h1 (.prim k hc)) (.str b h2)
  | arrs (h1 h2 : Hdr) (c1 c2 : Dti) : HashAlike c1 c2 → HashAlike (.arr h1 c1) (.arr h2 c2)
  | tups (h1 h2 : Hdr) (fs1 fs2 : List (Fld × Dti)) : fs1.length = fs2.length →
      (∀ (i : Nat) f1 t1 f2 t2, fs1[i]? = some (f1, t1) → fs2[i]? = some (f2, t2) → HashAlike t1 t2) →
      HashAlike (.tup h1 fs1) (.tup h2 fs2)

theorem leEnc_mod : ∀ (w n : Nat), leEnc w (n % 256 ^ w) = leEnc w n
  | 0, _ => rfl
  | w + 1, n => by
    simp only [leEnc]
    have h1 : n % 256 ^ (w + 1) % 256 = n % 256 := by
      rw [Nat.pow_succ]; exact Nat.mod_mul_left_mod n _ 256
    have h2 : n % 256 ^ (w + 1) / 256 = n / 256 % 256 ^ w := by
      rw [Nat.pow_succ, Nat.mul_comm]; exact Nat.mod_mul_right_div_self n 256 _
    rw [h2, leEnc_mod w]
    congr 1
    apply UInt8.toNat_inj.mp
    simpa using h1

theorem intEnc_nat (w n : Nat) : intEnc w (n : Int) = leEnc w n := by
  unfold intEnc
  rw [← Int.natCast_emod, Int.toNat_natCast, leEnc_mod]

section
variable {σ : Type} {upd : σ → UInt8 → σ}

/-- A whole number is hashed by the bytes of its two's complement. -/
theorem whole_hash {k : PKind} {hd : Hdr} {v : Datum} {x : Num} (hk : Whole k) (ho : TyOk (.prim k hd)) (hn : v.isNull = false)
    (hx : numOf k hd v = some x) : ∃ z : Int, x = .ofInt z ∧ ∀ h : σ, hashDatum upd h (.prim k hd) v = some (hashBytes upd h (intEnc hd.size z)) := by
  have hv : hd.isVar = false := by cases ho; assumption
  have hst : ∀ (m b : Bytes), b.length = hd.size → hd.size ≤ m.length → store m 0 b = some (wr m 0 b) :=
    fun m b hl hm => store_eq (by omega)
  rcases hk with rfl | rfl | rfl | rfl
  · simp only [numOf, Option.map_eq_some_iff] at hx
    obtain ⟨n, hx, rfl⟩ := hx
    refine ⟨n, rfl, fun h => ?_⟩
    rw [intEnc_nat]
    exact hashNum (by simp) ho (leEnc_length _ _) hn (fun m hm => by
      simp [setDatum, hn, isBit, isVar, hdr, hv, hx, hst m _ (leEnc_length _ _) hm]) h
  · simp only [numOf, Option.map_eq_some_iff] at hx
    obtain ⟨n, hx, rfl⟩ := hx
    refine ⟨n, rfl, fun h => ?_⟩
    rw [intEnc_nat]
    exact hashNum (by simp) ho (leEnc_length _ _) hn (fun m hm => by
      simp [setDatum, hn, isBit, isVar, hdr, hv, hx, hst m _ (leEnc_length _ _) hm]) h
  · simp only [numOf, Option.map_eq_some_iff] at hx
    obtain ⟨n, hx, rfl⟩ := hx
    have hl : (intEnc hd.size n).length = hd.size := by unfold intEnc; exact leEnc_length _ _
    exact ⟨n, rfl, fun h => hashNum (by simp) ho hl hn (fun m hm => by
      simp [setDatum, hn, isBit, isVar, hdr, hv, hx, hst m _ hl hm]) h⟩
  · simp only [numOf, Option.map_eq_some_iff] at hx
    obtain ⟨n, hx, rfl⟩ := hx
    have hl : (intEnc hd.size n).length = hd.size := by unfold intEnc; exact leEnc_length _ _
    exact ⟨n, rfl, fun h => hashNum (by simp) ho hl hn (fun m hm => by
      simp [setDatum, hn, isBit, isVar, hdr, hv, hx, hst m _ hl hm]) h⟩

/-- An array of one byte numbers that holds the bytes `a` is hashed by these. -/
theorem bytes_hash {g hc : Hdr} {k : PKind} (hk : Whole k) (h1 : hc.size = 1) (ho : TyOk (.arr g (.prim k hc))) {v : Datum} {a : Bytes}
    (hn : v.isNull = false) (m : Stands (.arr g (.prim k hc)) v (charSeq a)) (h : σ) :
    hashDatum upd h (.arr g (.prim k hc)) v = some (hashBytes upd h a) := by
  obtain ⟨xs, e, kd⟩ := kids ho rfl hn m
  unfold charSeq at e
  injection e with e
  subst e
  have hlen := kd.count
  simp only [List.length_map] at hlen
  simp only [hashDatum, hn, hlen, Bool.false_eq_true, if_false, Option.bind_eq_bind, Option.bind_some]
  suffices hloop : ∀ (j i : Nat) (h : σ), i + j = a.length →
      hashLoop (fun h _ x => hashDatum upd h (.prim k hc) x) (.arr g (.prim k hc)) v j i h = some (hashBytes upd h (a.drop i)) by
    simpa using hloop a.length 0 h (by simp)
  intro j
  induction j with
  | zero => intro i h hi; simp [hashLoop, hashBytes, List.drop_eq_nil_of_le (show a.length ≤ i by omega)]
  | succ j ihr =>
    intro i h hi
    have hlt : i < a.length := by omega
    obtain ⟨c, t, p1, p2, p3, p4⟩ := kd.kid i (.num (.ofInt a[i].toNat)) (by simp [hlt])
    have e1 : t = .prim k hc := by simp [tyAt] at p2; exact p2.symm
    subst e1
    have hcn : c.isNull = false := by
      cases hb : c.isNull with
      | false => rfl
      | true => have := p4.null_iff.mp hb; cases this
    obtain ⟨x, hx, hs⟩ := (p4.out.resolve_left (by rintro ⟨rfl, _⟩; cases hcn)).2
    cases hs
    obtain ⟨z, hz, hh⟩ := whole_hash (upd := upd) hk p3 hcn hx
    have := Num.ofInt_inj hz
    subst this
    simp only [hashLoop, p1, Option.bind_eq_bind, Option.bind_some, hcn, Bool.false_eq_true, if_false, hh]
    rw [ihr (i + 1) _ (by omega), h1, intEnc_nat]
    simp only [leEnc, hashBytes, List.foldl_cons, List.foldl_nil, Option.some.injEq]
    rw [List.drop_eq_getElem_cons hlt, List.foldl_cons]
    congr 2
    apply UInt8.toNat_inj.mp
    simp

/-- Data of such types that stand for the same value are hashed alike. -/
theorem hash_alike {d1 d2 : Dti} (ha : HashAlike d1 d2) : TyOk d1 → TyOk d2 → ∀ {v1 v2 : Datum} {s : SVal}, Stands d1 v1 s → Stands d2 v2 s →
    ∀ h : σ, ∃ h', hashDatum upd h d1 v1 = some h' ∧ hashDatum upd h d2 v2 = some h' := by
  have hnull : ∀ {d1 d2 : Dti} {v1 v2 : Datum} {s : SVal}, Stands d1 v1 s → Stands d2 v2 s → ∀ h : σ,
      (v1.isNull = false → v2.isNull = false → ∃ h', hashDatum upd h d1 v1 = some h' ∧ hashDatum upd h d2 v2 = some h') →
      ∃ h', hashDatum upd h d1 v1 = some h' ∧ hashDatum upd h d2 v2 = some h' := by
    intro d1 d2 v1 v2 s m1 m2 h hh
    cases n1 : v1.isNull with
    | true =>
      have n2 := m2.null_iff.mpr (m1.null_iff.mp n1)
      rw [isNull_iff.mp n1, isNull_iff.mp n2]
      exact ⟨h, hash_null _ _, hash_null _ _⟩
    | false =>
      cases n2 : v2.isNull with
      | true => rw [m1.null_iff.mpr (m2.null_iff.mp n2)] at n1; cases n1
      | false => exact hh n1 n2
  have hstr : ∀ {b : Bool} {g : Hdr} {v : Datum} {s : SVal}, Stands (.str b g) v s → v.isNull = false →
      ∃ a, s = charSeq a ∧ ∀ h : σ, hashDatum upd h (.str b g) v = some (hashBytes upd h a) := by
    intro b g v s m n
    obtain ⟨a, h1, hs⟩ := (m.out.resolve_left (by rintro ⟨rfl, _⟩; cases n)).2
    exact ⟨a, hs, fun h => by simp [hashDatum, n, h1]⟩
  have hinj : ∀ {a b : Bytes}, charSeq a = charSeq b → a = b := by
    intro a b h
    unfold charSeq at h
    injection h with h
    induction a generalizing b with
    | nil => cases b with
      | nil => rfl
      | cons => simp at h
    | cons c a ih => cases b with
      | nil => simp at h
      | cons c' b =>
        simp only [List.map_cons, List.cons.injEq, SVal.num.injEq] at h
        have := Num.ofInt_inj h.1
        rw [ih h.2, UInt8.toNat_inj.mp (show c.toNat = c'.toNat by omega)]
  induction ha with
  | bits g1 g2 hz =>
    intro o1 o2 v1 v2 s m1 m2 h
    refine hnull m1 m2 h (fun n1 n2 => ?_)
    obtain ⟨x, h1, hs1⟩ := (m1.out.resolve_left (by rintro ⟨rfl, _⟩; cases n1)).2
    obtain ⟨x', h2, hs2⟩ := (m2.out.resolve_left (by rintro ⟨rfl, _⟩; cases n2)).2
    rw [hs1] at hs2
    cases hs2
    simp only [numOf, Option.map_eq_some_iff] at h1 h2
    obtain ⟨a, h1, rfl⟩ := h1
    obtain ⟨b, h2, e⟩ := h2
    have := Num.ofInt_inj e
    have : b = a := by omega
    subst this
    exact ⟨_, by simp [hashDatum, n1, h1]; rfl, by simp [hashDatum, n2, h2, hz]⟩
  | whole k1 k2 g1 g2 w1 w2 hz =>
    intro o1 o2 v1 v2 s m1 m2 h
    refine hnull m1 m2 h (fun n1 n2 => ?_)
    obtain ⟨x, h1, hs1⟩ := (m1.out.resolve_left (by rintro ⟨rfl, _⟩; cases n1)).2
    obtain ⟨x', h2, hs2⟩ := (m2.out.resolve_left (by rintro ⟨rfl, _⟩; cases n2)).2
    rw [hs1] at hs2
    cases hs2
    obtain ⟨a, e1, q1⟩ := whole_hash (upd := upd) w1 o1 n1 h1
    obtain ⟨b, e2, q2⟩ := whole_hash (upd := upd) w2 o2 n2 h2
    rw [e1] at e2
    have := Num.ofInt_inj e2
    subst this
    exact ⟨_, q1 h, by rw [q2 h, hz]⟩
  | strs b1 b2 g1 g2 =>
    intro o1 o2 v1 v2 s m1 m2 h
    refine hnull m1 m2 h (fun n1 n2 => ?_)
    obtain ⟨a, e1, q1⟩ := hstr m1 n1
    obtain ⟨b, e2, q2⟩ := hstr m2 n2
    rw [e1] at e2
    have := hinj e2
    subst this
    exact ⟨_, q1 h, q2 h⟩
  | strArr b g1 g2 gc k w hz =>
    intro o1 o2 v1 v2 s m1 m2 h
    refine hnull m1 m2 h (fun n1 n2 => ?_)
    obtain ⟨a, rfl, q1⟩ := hstr m1 n1
    exact ⟨_, q1 h, bytes_hash w hz o2 n2 m2 h⟩
  | arrStr b g1 g2 gc k w hz =>
    intro o1 o2 v1 v2 s m1 m2 h
    refine hnull m1 m2 h (fun n1 n2 => ?_)
    obtain ⟨a, rfl, q1⟩ := hstr m2 n2
    exact ⟨_, bytes_hash w hz o1 n1 m1 h, q1 h⟩
  | tups g1 g2 fs1 fs2 hl _ ih =>
    intro o1 o2 v1 v2 s m1 m2 h
    refine hnull m1 m2 h (fun n1 n2 => ?_)
    obtain ⟨xs, rfl, k1⟩ := kids o1 rfl n1 m1
    obtain ⟨ys, e, k2⟩ := kids o2 rfl n2 m2
    cases e
    have hlen := k1.len _ _ rfl
    simp only [hashDatum, n1, n2, k1.count, k2.count, Bool.false_eq_true, if_false, Option.bind_eq_bind, Option.bind_some]
    suffices hloop : ∀ (r1 r2 : List (Fld × Dti)) (i : Nat) (h : σ), r1.length = r2.length → i + r1.length = fs1.length →
        (∀ j, r1[j]? = fs1[i + j]?) → (∀ j, r2[j]? = fs2[i + j]?) →
        ∃ h', hashFlds upd h r1 (.tup g1 fs1) v1 xs.length i = some h' ∧ hashFlds upd h r2 (.tup g2 fs2) v2 xs.length i = some h' by
      exact hloop fs1 fs2 0 h hl (by simp) (by simp) (by simp)
    intro r1
    induction r1 with
    | nil =>
      intro r2 i h hr hi _ _
      cases r2 with
      | cons => cases hr
      | nil =>
        simp only [List.length_nil] at hi
        simp only [hashFlds]
        rw [if_neg (by omega)]
        exact ⟨h, rfl, rfl⟩
    | cons f r1 ihr =>
      intro r2 i h hr hi ha hb
      cases r2 with
      | nil => cases hr
      | cons g r2 =>
        obtain ⟨f, t⟩ := f
        obtain ⟨g, u⟩ := g
        simp only [List.length_cons] at hi hr
        have hlt : i < xs.length := by omega
        have hfi : fs1[i]? = some (f, t) := by have := ha 0; simpa using this.symm
        have hgi : fs2[i]? = some (g, u) := by have := hb 0; simpa using this.symm
        obtain ⟨c1, t1, p1, p2, p3, p4⟩ := k1.kid i _ (List.getElem?_eq_getElem hlt)
        obtain ⟨c2, t2, q1, q2, q3, q4⟩ := k2.kid i _ (List.getElem?_eq_getElem hlt)
        have e1 : t1 = t := by simp [tyAt, hfi] at p2; exact p2.symm
        have e2 : t2 = u := by simp [tyAt, hgi] at q2; exact q2.symm
        subst e1; subst e2
        obtain ⟨h', z1, z2⟩ := ih i f t1 g t2 hfi hgi p3 q3 p4 q4 h
        obtain ⟨h'', z3, z4⟩ := ihr r2 (i + 1) h' (by omega) (by omega)
          (fun j => by have := ha (j + 1); simp only [List.getElem?_cons_succ] at this; rw [this]; congr 1; omega)
          (fun j => by have := hb (j + 1); simp only [List.getElem?_cons_succ] at this; rw [this]; congr 1; omega)
        refine ⟨h'', ?_, ?_⟩
        · simp only [hashFlds, if_pos hlt, p1, Option.bind_eq_bind, Option.bind_some]; exact hash_step z1 z3
        · simp only [hashFlds, if_pos hlt, q1, Option.bind_eq_bind, Option.bind_some]; exact hash_step z2 z4
  | arrs g1 g2 c1' c2' _ ih =>
    intro o1 o2 v1 v2 s m1 m2 h
    refine hnull m1 m2 h (fun n1 n2 => ?_)
    obtain ⟨xs, rfl, k1⟩ := kids o1 rfl n1 m1
    obtain ⟨ys, e, k2⟩ := kids o2 rfl n2 m2
    cases e
    simp only [hashDatum, n1, n2, k1.count, k2.count, Bool.false_eq_true, if_false, Option.bind_eq_bind, Option.bind_some]
    suffices hloop : ∀ (k i : Nat) (h : σ), i + k = xs.length →
        ∃ h', hashLoop (fun h _ x => hashDatum upd h c1' x) (.arr g1 c1') v1 k i h = some h' ∧
          hashLoop (fun h _ x => hashDatum upd h c2' x) (.arr g2 c2') v2 k i h = some h' by
      exact hloop xs.length 0 h (by simp)
    intro k
    induction k with
    | zero => intro i h _; exact ⟨h, rfl, rfl⟩
    | succ k ihr =>
      intro i h hi
      have hlt : i < xs.length := by omega
      obtain ⟨c1, t1, p1, p2, p3, p4⟩ := k1.kid i _ (List.getElem?_eq_getElem hlt)
      obtain ⟨c2, t2, q1, q2, q3, q4⟩ := k2.kid i _ (List.getElem?_eq_getElem hlt)
      have e1 : t1 = c1' := by simp [tyAt] at p2; exact p2.symm
      have e2 : t2 = c2' := by simp [tyAt] at q2; exact q2.symm
      subst e1; subst e2
      obtain ⟨h', z1, z2⟩ := ih p3 q3 p4 q4 h
      obtain ⟨h'', z3, z4⟩ := ihr (i + 1) h' (by omega)
      refine ⟨h'', ?_, ?_⟩
      · simp only [hashLoop, p1, Option.bind_eq_bind, Option.bind_some]; exact hash_step z1 z3
      · simp only [hashLoop, q1, Option.bind_eq_bind, Option.bind_some]; exact hash_step z2 z4

end
end Dti
end TS
