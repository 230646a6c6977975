import Verif.TypeNorm
/-
Deserialising what was serialised.
-/
namespace TS

theorem takeWhile_append_of_all {b r : Bytes} (h : ∀ x ∈ b, x ≠ 0) : strn (b ++ r) = b ++ strn r := by
  unfold strn
  exact List.takeWhile_append_of_pos (by simpa using h)

theorem strn_all {b : Bytes} (h : ∀ x ∈ b, x ≠ 0) : strn b = b := by
  have := takeWhile_append_of_all (r := []) h
  simpa [strn] using this

theorem serName_length (n : Bytes) : (serName n).length = nameBytes n := by
  unfold serName nameBytes
  have := cname_length n
  simp; omega

theorem nameBytes_pos (n : Bytes) : 1 ≤ nameBytes n := by unfold nameBytes; omega

theorem deserName_serName (nm rest : Bytes) (n : Nat) (hn : nameBytes nm ≤ n) :
    deserName (serName nm ++ rest) n = some (some (cname nm, nameBytes nm)) := by
  have hl := cname_length nm
  have hz : ∀ x ∈ cname nm, x ≠ 0 := fun x hx => strn_nonzero hx
  unfold nameBytes at hn ⊢
  by_cases h64 : (cname nm).length = 64
  · have hs : serName nm = cname nm := by
      unfold serName
      rw [List.take_append_of_le_length (by omega), List.take_of_length_le (by omega)]
    have hmin : min 64 n = 64 := by omega
    have htk : (cname nm ++ rest).take 64 = cname nm := by
      rw [List.take_append_of_le_length (by omega), List.take_of_length_le (by omega)]
    unfold deserName strnlen
    rw [hs, hmin, htk, strn_all hz]
    simp only [h64, Nat.lt_irrefl, false_and, if_false, Option.bind_eq_bind, Option.bind_some, ne_eq,
      not_true_eq_false, htk]
    rfl
  · have hs : serName nm = cname nm ++ [0] := by
      unfold serName
      rw [List.take_of_length_le (by simp; omega)]
    have hmin : (cname nm).length + 1 ≤ min 64 n := by omega
    have htk : strn ((cname nm ++ [0] ++ rest).take (min 64 n)) = cname nm := by
      rw [List.append_assoc, List.take_append, List.take_of_length_le (by omega), takeWhile_append_of_all hz]
      have : ∃ k, min 64 n - (cname nm).length = k + 1 := ⟨min 64 n - (cname nm).length - 1, by omega⟩
      obtain ⟨k, hk⟩ := this
      rw [hk]
      simp [strn]
    have hget : (cname nm ++ [0] ++ rest)[(cname nm).length]? = some 0 := by simp
    have htake : (cname nm ++ [0] ++ rest).take (cname nm).length = cname nm := by simp
    unfold deserName strnlen
    rw [hs]
    simp only [htk]
    rw [if_neg (by simp)]
    simp only [Option.bind_eq_bind, Option.bind_some, hget, htake]
    rw [if_pos h64, if_pos (by omega)]
    simp
    omega

theorem wsub_eq {a b : Nat} (h : b ≤ a) (ha : a < 4294967296) : wsub a b = a - b := by
  unfold wsub w32
  rw [Nat.mod_eq_of_lt (show b < 4294967296 by omega)]
  omega

namespace Dti

/-- All members of the type that are written as 4 byte numbers are 32 bit numbers (as they are
in C). -/
def U32 : Dti → Prop
  | .prim _ _ => True
  | .str _ h => h.count < 4294967296 ∧ h.maxSize < 4294967296
  | .tup h fs => h.count < 4294967296 ∧ h.maxSize < 4294967296 ∧ U32All fs
  | .arr h c => h.count < 4294967296 ∧ h.maxSize < 4294967296 ∧ U32 c
where U32All : List (Fld × Dti) → Prop
  | [] => True
  | (_, t) :: r => U32 t ∧ U32All r

theorem num4_eq {x n b : Nat} {m pre rest : Bytes} (hx : x < 4294967296) (hm : m = pre ++ (leEnc 4 x ++ rest))
    (hb : pre.length = b) (hn : b + 4 ≤ n) : num4 m n b = some (some x) := by
  unfold num4
  rw [if_neg (by omega)]
  have hle : b + 4 ≤ m.length := by rw [hm]; simp; omega
  rw [load_eq hle]
  have : rd m b 4 = leEnc 4 x := by
    unfold rd
    rw [hm, ← hb]
    simp
  simp only [this, Option.bind_eq_bind, Option.bind_some, leDec_leEnc]
  rw [Nat.mod_eq_of_lt (by omega)]
  rfl

theorem finishName_eq {d : Dti} {m pre nm rest : Bytes} {b n : Nat} (hm : m = pre ++ (serName nm ++ rest))
    (hb : pre.length = b) (hn : n = m.length) (h32 : n < 4294967296) :
    finishName d m n b = some (some (withName d (cname nm))) := by
  have hlen : n = b + (nameBytes nm + rest.length) := by
    rw [hn, hm]; simp [serName_length]; omega
  unfold finishName
  have hd : m.drop b = serName nm ++ rest := by rw [hm, ← hb]; simp
  rw [hd, wsub_eq (by omega) h32, deserName_serName nm rest _ (by omega)]
  rfl

mutual
/-- Every node is finalised and float types have a legal size. -/
def Done : Dti → Prop
  | .prim k h => h.isFinal = true ∧ (k = .float → h.size = 4 ∨ h.size = 8)
  | .str _ h => h.isFinal = true
  | .tup h fs => h.isFinal = true ∧ DoneAll fs
  | .arr h c => h.isFinal = true ∧ Done c
def DoneAll : List (Fld × Dti) → Prop
  | [] => True
  | (_, t) :: r => Done t ∧ DoneAll r
end

theorem doneAll_iff (fs : List (Fld × Dti)) : DoneAll fs ↔ ∀ f t, (f, t) ∈ fs → Done t := by
  induction fs with
  | nil => simp [DoneAll]
  | cons p r ih =>
    obtain ⟨f, t⟩ := p
    simp only [DoneAll, ih, List.mem_cons]
    constructor
    · intro h f' t' hm
      rcases hm with hm | hm
      · cases hm; exact h.1
      · exact h.2 _ _ hm
    · intro h
      exact ⟨h f t (.inl rfl), fun f' t' hm => h f' t' (.inr hm)⟩

/-- Names and types of fields survive the assignment of their places. -/
theorem assignBits_names (gs : List (Fld × Dti)) (b : Nat) :
    (assignBits b gs).1.map (fun p => (p.1.name, p.2)) = gs.map (fun p => (p.1.name, p.2)) := by
  induction gs generalizing b with
  | nil => rfl
  | cons p r ih =>
    obtain ⟨f, t⟩ := p
    simp only [assignBits, List.map_cons, ih]
    cases t.isBit <;> cases t.needsValid <;> simp

theorem assignOffs_names (w : Nat) (gs : List (Fld × Dti)) (s : Nat) :
    (assignOffs w s gs).1.map (fun p => (p.1.name, p.2)) = gs.map (fun p => (p.1.name, p.2)) := by
  induction gs generalizing s with
  | nil => rfl
  | cons p r ih =>
    obtain ⟨f, t⟩ := p
    simp only [assignOffs]
    split
    · simp [ih]
    · simp [ih]

theorem tupOffs_names (h : Hdr) (gs : List (Fld × Dti)) :
    (tupOffs h gs).1.map (fun p => (p.1.name, p.2)) = gs.map (fun p => (p.1.name, p.2)) := by
  unfold tupOffs
  rw [assignOffs_names, assignBits_names]

theorem serAll_names {fs gs : List (Fld × Dti)}
    (h : fs.map (fun p => (p.1.name, p.2)) = gs.map (fun p => (p.1.name, p.2))) : serAll fs = serAll gs := by
  induction fs generalizing gs with
  | nil => cases gs with
    | nil => rfl
    | cons => simp at h
  | cons p r ih =>
    cases gs with
    | nil => simp at h
    | cons q s =>
      obtain ⟨f, t⟩ := p
      obtain ⟨g, u⟩ := q
      simp only [List.map_cons, List.cons.injEq, Prod.mk.injEq] at h
      obtain ⟨⟨h1, h2⟩, h3⟩ := h
      simp only [serAll, h1, h2, ih h3]

theorem U32All_iff (fs : List (Fld × Dti)) : U32.U32All fs ↔ ∀ f t, (f, t) ∈ fs → U32 t := by
  induction fs with
  | nil => simp [U32.U32All]
  | cons p r ih =>
    obtain ⟨f, t⟩ := p
    simp only [U32.U32All, ih, List.mem_cons]
    constructor
    · intro h f' t' hm
      rcases hm with hm | hm
      · cases hm; exact h.1
      · exact h.2 _ _ hm
    · intro h
      exact ⟨h f t (.inl rfl), fun f' t' hm => h f' t' (.inr hm)⟩

theorem mem_names {fs gs : List (Fld × Dti)}
    (h : fs.map (fun p => (p.1.name, p.2)) = gs.map (fun p => (p.1.name, p.2))) {f : Fld} {t : Dti}
    (hm : (f, t) ∈ fs) : ∃ g, (g, t) ∈ gs := by
  have : (f.name, t) ∈ fs.map (fun p => (p.1.name, p.2)) := List.mem_map.mpr ⟨_, hm, rfl⟩
  rw [h] at this
  obtain ⟨⟨g, u⟩, hg, he⟩ := List.mem_map.mp this
  simp only [Prod.mk.injEq] at he
  exact ⟨g, he.2 ▸ hg⟩

theorem Made.done {d : Dti} (h : Made d) : Done d := by
  induction h with
  | prim hf =>
    obtain ⟨rfl, _, _, _, _, hq⟩ := finPrim_eq hf
    exact ⟨rfl, hq⟩
  | str h => rw [(finStr_eq h).1]; exact rfl
  | @tup h gs d' _ _ _ hf ih =>
    rw [finTup_eq hf]
    refine ⟨rfl, ?_⟩
    rw [doneAll_iff]
    intro f t hm
    obtain ⟨g, hg⟩ := mem_names (tupOffs_names h gs) hm
    exact ih g t hg
  | arr _ hf ih => rw [(finArr_iff.mp hf).2.2]; exact ⟨rfl, ih⟩

mutual
theorem bytesOf_eq : ∀ d, Done d → bytesOf d = some (ser d).length
  | .prim k h, hd => by
    simp only [bytesOf, ser, serPrim, List.length_append, serName_length, Option.some.injEq]
    cases k with
    | float =>
      obtain ⟨_, hd⟩ := hd
      simp only [primCode]
      generalize isNullable (.prim .float h) = nl
      rcases hd rfl with hs | hs <;> cases nl <;> simp [hs]
    | _ =>
      simp [primCode]; omega
  | .str b h, _ => by
    simp only [bytesOf, ser, serStr, List.length_append, serName_length, Option.some.injEq]
    cases h.isVar <;> simp <;> omega
  | .tup h fs, hd => by
    simp only [bytesOf, ser, serTup, List.length_append, serName_length, hd.1]
    rw [bytesOfAll_eq fs hd.2]
    cases h.isVar <;> simp <;> omega
  | .arr h c, hd => by
    simp only [bytesOf, ser, serArr, List.length_append, serName_length]
    rw [bytesOf_eq c hd.2]
    cases h.isVar <;> cases h.varCount <;> simp <;> omega
theorem bytesOfAll_eq : ∀ fs, DoneAll fs → bytesOfAll fs = some (serAll fs).length
  | [], _ => rfl
  | (f, t) :: r, hd => by
    simp only [bytesOfAll, serAll, List.length_append, serName_length]
    rw [bytesOf_eq t hd.1, bytesOfAll_eq r hd.2]
    simp; omega
end

mutual
theorem done_norm (kn : Bool) : ∀ d, Done (norm kn d) ↔ Done d
  | .prim k h => by simp [norm, Done, nHdr]
  | .str b h => by simp [norm, Done, nHdr]
  | .tup h fs => by simp [norm, Done, nHdr, doneAll_norm kn fs]
  | .arr h c => by simp [norm, Done, nHdr, done_norm kn c]
theorem doneAll_norm (kn : Bool) : ∀ fs, DoneAll (normAll kn fs) ↔ DoneAll fs
  | [] => Iff.rfl
  | (f, t) :: r => by simp [normAll, DoneAll, done_norm kn t, doneAll_norm kn r]
end

theorem Done.final {d : Dti} (h : Done d) : d.hdr.isFinal = true := by
  cases d with
  | prim k g => exact h.1
  | str b g => exact h
  | tup g fs => exact h.1
  | arr g c => exact h.1

/-- The result of reading back a type: not finalised yet, finalising it gives the type that was
written. -/
def Back (d e : Dti) : Prop := ∃ e', finalize e = some e' ∧ norm true e' = norm true d

theorem deserF_succ (f : Nat) {m : Bytes} {n : Nat} {c : UInt8} (hm : m[0]? = some c) (hn : 1 ≤ n) :
    deserF (f + 1) m n = deserBody (deserF f) c.toNat m n := by
  conv => lhs; unfold deserF
  rw [if_neg (by omega), hm]
  rfl

theorem prim_float_none {x : Nat} (h : 120 ≤ x) : primOf x = none ∧ floatOf x = none := by
  unfold primOf floatOf
  constructor <;> (split <;> first | omega | rfl)

section
attribute [local irreducible] finishName deserTup deserArr num4
variable (rec : Bytes → Nat → Option (Option Dti)) {m : Bytes} {n c : Nat}

theorem deserBody_prim {s : UInt8} (hn : 2 ≤ n)
    (hs : m[1]? = some s) {k : PKind} {nl : Bool} {mx : Nat} (hp : primOf c = some (k, nl, mx))
    (h1 : 1 ≤ s.toNat) (h2 : s.toNat ≤ mx) :
    deserBody rec c m n = finishName (.prim k { nullable := nl, size := s.toNat }) m n 2 := by
  unfold deserBody
  have h3 : ¬ s.toNat < 1 := by omega
  have h4 : ¬ mx < s.toNat := by omega
  rw [hp, if_pos (by simp [hn]), hs]
  simp only [Option.bind_eq_bind, Option.bind_some, h3, h4, decide_false, Bool.or_self, Bool.false_eq_true, if_false]

theorem deserBody_float {d : Dti} (hp : primOf c = none) (hf : floatOf c = some d) :
    deserBody rec c m n = finishName d m n 1 := by
  unfold deserBody
  rw [hp, if_neg (by simp), hf, if_pos (by simp), Option.bind_eq_bind, Option.bind_some]

theorem deserBody_str (h1 : 120 ≤ c) (h2 : c ≤ 125) {x : Nat} (hx : num4 m n 1 = some (some x)) :
    deserBody rec c m n =
      if c = 122 ∨ c = 125 then finishName (.str (decide (123 ≤ c)) { maxSize := x, varCount := true }) m n 5
      else finishName (.str (decide (123 ≤ c)) { nullable := decide (c = 120 ∨ c = 123), size := x, count := x }) m n 5 := by
  obtain ⟨p1, p2⟩ := prim_float_none h1
  unfold deserBody
  rw [p1, p2, if_neg (by simp), if_neg (by simp), if_pos (by simp [h1, h2]), hx, Option.bind_eq_bind, Option.bind_some]
  simp only [Bool.or_eq_true, decide_eq_true_eq]

theorem deserBody_tup (h : c = 126 ∨ c = 127) {x : Nat} (hx : num4 m n 1 = some (some x)) :
    deserBody rec c m n = deserTup rec { nullable := decide (c = 126), count := x } m n 5 := by
  obtain ⟨p1, p2⟩ := prim_float_none (x := c) (by omega)
  unfold deserBody
  rw [p1, p2, if_neg (by simp), if_neg (by simp), if_neg (by simp; omega), if_pos (by simp; omega), hx,
    Option.bind_eq_bind, Option.bind_some]

theorem deserBody_vtup (h : c = 128) {x y : Nat} (hx : num4 m n 1 = some (some x)) (hy : num4 m n 5 = some (some y)) :
    deserBody rec c m n = deserTup rec { nullable := true, maxSize := y, count := x } m n 9 := by
  obtain ⟨p1, p2⟩ := prim_float_none (x := c) (by omega)
  unfold deserBody
  rw [p1, p2, if_neg (by simp), if_neg (by simp), if_neg (by simp; omega), if_neg (by simp; omega), if_pos h, hx,
    Option.bind_eq_bind, Option.bind_some]
  dsimp only
  rw [hy, Option.bind_some]

theorem deserBody_arr (h : c = 129 ∨ c = 130) {x : Nat} (hx : num4 m n 1 = some (some x)) :
    deserBody rec c m n = deserArr rec { nullable := decide (c = 129), count := x } m n 5 := by
  obtain ⟨p1, p2⟩ := prim_float_none (x := c) (by omega)
  unfold deserBody
  rw [p1, p2, if_neg (by simp), if_neg (by simp), if_neg (by simp; omega), if_neg (by simp; omega), if_neg (by omega),
    if_pos (by simp; omega), hx, Option.bind_eq_bind, Option.bind_some]

theorem deserBody_varr (h : c = 131) {x y : Nat} (hx : num4 m n 1 = some (some x)) (hy : num4 m n 5 = some (some y)) :
    deserBody rec c m n = deserArr rec { nullable := true, maxSize := y, count := x } m n 9 := by
  obtain ⟨p1, p2⟩ := prim_float_none (x := c) (by omega)
  unfold deserBody
  rw [p1, p2, if_neg (by simp), if_neg (by simp), if_neg (by simp; omega), if_neg (by simp; omega), if_neg (by omega),
    if_neg (by simp; omega), if_pos h, hx, Option.bind_eq_bind, Option.bind_some]
  dsimp only
  rw [hy, Option.bind_some]

theorem deserBody_carr (h : c = 132) {x : Nat} (hx : num4 m n 1 = some (some x)) :
    deserBody rec c m n = deserArr rec { maxSize := x, varCount := true } m n 5 := by
  obtain ⟨p1, p2⟩ := prim_float_none (x := c) (by omega)
  unfold deserBody
  rw [p1, p2, if_neg (by simp), if_neg (by simp), if_neg (by simp; omega), if_neg (by simp; omega), if_neg (by omega),
    if_neg (by simp; omega), if_neg (by omega), if_pos h, hx, Option.bind_eq_bind, Option.bind_some]

end

theorem deserF_prim {k : PKind} {h : Hdr} {d : Dti} (hf : finPrim k h = some d) (f : Nat)
    (rest : Bytes) (hl : (ser d ++ rest).length < 4294967296) :
    ∃ e, deserF (f + 1) (ser d ++ rest) (ser d ++ rest).length = some (some e) ∧ Back d e := by
  obtain ⟨hd, h1, h2, h3, h4, h5⟩ := finPrim_eq hf
  obtain ⟨g, hd, g1, g2, g3, g4, g5⟩ : ∃ g : Hdr, d = .prim k g ∧ g.isVar = false ∧
      g.isFinal = true ∧ g.size = h.size ∧ g.nullable = h.nullable ∧ g.name = h.name := ⟨_, hd, rfl, rfl, rfl, rfl, rfl⟩
  subst hd
  have hnl : isNullable (.prim k g) = h.nullable := by
    simp [isNullable, isVar, hdr, g1, g4]
  have hback : ∀ st, Back (.prim k g)
      (.prim k { name := cname h.name, isStatic := st, nullable := h.nullable, size := h.size }) := by
    intro st
    refine ⟨.prim k { name := cname h.name, isStatic := st, nullable := h.nullable, size := h.size, isFinal := true }, ?_, ?_⟩
    · have : finPrim k { name := cname h.name, isStatic := st, nullable := h.nullable, size := h.size } =
          some (.prim k { name := cname h.name, isStatic := st, nullable := h.nullable, size := h.size, isFinal := true }) := by
        cases k <;> simp [finPrim] <;> simp at h2 h3 h4 h5 <;> omega
      simp [finalize, this]
    · simp [norm, nHdr, cname_cname, *]
  by_cases hk : k = .float
  · subst hk
    obtain ⟨cb, hcb, hfl⟩ : ∃ cb : UInt8, serPrim .float g = [cb] ∧
        primOf cb.toNat = none ∧ floatOf cb.toNat = some (.prim .float { nullable := h.nullable, size := h.size }) := by
      unfold serPrim
      rw [hnl, g3]
      rcases h5 rfl with h5 | h5 <;> cases h.nullable <;> rw [h5]
      · exact ⟨9, rfl, rfl, rfl⟩
      · exact ⟨6, rfl, rfl, rfl⟩
      · exact ⟨10, rfl, rfl, rfl⟩
      · exact ⟨7, rfl, rfl, rfl⟩
    have hm : ser (.prim .float g) ++ rest = cb :: (serName h.name ++ rest) := by
      simp [ser, hcb, g5]
    rw [hm] at hl ⊢
    have hfin := finishName_eq (d := .prim .float { nullable := h.nullable, size := h.size })
      (m := cb :: (serName h.name ++ rest)) (b := 1) (pre := [cb]) (nm := h.name) (rest := rest) (by simp) (by simp) rfl hl
    refine ⟨_, ?_, hback (decide (cname (cname h.name) = [] ∧ h.size ≠ 0))⟩
    rw [deserF_succ f rfl (by simp), deserBody_float _ hfl.1 hfl.2, hfin, withName]
  · obtain ⟨cb, hcb, mx, hpo, hmx⟩ : ∃ cb : UInt8, serPrim k g =
        [cb, UInt8.ofNat h.size] ∧ ∃ mx, primOf cb.toNat = some (k, h.nullable, mx) ∧ h.size ≤ mx := by
      unfold serPrim
      rw [hnl, g3]
      cases k with
      | float => exact absurd rfl hk
      | bitField => cases h.nullable
                    · exact ⟨1, rfl, 64, rfl, h2⟩
                    · exact ⟨0, rfl, 64, rfl, h2⟩
      | uint => cases h.nullable
                · exact ⟨3, rfl, 8, rfl, h4 (by simp)⟩
                · exact ⟨2, rfl, 8, rfl, h4 (by simp)⟩
      | int => cases h.nullable
               · exact ⟨5, rfl, 8, rfl, h4 (by simp)⟩
               · exact ⟨4, rfl, 8, rfl, h4 (by simp)⟩
      | largeUint => cases h.nullable
                     · exact ⟨13, rfl, 32, rfl, h3 (by simp)⟩
                     · exact ⟨12, rfl, 32, rfl, h3 (by simp)⟩
      | largeInt => cases h.nullable
                    · exact ⟨15, rfl, 32, rfl, h3 (by simp)⟩
                    · exact ⟨14, rfl, 32, rfl, h3 (by simp)⟩
    have hm : ser (.prim k g) ++ rest = cb :: UInt8.ofNat h.size :: (serName h.name ++ rest) := by
      simp [ser, hcb, g5]
    rw [hm] at hl ⊢
    have hfin := finishName_eq (d := .prim k { nullable := h.nullable, size := h.size })
      (m := cb :: UInt8.ofNat h.size :: (serName h.name ++ rest)) (b := 2) (pre := [cb, UInt8.ofNat h.size])
      (nm := h.name) (rest := rest) (by simp) (by simp) rfl hl
    refine ⟨_, ?_, hback (decide (cname (cname h.name) = [] ∧ h.size ≠ 0))⟩
    have hsz : (UInt8.ofNat h.size).toNat = h.size := by
      rw [UInt8.toNat_ofNat']; omega
    rw [deserF_succ f rfl (by simp), deserBody_prim _ (by simp) rfl hpo (by omega) (by omega), hsz, hfin, withName]

theorem num4_at {x n : Nat} (pre rest : Bytes) (hx : x < 4294967296) 
    (hn : n = (pre ++ (leEnc 4 x ++ rest)).length) : num4 (pre ++ (leEnc 4 x ++ rest)) n pre.length = some (some x) := by
  refine num4_eq hx rfl rfl ?_
  rw [hn]; simp

theorem num4_at1 {x n : Nat} (c : UInt8) (rest : Bytes) (hx : x < 4294967296) 
    (hn : n = (c :: (leEnc 4 x ++ rest)).length) : num4 (c :: (leEnc 4 x ++ rest)) n 1 = some (some x) :=
  num4_at [c] rest hx hn

theorem deserF_str {b : Bool} {h : Hdr} {d : Dti} (hf : finStr b h = some d) (hu : U32 d) (f : Nat)
    (rest : Bytes) (hl : (ser d ++ rest).length < 4294967296) :
    ∃ e, deserF (f + 1) (ser d ++ rest) (ser d ++ rest).length = some (some e) ∧ Back d e := by
  obtain ⟨hd, h1, h2⟩ := finStr_eq hf
  obtain ⟨g, hd, g1, g2, g3, g4, g5, g6, g7, g8⟩ : ∃ g : Hdr, d = .str b g ∧ g.isVar = h.varCount ∧ g.varCount = h.varCount ∧
      g.isFinal = true ∧ g.size = (if h.varCount then vsz h.maxSize else h.count) ∧ g.count = h.count ∧ g.maxSize = h.maxSize ∧
      g.nullable = h.nullable ∧ g.name = h.name := ⟨_, hd, rfl, rfl, rfl, rfl, rfl, rfl, rfl, rfl⟩
  subst hd
  obtain ⟨hu1, hu2⟩ := hu
  rw [g5] at hu1
  rw [g6] at hu2
  cases hv : h.varCount with
  | true =>
    rw [hv] at g1 g2 g4
    have hback : Back (.str b g) (.str b { maxSize := h.maxSize, varCount := true, name := cname h.name }) := by
      refine ⟨.str b { maxSize := h.maxSize, varCount := true, name := cname h.name, isVar := true, isFinal := true, size := vsz h.maxSize }, ?_, ?_⟩
      · have := h2 hv
        simp [finalize, finStr]; omega
      · simp [norm, nHdr, cname_cname, *]
    obtain ⟨cb, hcb⟩ : ∃ cb : UInt8, cb = if b then 125 else 122 := ⟨_, rfl⟩
    have hm : ser (.str b g) ++ rest = cb :: (leEnc 4 h.maxSize ++ (serName h.name ++ rest)) := by
      simp [ser, serStr, *]
    rw [hm] at hl ⊢
    have hfin := finishName_eq (d := .str b { maxSize := h.maxSize, varCount := true })
      (m := cb :: (leEnc 4 h.maxSize ++ (serName h.name ++ rest))) (b := 5)
      (pre := cb :: leEnc 4 h.maxSize) (nm := h.name) (rest := rest) (by simp) (by simp) rfl hl
    have hnum := num4_at1 cb (serName h.name ++ rest) hu2 rfl
    refine ⟨_, ?_, hback⟩
    have hc : cb.toNat = if b then 125 else 122 := by rw [hcb]; cases b <;> rfl
    rw [deserF_succ f rfl (by simp), deserBody_str _ (by rw [hc]; cases b <;> simp) (by rw [hc]; cases b <;> simp) hnum]
    rw [if_pos (by rw [hc]; cases b <;> simp)]
    have hb : decide (123 ≤ cb.toNat) = b := by rw [hc]; cases b <;> rfl
    rw [hb, hfin]
    rfl
  | false =>
    rw [hv] at g1 g2 g4
    simp only [Bool.false_eq_true, if_false] at g4
    have hback : Back (.str b g) (.str b { nullable := h.nullable, size := h.count, count := h.count, name := cname h.name }) := by
      refine ⟨.str b { nullable := h.nullable, size := h.count, count := h.count, name := cname h.name, isFinal := true }, ?_, ?_⟩
      · have := h1 hv
        simp [finalize, finStr]; omega
      · simp [norm, nHdr, cname_cname, *]
    obtain ⟨cb, hcb⟩ : ∃ cb : UInt8, cb = if h.nullable then (if b then 123 else 120) else (if b then 124 else 121) := ⟨_, rfl⟩
    have hm : ser (.str b g) ++ rest = cb :: (leEnc 4 h.count ++ (serName h.name ++ rest)) := by
      simp [ser, serStr, *]
    rw [hm] at hl ⊢
    have hfin := finishName_eq (d := .str b { nullable := h.nullable, size := h.count, count := h.count })
      (m := cb :: (leEnc 4 h.count ++ (serName h.name ++ rest))) (b := 5)
      (pre := cb :: leEnc 4 h.count) (nm := h.name) (rest := rest) (by simp) (by simp) rfl hl
    have hnum := num4_at1 cb (serName h.name ++ rest) hu1 rfl
    refine ⟨_, ?_, hback⟩
    have hc : cb.toNat = if h.nullable then (if b then 123 else 120) else (if b then 124 else 121) := by
      rw [hcb]; cases b <;> cases h.nullable <;> rfl
    rw [deserF_succ f rfl (by simp), deserBody_str _ (by rw [hc]; cases b <;> cases h.nullable <;> simp)
      (by rw [hc]; cases b <;> cases h.nullable <;> simp) hnum]
    rw [if_neg (by rw [hc]; cases b <;> cases h.nullable <;> simp)]
    have hb : decide (123 ≤ cb.toNat) = b := by rw [hc]; cases b <;> cases h.nullable <;> rfl
    have hnl : decide (cb.toNat = 120 ∨ cb.toNat = 123) = h.nullable := by
      rw [hc]; cases b <;> cases h.nullable <;> rfl
    rw [hb, hnl, hfin]
    rfl

/-- Reading the fields of a tuple back. -/
theorem deserFields_ser (rec : Bytes → Nat → Option (Option Dti)) (m : Bytes) (hl : m.length < 4294967296)
    (tail : Bytes) : ∀ (gs : List (Fld × Dti)) (pre : Bytes) (b : Nat), pre.length = b → m = pre ++ (serAll gs ++ tail) →
    (∀ f t, (f, t) ∈ gs → Done t ∧ ∀ rest, (ser t ++ rest).length ≤ m.length →
      ∃ e, rec (ser t ++ rest) (ser t ++ rest).length = some (some e) ∧ Back t e) →
    ∃ es, deserFields rec m m.length gs.length b = some (some es) ∧ All2 (Alike true) gs es ∧
      ∀ f t, (f, t) ∈ es → t.hdr.isFinal = true := by
  intro gs
  induction gs with
  | nil => intro pre b _ _ _; exact ⟨[], rfl, .nil, by simp⟩
  | cons p r ih =>
    obtain ⟨f, t⟩ := p
    intro pre b hb hm hall
    obtain ⟨hdone, hrec⟩ := hall f t (by simp)
    have hml : m.length = b + (nameBytes f.name + ((ser t).length + ((serAll r).length + tail.length))) := by
      rw [hm]; simp [serAll, serName_length]; omega
    have hd1 : m.drop b = serName f.name ++ (ser t ++ (serAll r ++ tail)) := by
      rw [hm, ← hb]; simp [serAll]
    have hd2 : m.drop (b + nameBytes f.name) = ser t ++ (serAll r ++ tail) := by
      rw [← List.drop_drop, hd1, ← serName_length]; simp
    obtain ⟨e, he, e', he', hne⟩ := hrec (serAll r ++ tail) (by simp; omega)
    have hlen2 : (ser t ++ (serAll r ++ tail)).length = m.length - (b + nameBytes f.name) := by
      rw [← hd2]; simp
    have hbc : byteCount e' = some (ser t).length := by
      have : ser e' = ser t := by rw [← ser_norm, hne, ser_norm]
      have hd : Done e' := by rw [← done_norm true, hne, done_norm]; exact hdone
      unfold byteCount
      rw [bytesOf_eq e' hd, this]
      simp only [Option.map_some, Option.some.injEq]
      unfold w32; omega
    obtain ⟨es, hes, ha, hfin⟩ := ih (pre ++ (serName f.name ++ ser t)) (b + nameBytes f.name + (ser t).length)
      (by simp [hb, serName_length]; omega) (by rw [hm]; simp [serAll])
      (fun f t hm => hall f t (List.mem_cons_of_mem _ hm))
    refine ⟨({ name := cname f.name }, e') :: es, ?_, .cons ⟨fun _ => (cname_cname _).symm, hne.symm⟩ ha, ?_⟩
    · simp only [List.length_cons, deserFields]
      rw [wsub_eq (by omega) hl, hd1, deserName_serName _ _ _ (by omega)]
      simp only [Option.bind_eq_bind, Option.bind_some]
      have hw : w32 (b + nameBytes f.name) = b + nameBytes f.name := by unfold w32; omega
      rw [hw, wsub_eq (by omega) hl, hd2, ← hlen2, he]
      simp only [Option.bind_some, he', Option.getD_some, hbc]
      have hw : w32 (b + nameBytes f.name + (ser t).length) = b + nameBytes f.name + (ser t).length := by unfold w32; omega
      rw [hw, hes]
      rfl
    · intro f2 t2 hm2
      rcases List.mem_cons.mp hm2 with hm2 | hm2
      · cases hm2
        rw [← norm_isFinal true, hne, norm_isFinal]
        exact hdone.final
      · exact hfin _ _ hm2

theorem finalizeAll_final : ∀ es : List (Fld × Dti), (∀ f t, (f, t) ∈ es → t.hdr.isFinal = true) →
    finalizeAll es = some es
  | [], _ => rfl
  | (f, t) :: r, h => by
    simp only [finalizeAll, final_finalize (h f t (by simp)),
      finalizeAll_final r (fun f t hm => h f t (List.mem_cons_of_mem _ hm)), Option.bind_eq_bind, Option.bind_some]
    rfl

theorem ser_mem_length {f : Fld} {t : Dti} : ∀ {gs : List (Fld × Dti)}, (f, t) ∈ gs →
    (ser t).length ≤ (serAll gs).length
  | [], h => by cases h
  | (g, u) :: r, h => by
    rcases List.mem_cons.mp h with h | h
    · cases h; simp [serAll]; omega
    · have := ser_mem_length h; simp [serAll]; omega

/-- The TUPLE case with the name and the fields still to be read. -/
theorem deserTup_ser (rec : Bytes → Nat → Option (Option Dti)) {m pre rest : Bytes} {b : Nat} {h g : Hdr}
    {gs : List (Fld × Dti)} {d : Dti} (hl : m.length < 4294967296) (hb : pre.length = b)
    (hm : m = pre ++ (serName h.name ++ (serAll gs ++ rest)))
    (hlen : gs.length = h.count) (hc0 : h.count ≠ 0) (hf : finTup h gs = some d)
    (hgc : g.count = h.count) (hgf : g.isFinal = false)
    (hnl : gs.any (fun p => p.2.isVar) = false → h.nullable = g.nullable)
    (hmx : gs.any (fun p => p.2.isVar) = true → h.maxSize = g.maxSize)
    (hall : ∀ f t, (f, t) ∈ gs → Done t ∧ ∀ rest, (ser t ++ rest).length ≤ m.length →
      ∃ e, rec (ser t ++ rest) (ser t ++ rest).length = some (some e) ∧ Back t e) :
    ∃ e, deserTup rec g m m.length b = some (some e) ∧ Back d e := by
  have hml : m.length = b + (nameBytes h.name + ((serAll gs).length + rest.length)) := by
    rw [hm]; simp [serName_length]; omega
  have hd1 : m.drop b = serName h.name ++ (serAll gs ++ rest) := by rw [hm, ← hb]; simp
  obtain ⟨es, hes, ha, hfin⟩ := deserFields_ser rec m hl rest gs (pre ++ serName h.name) (b + nameBytes h.name)
    (by simp [hb, serName_length]) (by rw [hm]; simp) hall
  obtain ⟨d2, hd2, hn2⟩ := finTup_alike (h2 := { g with name := cname h.name }) ha (cname_cname _).symm hgc.symm hnl hmx hf
  refine ⟨.tup { g with name := cname h.name } es, ?_, d2, ?_, hn2⟩
  · unfold deserTup
    rw [wsub_eq (by omega) hl, hd1, deserName_serName _ _ _ (by omega), Option.bind_eq_bind, Option.bind_some]
    dsimp only
    have hw : w32 (b + nameBytes h.name) = b + nameBytes h.name := by unfold w32; omega
    rw [hw, hgc, ← hlen, hes]
    rfl
  · simp only [finalize, hgf, Bool.false_eq_true, if_false]
    rw [if_neg (by omega), finalizeAll_final es hfin]
    exact hd2

theorem deserArr_ser (rec : Bytes → Nat → Option (Option Dti)) {m pre rest : Bytes} {b : Nat} {h g : Hdr}
    {c : Dti} {d : Dti} (hl : m.length < 4294967296) (hb : pre.length = b)
    (hm : m = pre ++ (serName h.name ++ (ser c ++ rest))) (hf : finArr h c = some d)
    (hgv : h.varCount = g.varCount) (hgc : h.varCount = false → h.count = g.count) (hgf : g.isFinal = false)
    (hnl : (h.varCount || c.isVar) = false → h.nullable = g.nullable)
    (hmx : (h.varCount || c.isVar) = true → h.maxSize = g.maxSize)
    (hrec : ∀ rest, (ser c ++ rest).length ≤ m.length →
      ∃ e, rec (ser c ++ rest) (ser c ++ rest).length = some (some e) ∧ Back c e) :
    ∃ e, deserArr rec g m m.length b = some (some e) ∧ Back d e := by
  have hml : m.length = b + (nameBytes h.name + ((ser c).length + rest.length)) := by
    rw [hm]; simp [serName_length]; omega
  have hd1 : m.drop b = serName h.name ++ (ser c ++ rest) := by rw [hm, ← hb]; simp
  have hd2 : m.drop (b + nameBytes h.name) = ser c ++ rest := by
    rw [← List.drop_drop, hd1, ← serName_length]; simp
  obtain ⟨e, he, e', he', hne⟩ := hrec rest (by simp; omega)
  have hlen2 : (ser c ++ rest).length = m.length - (b + nameBytes h.name) := by rw [← hd2]; simp
  obtain ⟨d2, hd2', hn2⟩ := finArr_alike (h2 := { g with name := cname h.name }) (c2 := e') hne.symm
    (cname_cname _).symm hgv hgc hnl hmx hf
  refine ⟨.arr { g with name := cname h.name } e, ?_, d2, ?_, hn2⟩
  · unfold deserArr
    rw [wsub_eq (by omega) hl, hd1, deserName_serName _ _ _ (by omega), Option.bind_eq_bind, Option.bind_some]
    dsimp only
    have hw : w32 (b + nameBytes h.name) = b + nameBytes h.name := by unfold w32; omega
    rw [hw, wsub_eq (by omega) hl, hd2, ← hlen2, he]
    rfl
  · simp only [finalize, hgf, Bool.false_eq_true, if_false, he', Option.bind_eq_bind, Option.bind_some]
    exact hd2'

/-- A finalised type is read back from its serialisation, whatever follows it. -/
theorem deserF_ser {d : Dti} (hmade : Made d) : U32 d → ∀ f (rest : Bytes), (ser d).length < f →
    (ser d ++ rest).length < 4294967296 →
    ∃ e, deserF f (ser d ++ rest) (ser d ++ rest).length = some (some e) ∧ Back d e := by
  induction hmade with
  | prim hf =>
    intro _ f rest hfuel hl
    obtain ⟨f, rfl⟩ : ∃ k, f = k + 1 := ⟨f - 1, by omega⟩
    exact deserF_prim hf f rest hl
  | str hf =>
    intro hu f rest hfuel hl
    obtain ⟨f, rfl⟩ : ∃ k, f = k + 1 := ⟨f - 1, by omega⟩
    exact deserF_str hf hu f rest hl
  | @tup h gs d hmade hlen hc0 hf ih =>
    intro hu f rest hfuel hl
    obtain ⟨f, rfl⟩ : ∃ k, f = k + 1 := ⟨f - 1, by omega⟩
    have hd := finTup_eq hf
    obtain ⟨g, hd, g1, g2, g3, g4, g5⟩ : ∃ g : Hdr, d = .tup g (tupOffs h gs).1 ∧
        g.isVar = gs.any (fun p => p.2.isVar) ∧ g.count = h.count ∧ g.maxSize = h.maxSize ∧
        g.nullable = h.nullable ∧ g.name = h.name := ⟨_, hd, rfl, rfl, rfl, rfl, rfl⟩
    obtain ⟨hu1, hu2, hu3⟩ : g.count < 4294967296 ∧ g.maxSize < 4294967296 ∧ U32.U32All (tupOffs h gs).1 := by
      rw [hd] at hu; exact hu
    rw [g2] at hu1
    rw [g3] at hu2
    have hu4 : ∀ f t, (f, t) ∈ gs → U32 t := by
      intro f t hm
      obtain ⟨f2, hm2⟩ := mem_names (tupOffs_names h gs).symm hm
      exact (U32All_iff _).mp hu3 f2 t hm2
    have hserd : ser d = serTup g ++ (serName h.name ++ serAll gs) := by
      rw [hd]; simp only [ser, g5, serAll_names (tupOffs_names h gs)]
    have hmm : ser d ++ rest = serTup g ++ (serName h.name ++ (serAll gs ++ rest)) := by rw [hserd]; simp
    have hrec : ∀ f' t, (f', t) ∈ gs → Done t ∧ ∀ rest', (ser t ++ rest').length ≤ (ser d ++ rest).length →
        ∃ e, deserF f (ser t ++ rest') (ser t ++ rest').length = some (some e) ∧ Back t e := by
      intro f' t hm
      refine ⟨(hmade f' t hm).done, fun rest' hle => ih f' t hm (hu4 f' t hm) f rest' ?_ (by omega)⟩
      have := ser_mem_length hm
      have hn := nameBytes_pos h.name
      rw [hserd] at hfuel
      simp [serName_length] at hfuel
      omega
    have hnonempty : 1 ≤ (ser d ++ rest).length := by
      rw [hmm]; have := nameBytes_pos h.name; simp [serName_length]; omega
    cases hv : gs.any (fun p => p.2.isVar) with
    | false =>
      rw [hv] at g1
      obtain ⟨cb, hcb⟩ : ∃ cb : UInt8, cb = if h.nullable then 126 else 127 := ⟨_, rfl⟩
      have hst : serTup g = cb :: leEnc 4 h.count := by simp [serTup, *]
      have hc : cb.toNat = if h.nullable then 126 else 127 := by rw [hcb]; cases h.nullable <;> rfl
      have hm0 : (ser d ++ rest)[0]? = some cb := by rw [hmm, hst]; rfl
      have hnum : num4 (ser d ++ rest) (ser d ++ rest).length 1 = some (some h.count) := by
        rw [hmm, hst]; exact num4_at1 cb _ hu1 rfl
      rw [deserF_succ f hm0 hnonempty, deserBody_tup _ (by rw [hc]; cases h.nullable <;> simp) hnum]
      exact deserTup_ser (h := h) _ hl (by rw [hst]; simp) hmm hlen hc0 hf rfl rfl
        (fun _ => by show h.nullable = decide (cb.toNat = 126); rw [hc]; cases h.nullable <;> rfl)
        (fun h => by rw [hv] at h; cases h) hrec
    | true =>
      rw [hv] at g1
      have hst : serTup g = 128 :: (leEnc 4 h.count ++ leEnc 4 h.maxSize) := by simp [serTup, *]
      have hm0 : (ser d ++ rest)[0]? = some 128 := by rw [hmm, hst]; rfl
      have hnum : num4 (ser d ++ rest) (ser d ++ rest).length 1 = some (some h.count) := by
        rw [hmm, hst, List.cons_append, List.append_assoc]; exact num4_at1 128 _ hu1 rfl
      have hnum2 : num4 (ser d ++ rest) (ser d ++ rest).length 5 = some (some h.maxSize) := by
        rw [hmm, hst]
        refine num4_eq (pre := 128 :: leEnc 4 h.count) (rest := serName h.name ++ (serAll gs ++ rest)) hu2 ?_ (by simp) (by simp; omega)
        simp
      rw [deserF_succ f hm0 hnonempty, deserBody_vtup _ (c := UInt8.toNat 128) rfl hnum hnum2]
      exact deserTup_ser (h := h) _ hl (by rw [hst]; simp) hmm hlen hc0 hf rfl rfl
        (fun h => by rw [hv] at h; cases h) (fun _ => rfl) hrec
  | @arr h c d hmade hf ih =>
    intro hu f rest hfuel hl
    obtain ⟨f, rfl⟩ : ∃ k, f = k + 1 := ⟨f - 1, by omega⟩
    have hd := (finArr_iff.mp hf).2.2
    obtain ⟨g, hd, g1, g2, g3, g4, g5, g6⟩ : ∃ g : Hdr, d = .arr g c ∧
        g.isVar = (h.varCount || c.isVar) ∧ g.count = h.count ∧ g.maxSize = h.maxSize ∧
        g.nullable = h.nullable ∧ g.name = h.name ∧ g.varCount = h.varCount := ⟨_, hd, rfl, rfl, rfl, rfl, rfl, rfl⟩
    obtain ⟨hu1, hu2, hu3⟩ : g.count < 4294967296 ∧ g.maxSize < 4294967296 ∧ U32 c := by
      rw [hd] at hu; exact hu
    rw [g2] at hu1
    rw [g3] at hu2
    have hserd : ser d = serArr g ++ (serName h.name ++ ser c) := by
      rw [hd]; simp only [ser, g5]
    have hmm : ser d ++ rest = serArr g ++ (serName h.name ++ (ser c ++ rest)) := by rw [hserd]; simp
    have hrec : ∀ rest', (ser c ++ rest').length ≤ (ser d ++ rest).length →
        ∃ e, deserF f (ser c ++ rest') (ser c ++ rest').length = some (some e) ∧ Back c e := by
      intro rest' hle
      refine ih hu3 f rest' ?_ (by omega)
      have hn := nameBytes_pos h.name
      rw [hserd] at hfuel
      simp [serName_length] at hfuel
      omega
    have hnonempty : 1 ≤ (ser d ++ rest).length := by
      rw [hmm]; have := nameBytes_pos h.name; simp [serName_length]; omega
    cases hv : (h.varCount || c.isVar) with
    | false =>
      rw [hv] at g1
      have hvc : h.varCount = false := by cases h : h.varCount <;> simp_all
      obtain ⟨cb, hcb⟩ : ∃ cb : UInt8, cb = if h.nullable then 129 else 130 := ⟨_, rfl⟩
      have hst : serArr g = cb :: leEnc 4 h.count := by simp [serArr, *]
      have hc : cb.toNat = if h.nullable then 129 else 130 := by rw [hcb]; cases h.nullable <;> rfl
      have hm0 : (ser d ++ rest)[0]? = some cb := by rw [hmm, hst]; rfl
      have hnum : num4 (ser d ++ rest) (ser d ++ rest).length 1 = some (some h.count) := by
        rw [hmm, hst]; exact num4_at1 cb _ hu1 rfl
      rw [deserF_succ f hm0 hnonempty, deserBody_arr _ (by rw [hc]; cases h.nullable <;> simp) hnum]
      exact deserArr_ser (h := h) _ hl (by rw [hst]; simp) hmm hf hvc (fun _ => rfl) rfl
        (fun _ => by show h.nullable = decide (cb.toNat = 129); rw [hc]; cases h.nullable <;> rfl)
        (fun h => by rw [hv] at h; cases h) hrec
    | true =>
      rw [hv] at g1
      cases hvc : h.varCount with
      | false =>
        rw [hvc] at g6
        have hst : serArr g = 131 :: (leEnc 4 h.count ++ leEnc 4 h.maxSize) := by simp [serArr, *]
        have hm0 : (ser d ++ rest)[0]? = some 131 := by rw [hmm, hst]; rfl
        have hnum : num4 (ser d ++ rest) (ser d ++ rest).length 1 = some (some h.count) := by
          rw [hmm, hst, List.cons_append, List.append_assoc]; exact num4_at1 131 _ hu1 rfl
        have hnum2 : num4 (ser d ++ rest) (ser d ++ rest).length 5 = some (some h.maxSize) := by
          rw [hmm, hst]
          refine num4_eq (pre := 131 :: leEnc 4 h.count) (rest := serName h.name ++ (ser c ++ rest)) hu2 ?_ (by simp) (by simp; omega)
          simp
        rw [deserF_succ f hm0 hnonempty, deserBody_varr _ (c := UInt8.toNat 131) rfl hnum hnum2]
        exact deserArr_ser (h := h) _ hl (by rw [hst]; simp) hmm hf hvc (fun _ => rfl) rfl
          (fun h => by rw [hv] at h; cases h) (fun _ => rfl) hrec
      | true =>
        rw [hvc] at g6
        have hst : serArr g = 132 :: leEnc 4 h.maxSize := by simp [serArr, *]
        have hm0 : (ser d ++ rest)[0]? = some 132 := by rw [hmm, hst]; rfl
        have hnum : num4 (ser d ++ rest) (ser d ++ rest).length 1 = some (some h.maxSize) := by
          rw [hmm, hst]; exact num4_at1 132 _ hu2 rfl
        rw [deserF_succ f hm0 hnonempty, deserBody_carr _ (c := UInt8.toNat 132) rfl hnum]
        exact deserArr_ser (h := h) _ hl (by rw [hst]; simp) hmm hf hvc (fun h => by rw [hvc] at h; cases h) rfl
          (fun h => by rw [hv] at h; cases h) (fun _ => rfl) hrec

end Dti
end TS
