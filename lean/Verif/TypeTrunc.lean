import Verif.TypeDeser
/-
Deserialising a truncated serialisation, and deserialising bytes without tuple types.
-/
namespace TS

/-- Reading a name from exactly the bytes given never leaves them. -/
theorem deserName_safe (m : Bytes) : ∃ r, deserName m m.length = some r ∧ ∀ nm l, r = some (nm, l) → l ≤ m.length := by
  have h1 : (strn (m.take (min 64 m.length))).length ≤ min 64 m.length := by
    have := strn_length_le (m.take (min 64 m.length)); simp at this; omega
  unfold deserName strnlen
  generalize (strn (m.take (min 64 m.length))).length = l at *
  rw [if_neg (by omega)]
  simp only [Option.bind_eq_bind, Option.bind_some]
  by_cases h64 : l = 64
  · rw [if_neg (by simpa using h64)]
    exact ⟨_, rfl, by intro nm l' h; cases h; omega⟩
  · rw [if_pos h64]
    by_cases hl : l = m.length
    · rw [if_neg (by simpa using hl)]
      exact ⟨_, rfl, by intro nm l' h; cases h⟩
    · rw [if_pos hl, List.getElem?_eq_getElem (show l < m.length by omega), Option.bind_some]
      split
      · exact ⟨_, rfl, by intro nm l' h; cases h⟩
      · exact ⟨_, rfl, by intro nm l' h; cases h; omega⟩

/-- A name that is cut off is rejected. -/
theorem deserName_trunc {nm m : Bytes} {j : Nat} (hm : m = (serName nm).take j) (hj : j < nameBytes nm) :
    deserName m j = some none := by
  have hl := cname_length nm
  unfold nameBytes at hj
  have hm2 : m = (cname nm).take j := by
    rw [hm]; unfold serName
    rw [List.take_take, List.take_append_of_le_length (by omega)]
    congr 1; omega
  have hz : ∀ x ∈ m, x ≠ 0 := by
    intro x hx
    rw [hm2] at hx
    exact strn_nonzero (List.mem_of_mem_take hx)
  have hlen : m.length = j := by rw [hm2]; simp; omega
  unfold deserName strnlen
  rw [show min 64 j = j by omega, List.take_of_length_le (by omega), strn_all hz, hlen]
  rw [if_neg (by omega)]
  simp only [Option.bind_eq_bind, Option.bind_some]
  rw [if_pos (by omega), if_neg (by simp)]
  rfl

namespace Dti

theorem finishName_safe (d : Dti) {m : Bytes} {b : Nat} (hb : b ≤ m.length) (h32 : m.length < 4294967296) :
    ∃ r, finishName d m m.length b = some r := by
  unfold finishName
  rw [wsub_eq hb h32, show m.length - b = (m.drop b).length by simp]
  obtain ⟨r, hr, _⟩ := deserName_safe (m.drop b)
  rw [hr, Option.bind_eq_bind, Option.bind_some]
  cases r with
  | none => exact ⟨_, rfl⟩
  | some p => exact ⟨_, rfl⟩

theorem num4_safe (m : Bytes) (b : Nat) : num4 m m.length b = some none ∨
    ∃ x, num4 m m.length b = some (some x) ∧ b + 4 ≤ m.length := by
  unfold num4
  by_cases h : b + 4 > m.length
  · rw [if_pos h]; exact .inl rfl
  · rw [if_neg h, load_eq (by omega)]
    exact .inr ⟨_, rfl, by omega⟩

theorem deserArr_safe {rec : Bytes → Nat → Option (Option Dti)} {h : Hdr} {m : Bytes} {b : Nat} (hb : b ≤ m.length)
    (h32 : m.length < 4294967296) (hrec : ∀ j, ∃ r, rec (m.drop j) (m.drop j).length = some r) :
    ∃ r, deserArr rec h m m.length b = some r := by
  unfold deserArr
  rw [wsub_eq hb h32, show m.length - b = (m.drop b).length by simp]
  obtain ⟨r, hr, hl⟩ := deserName_safe (m.drop b)
  rw [hr, Option.bind_eq_bind, Option.bind_some]
  cases r with
  | none => exact ⟨_, rfl⟩
  | some p =>
    obtain ⟨nm, l⟩ := p
    have hl := hl nm l rfl
    simp only [List.length_drop] at hl
    dsimp only
    have hw : w32 (b + l) = b + l := by unfold w32; omega
    rw [hw, wsub_eq (by omega) h32, show m.length - (b + l) = (m.drop (b + l)).length by simp]
    obtain ⟨r, hr⟩ := hrec (b + l)
    rw [hr, Option.bind_eq_bind, Option.bind_some]
    cases r with
    | none => exact ⟨_, rfl⟩
    | some c => exact ⟨_, rfl⟩

/-- A byte is not the code of a tuple type. -/
def NoTup (x : UInt8) : Prop := x.toNat ≠ 126 ∧ x.toNat ≠ 127 ∧ x.toNat ≠ 128

section
attribute [local irreducible] finishName deserTup deserArr num4

theorem deserBody_safe {rec : Bytes → Nat → Option (Option Dti)} {m : Bytes} {c : UInt8} (hc : NoTup c)
    (h1 : 1 ≤ m.length) (h32 : m.length < 4294967296)
    (hrec : ∀ j, ∃ r, rec (m.drop j) (m.drop j).length = some r) :
    ∃ r, deserBody rec c.toNat m m.length = some r := by
  obtain ⟨c1, c2, c3⟩ := hc
  unfold deserBody
  split
  · rename_i h
    simp only [Bool.and_eq_true, decide_eq_true_eq, Option.isSome_iff_exists] at h
    obtain ⟨⟨⟨k, nl, mx⟩, hp⟩, hn⟩ := h
    rw [hp, List.getElem?_eq_getElem (show 1 < m.length by omega), Option.bind_eq_bind, Option.bind_some]
    dsimp only
    rw [Option.bind_eq_bind, Option.bind_some]
    split
    · exact ⟨_, rfl⟩
    · exact finishName_safe _ (by omega) h32
  split
  · rename_i h
    simp only [Option.isSome_iff_exists] at h
    obtain ⟨d, hd⟩ := h
    rw [hd, Option.bind_eq_bind, Option.bind_some]
    exact finishName_safe _ h1 h32
  split
  · rcases num4_safe m 1 with h | ⟨x, h, hx⟩
    · rw [h, Option.bind_eq_bind, Option.bind_some]; exact ⟨_, rfl⟩
    · rw [h, Option.bind_eq_bind, Option.bind_some]
      dsimp only
      split
      · exact finishName_safe _ hx h32
      · exact finishName_safe _ hx h32
  split
  · rename_i h; simp only [Bool.and_eq_true, decide_eq_true_eq] at h; omega
  split
  · rcases num4_safe m 1 with h | ⟨x, h, hx⟩
    · rw [h, Option.bind_eq_bind, Option.bind_some]; exact ⟨_, rfl⟩
    · rw [h, Option.bind_eq_bind, Option.bind_some]
      exact deserArr_safe hx h32 hrec
  split
  · rcases num4_safe m 1 with h | ⟨x, h, hx⟩
    · rw [h, Option.bind_eq_bind, Option.bind_some]; exact ⟨_, rfl⟩
    · rw [h, Option.bind_eq_bind, Option.bind_some]
      dsimp only
      rcases num4_safe m 5 with h | ⟨x, h, hx⟩
      · rw [h, Option.bind_some]; exact ⟨_, rfl⟩
      · rw [h, Option.bind_some]
        exact deserArr_safe hx h32 hrec
  split
  · rcases num4_safe m 1 with h | ⟨x, h, hx⟩
    · rw [h, Option.bind_eq_bind, Option.bind_some]; exact ⟨_, rfl⟩
    · rw [h, Option.bind_eq_bind, Option.bind_some]
      exact deserArr_safe hx h32 hrec
  · exact ⟨_, rfl⟩
end

theorem deserF_safe (f : Nat) : ∀ (m : Bytes), m.length < 4294967296 → (∀ x ∈ m, NoTup x) →
    ∃ r, deserF f m m.length = some r := by
  induction f with
  | zero => intro m _ _; exact ⟨_, rfl⟩
  | succ f ih =>
    intro m h32 hm
    cases m with
    | nil => exact ⟨_, rfl⟩
    | cons c r =>
      rw [deserF_succ f (c := c) rfl (by simp)]
      exact deserBody_safe (hm c (by simp)) (by simp) h32 (fun j => ih _ (by simp at h32 ⊢; omega)
        (fun x hx => hm x (List.mem_of_mem_drop hx)))

/-! ### truncated serialisations -/

theorem drop_take_append {pre s : Bytes} {b k : Nat} (hb : pre.length = b) :
    ((pre ++ s).take k).drop b = s.take (k - b) := by
  rw [List.drop_take, ← hb, List.drop_left]

theorem take_append_ge {pre s : Bytes} {k : Nat} (h : pre.length ≤ k) :
    (pre ++ s).take k = pre ++ s.take (k - pre.length) := by
  rw [List.take_append, List.take_of_length_le h]

theorem finishName_trunc {d : Dti} {m pre nm : Bytes} {b k : Nat} (hm : m = (pre ++ serName nm).take k)
    (hb : pre.length = b) (hbk : b ≤ k) (hk : k < b + nameBytes nm) (h32 : k < 4294967296) :
    finishName d m k b = some none := by
  unfold finishName
  rw [hm, drop_take_append hb, wsub_eq hbk h32, deserName_trunc rfl (by omega)]
  rfl

theorem num4_short {m : Bytes} {n b : Nat} (h : n < b + 4) : num4 m n b = some none := by
  unfold num4; rw [if_pos (by omega)]

theorem deserFields_trunc (rec : Bytes → Nat → Option (Option Dti)) (K : Nat) (h32 : K < 4294967296) :
    ∀ (gs : List (Fld × Dti)) (pre : Bytes) (b : Nat) (m : Bytes), pre.length = b → m = (pre ++ serAll gs).take K →
    b ≤ K → K < b + (serAll gs).length →
    (∀ f t, (f, t) ∈ gs → Done t ∧ (∀ rest, (ser t ++ rest).length < K →
      ∃ e, rec (ser t ++ rest) (ser t ++ rest).length = some (some e) ∧ Back t e) ∧
      (∀ k, k < (ser t).length → k < K → rec ((ser t).take k) k = some none)) →
    deserFields rec m K gs.length b = some none := by
  intro gs
  induction gs with
  | nil => intro pre b m _ _ h1 h2 _; simp [serAll] at h2; omega
  | cons p r ih =>
    obtain ⟨f, t⟩ := p
    intro pre b m hb hm hbK hK hall
    obtain ⟨hdone, hrec, htr⟩ := hall f t (by simp)
    simp only [serAll, List.length_append, serName_length] at hK
    have hpos := nameBytes_pos f.name
    have hd1 : m.drop b = (serName f.name ++ (ser t ++ serAll r)).take (K - b) := by
      rw [hm, drop_take_append hb]; rfl
    simp only [List.length_cons, deserFields]
    rw [wsub_eq hbK h32]
    by_cases h1 : K - b < nameBytes f.name
    · have : m.drop b = (serName f.name).take (K - b) := by
        rw [hd1, List.take_append_of_le_length (by rw [serName_length]; omega)]
      rw [deserName_trunc this h1]
      rfl
    · have hnl := serName_length f.name
      have hd1' : m.drop b = serName f.name ++ (ser t ++ serAll r).take (K - b - nameBytes f.name) := by
        rw [hd1, take_append_ge (by omega), hnl]
      have hd2 : m.drop (b + nameBytes f.name) = (ser t ++ serAll r).take (K - b - nameBytes f.name) := by
        rw [← List.drop_drop, hd1', ← hnl]; simp
      rw [hd1', deserName_serName _ _ _ (by omega)]
      simp only [Option.bind_eq_bind, Option.bind_some]
      have hw : w32 (b + nameBytes f.name) = b + nameBytes f.name := by unfold w32; omega
      rw [hw, wsub_eq (by omega) h32, hd2, ← Nat.sub_sub]
      by_cases h2 : K - b - nameBytes f.name < (ser t).length
      · rw [List.take_append_of_le_length (by omega), htr _ h2 (by omega)]
        rfl
      · rw [take_append_ge (by omega)]
        have hlen : (ser t ++ (serAll r).take (K - b - nameBytes f.name - (ser t).length)).length = K - b - nameBytes f.name := by
          simp; omega
        obtain ⟨e, he, e', he', hne⟩ := hrec ((serAll r).take (K - b - nameBytes f.name - (ser t).length)) (by omega)
        have hbc : byteCount e' = some (ser t).length := by
          have : ser e' = ser t := by rw [← ser_norm, hne, ser_norm]
          have hd : Done e' := by rw [← done_norm true, hne, done_norm]; exact hdone
          unfold byteCount
          rw [bytesOf_eq e' hd, this]
          simp only [Option.map_some, Option.some.injEq]
          unfold w32; omega
        rw [hlen] at he
        rw [he]
        simp only [Option.bind_some, he', Option.getD_some, hbc]
        have hw : w32 (b + nameBytes f.name + (ser t).length) = b + nameBytes f.name + (ser t).length := by unfold w32; omega
        rw [hw, ih (pre ++ (serName f.name ++ ser t)) (b + nameBytes f.name + (ser t).length) m
          (by simp [hb, hnl]; omega) (by rw [hm]; simp [serAll]) (by omega) (by omega)
          (fun f t hm => hall f t (List.mem_cons_of_mem _ hm))]
        rfl

theorem deserTup_trunc (rec : Bytes → Nat → Option (Option Dti)) {K : Nat} (h32 : K < 4294967296) {m pre nm : Bytes}
    {b : Nat} {g : Hdr} {gs : List (Fld × Dti)} (hb : pre.length = b) (hm : m = (pre ++ (serName nm ++ serAll gs)).take K)
    (hlen : gs.length = g.count) (hbK : b ≤ K) (hK : K < b + (nameBytes nm + (serAll gs).length))
    (hall : ∀ f t, (f, t) ∈ gs → Done t ∧ (∀ rest, (ser t ++ rest).length < K →
      ∃ e, rec (ser t ++ rest) (ser t ++ rest).length = some (some e) ∧ Back t e) ∧
      (∀ k, k < (ser t).length → k < K → rec ((ser t).take k) k = some none)) :
    deserTup rec g m K b = some none := by
  unfold deserTup
  have hd1 : m.drop b = (serName nm ++ serAll gs).take (K - b) := by rw [hm, drop_take_append hb]
  have hnl := serName_length nm
  rw [wsub_eq hbK h32]
  by_cases h1 : K - b < nameBytes nm
  · have : m.drop b = (serName nm).take (K - b) := by rw [hd1, List.take_append_of_le_length (by omega)]
    rw [deserName_trunc this h1]
    rfl
  · rw [hd1, take_append_ge (by omega), deserName_serName _ _ _ (by omega), Option.bind_eq_bind, Option.bind_some]
    dsimp only
    have hw : w32 (b + nameBytes nm) = b + nameBytes nm := by unfold w32; omega
    rw [hw, ← hlen, deserFields_trunc rec K h32 gs (pre ++ serName nm) (b + nameBytes nm) m (by simp [hb, hnl])
      (by rw [hm]; simp) (by omega) (by omega) hall]
    rfl

theorem deserArr_trunc (rec : Bytes → Nat → Option (Option Dti)) {K : Nat} (h32 : K < 4294967296) {m pre nm : Bytes}
    {b : Nat} {g : Hdr} {c : Dti} (hb : pre.length = b) (hm : m = (pre ++ (serName nm ++ ser c)).take K)
    (hbK : b ≤ K) (hK : K < b + (nameBytes nm + (ser c).length))
    (htr : ∀ k, k < (ser c).length → k < K → rec ((ser c).take k) k = some none) :
    deserArr rec g m K b = some none := by
  unfold deserArr
  have hpos := nameBytes_pos nm
  have hd1 : m.drop b = (serName nm ++ ser c).take (K - b) := by rw [hm, drop_take_append hb]
  have hnl := serName_length nm
  rw [wsub_eq hbK h32]
  by_cases h1 : K - b < nameBytes nm
  · have : m.drop b = (serName nm).take (K - b) := by rw [hd1, List.take_append_of_le_length (by omega)]
    rw [deserName_trunc this h1]
    rfl
  · have hd2 : m.drop (b + nameBytes nm) = (ser c).take (K - b - nameBytes nm) := by
      rw [← List.drop_drop, hd1, take_append_ge (by omega), ← hnl]; simp
    rw [hd1, take_append_ge (by omega), deserName_serName _ _ _ (by omega), Option.bind_eq_bind, Option.bind_some]
    dsimp only
    have hw : w32 (b + nameBytes nm) = b + nameBytes nm := by unfold w32; omega
    rw [hw, wsub_eq (by omega) h32, hd2, ← Nat.sub_sub, htr _ (by omega) (by omega)]
    rfl

theorem take_zero_get {c : UInt8} {s t : Bytes} {k : Nat} (hk : 1 ≤ k) : ((c :: s ++ t).take k)[0]? = some c := by
  obtain ⟨j, rfl⟩ : ∃ j, k = j + 1 := ⟨k - 1, by omega⟩
  rfl

section
attribute [local irreducible] finishName deserTup deserArr num4
variable (rec : Bytes → Nat → Option (Option Dti)) {m : Bytes} {n c : Nat}

theorem deserBody_prim_short (hn : n < 2) (hc : c < 120)
    (hf : floatOf c = none) : deserBody rec c m n = some none := by
  unfold deserBody
  rw [if_neg (by simp; omega), hf, if_neg (by simp), if_neg (by simp; omega), if_neg (by simp; omega), if_neg (by omega),
    if_neg (by simp; omega), if_neg (by omega), if_neg (by omega)]
  rfl

theorem deserBody_num4_short (h1 : 120 ≤ c) (hx : num4 m n 1 = some none) : deserBody rec c m n = some none := by
  obtain ⟨p1, p2⟩ := prim_float_none h1
  unfold deserBody
  rw [p1, p2, if_neg (by simp), if_neg (by simp), hx]
  simp only [Option.bind_eq_bind, Option.bind_some, Option.pure_def, ite_self]

theorem deserBody_num4_short2 (h : c = 128 ∨ c = 131) {x : Nat} (hx : num4 m n 1 = some (some x)) (hy : num4 m n 5 = some none) :
    deserBody rec c m n = some none := by
  obtain ⟨p1, p2⟩ := prim_float_none (x := c) (by omega)
  unfold deserBody
  rw [p1, p2, if_neg (by simp), if_neg (by simp), if_neg (by simp; omega), if_neg (by simp; omega)]
  rcases h with h | h
  · rw [if_pos h, hx, Option.bind_eq_bind, Option.bind_some]
    dsimp only
    rw [hy, Option.bind_some]
    rfl
  · rw [if_neg (by omega), if_neg (by simp; omega), if_pos h, hx, Option.bind_eq_bind, Option.bind_some]
    dsimp only
    rw [hy, Option.bind_some]
    rfl
end

/-- A cut off serialisation is rejected, without reading beyond the cut. -/
theorem deserF_trunc {d : Dti} (hmade : Made d) : U32 d → ∀ f k, k < f → k < (ser d).length →
    (ser d).length < 4294967296 → deserF f ((ser d).take k) k = some none := by
  induction hmade with
  | @prim kd h d hf =>
    intro _ f k hfuel hk hl
    cases f with
    | zero => rfl
    | succ f =>
    obtain ⟨hd, h1, h2, h3, h4, h5⟩ := finPrim_eq hf
    obtain ⟨g, hd, g1, g3, g4, g5⟩ : ∃ g : Hdr, d = .prim kd g ∧ g.isVar = false ∧
        g.size = h.size ∧ g.nullable = h.nullable ∧ g.name = h.name := ⟨_, hd, rfl, rfl, rfl, rfl⟩
    subst hd
    by_cases hk0 : k = 0
    · subst hk0; rfl
    have hnl : isNullable (.prim kd g) = h.nullable := by
      simp [isNullable, isVar, hdr, g1, g4]
    by_cases hkd : kd = .float
    · subst hkd
      obtain ⟨cb, hcb, d0, hfl⟩ : ∃ cb : UInt8, serPrim .float g = [cb] ∧
          ∃ d0, primOf cb.toNat = none ∧ floatOf cb.toNat = some d0 := by
        unfold serPrim
        rw [hnl, g3]
        rcases h5 rfl with h5 | h5 <;> cases h.nullable <;> rw [h5]
        · exact ⟨9, rfl, _, rfl, rfl⟩
        · exact ⟨6, rfl, _, rfl, rfl⟩
        · exact ⟨10, rfl, _, rfl, rfl⟩
        · exact ⟨7, rfl, _, rfl, rfl⟩
      have hm : ser (.prim .float g) = [cb] ++ serName h.name := by simp [ser, hcb, g5]
      rw [hm] at hk hl ⊢
      simp only [List.length_append, List.length_cons, List.length_nil, serName_length] at hk hl
      rw [deserF_succ f (take_zero_get (by omega)) (by omega), deserBody_float _ hfl.1 hfl.2]
      exact finishName_trunc rfl rfl (by omega) (by omega) (by omega)
    · obtain ⟨cb, hcb, mx, hpo, hmx, hlo, hnf⟩ : ∃ cb : UInt8, serPrim kd g =
          [cb, UInt8.ofNat h.size] ∧ ∃ mx, primOf cb.toNat = some (kd, h.nullable, mx) ∧ h.size ≤ mx ∧ cb.toNat < 120 ∧
            floatOf cb.toNat = none := by
        unfold serPrim
        rw [hnl, g3]
        cases kd with
        | float => exact absurd rfl hkd
        | bitField => cases h.nullable
                      · exact ⟨1, rfl, 64, rfl, h2, by decide, rfl⟩
                      · exact ⟨0, rfl, 64, rfl, h2, by decide, rfl⟩
        | uint => cases h.nullable
                  · exact ⟨3, rfl, 8, rfl, h4 (by simp), by decide, rfl⟩
                  · exact ⟨2, rfl, 8, rfl, h4 (by simp), by decide, rfl⟩
        | int => cases h.nullable
                 · exact ⟨5, rfl, 8, rfl, h4 (by simp), by decide, rfl⟩
                 · exact ⟨4, rfl, 8, rfl, h4 (by simp), by decide, rfl⟩
        | largeUint => cases h.nullable
                       · exact ⟨13, rfl, 32, rfl, h3 (by simp), by decide, rfl⟩
                       · exact ⟨12, rfl, 32, rfl, h3 (by simp), by decide, rfl⟩
        | largeInt => cases h.nullable
                      · exact ⟨15, rfl, 32, rfl, h3 (by simp), by decide, rfl⟩
                      · exact ⟨14, rfl, 32, rfl, h3 (by simp), by decide, rfl⟩
      have hm : ser (.prim kd g) = [cb, UInt8.ofNat h.size] ++ serName h.name := by simp [ser, hcb, g5]
      rw [hm] at hk hl ⊢
      simp only [List.length_append, List.length_cons, List.length_nil, serName_length] at hk hl
      rw [deserF_succ f (take_zero_get (by omega)) (by omega)]
      by_cases hk1 : k = 1
      · exact deserBody_prim_short _ (by omega) hlo hnf
      · have hsz : (UInt8.ofNat h.size).toNat = h.size := by
          rw [UInt8.toNat_ofNat']; omega
        have hg1 : (([cb, UInt8.ofNat h.size] ++ serName h.name).take k)[1]? = some (UInt8.ofNat h.size) := by
          rw [List.getElem?_take, if_pos (by omega)]; rfl
        rw [deserBody_prim _ (by omega) hg1 hpo (by omega) (by omega)]
        exact finishName_trunc rfl rfl (by omega) (by omega) (by omega)
  | @str b h d hf =>
    intro hu f k hfuel hk hl
    cases f with
    | zero => rfl
    | succ f =>
    obtain ⟨hd, h1, h2⟩ := finStr_eq hf
    obtain ⟨g, hd, g8⟩ : ∃ g : Hdr, d = .str b g ∧ g.name = h.name := ⟨_, hd, rfl⟩
    subst hd
    obtain ⟨hu1, hu2⟩ := hu
    by_cases hk0 : k = 0
    · subst hk0; rfl
    obtain ⟨cb, x, hst, hc1, hc2, hx⟩ : ∃ (cb : UInt8) (x : Nat), serStr b g = cb :: leEnc 4 x ∧ 120 ≤ cb.toNat ∧
        cb.toNat ≤ 125 ∧ x < 4294967296 := by
      unfold serStr
      cases g.isVar with
      | true => exact ⟨_, _, rfl, by cases b <;> decide, by cases b <;> decide, hu2⟩
      | false => exact ⟨_, _, rfl, by cases b <;> cases g.nullable <;> decide, by cases b <;> cases g.nullable <;> decide, hu1⟩
    have hm : ser (.str b g) = (cb :: leEnc 4 x) ++ serName h.name := by simp [ser, hst, g8]
    have hpre : (cb :: leEnc 4 x).length = 5 := by simp
    rw [hm] at hk hl ⊢
    rw [List.length_append, hpre, serName_length] at hk hl
    rw [deserF_succ f (take_zero_get (by omega)) (by omega)]
    by_cases hk5 : k < 5
    · exact deserBody_num4_short _ hc1 (num4_short (by omega))
    · have hnum : num4 (((cb :: leEnc 4 x) ++ serName h.name).take k) k 1 = some (some x) := by
        rw [take_append_ge (by omega)]
        exact num4_eq (pre := [cb]) (rest := (serName h.name).take (k - (cb :: leEnc 4 x).length)) hx (by simp) rfl (by omega)
      rw [deserBody_str _ hc1 hc2 hnum]
      split
      · exact finishName_trunc rfl hpre (by omega) (by omega) (by omega)
      · exact finishName_trunc rfl hpre (by omega) (by omega) (by omega)
  | @tup h gs d hmade hlen hc0 hf ih =>
    intro hu f k hfuel hk hl
    cases f with
    | zero => rfl
    | succ f =>
    by_cases hk0 : k = 0
    · subst hk0; rfl
    have hd := finTup_eq hf
    obtain ⟨g, hd, g2, g3, g5⟩ : ∃ g : Hdr, d = .tup g (tupOffs h gs).1 ∧
        g.count = h.count ∧ g.maxSize = h.maxSize ∧ g.name = h.name := ⟨_, hd, rfl, rfl, rfl⟩
    obtain ⟨hu1, hu2, hu3⟩ : g.count < 4294967296 ∧ g.maxSize < 4294967296 ∧ U32.U32All (tupOffs h gs).1 := by
      rw [hd] at hu; exact hu
    have hu4 : ∀ f t, (f, t) ∈ gs → U32 t := by
      intro f t hm
      obtain ⟨f2, hm2⟩ := mem_names (tupOffs_names h gs).symm hm
      exact (U32All_iff _).mp hu3 f2 t hm2
    have hserd : ser d = serTup g ++ (serName h.name ++ serAll gs) := by
      rw [hd]; simp only [ser, g5, serAll_names (tupOffs_names h gs)]
    rw [hserd] at hk hl ⊢
    simp only [List.length_append, serName_length] at hk hl
    have hn := nameBytes_pos h.name
    have hrec : ∀ f' t, (f', t) ∈ gs → Done t ∧ (∀ rest', (ser t ++ rest').length < k →
        ∃ e, deserF f (ser t ++ rest') (ser t ++ rest').length = some (some e) ∧ Back t e) ∧
        (∀ k', k' < (ser t).length → k' < k → deserF f ((ser t).take k') k' = some none) := by
      intro f' t hm
      have := ser_mem_length hm
      refine ⟨(hmade f' t hm).done, fun rest' hle => ?_, fun k' hk' hlt => ?_⟩
      · refine deserF_ser (hmade f' t hm) (hu4 f' t hm) f rest' ?_ (by omega)
        simp only [List.length_append] at hle
        omega
      · exact ih f' t hm (hu4 f' t hm) f k' (by omega) hk' (by omega)
    cases hv : g.isVar with
    | false =>
      obtain ⟨cb, hst, hc⟩ : ∃ cb : UInt8, serTup g = cb :: leEnc 4 g.count ∧ (cb.toNat = 126 ∨ cb.toNat = 127) := by
        simp only [serTup, hv]
        exact ⟨_, rfl, by cases g.nullable <;> decide⟩
      have hpre : (cb :: leEnc 4 g.count).length = 5 := by simp
      rw [hst] at hk hl ⊢
      rw [hpre] at hk hl
      rw [deserF_succ f (take_zero_get (by omega)) (by omega)]
      by_cases hk5 : k < 5
      · exact deserBody_num4_short _ (by omega) (num4_short (by omega))
      · have hnum : num4 (((cb :: leEnc 4 g.count) ++ (serName h.name ++ serAll gs)).take k) k 1 = some (some g.count) := by
          rw [take_append_ge (by omega)]
          exact num4_eq (pre := [cb]) (rest := (serName h.name ++ serAll gs).take (k - (cb :: leEnc 4 g.count).length)) hu1 (by simp) rfl (by omega)
        rw [deserBody_tup _ hc hnum]
        exact deserTup_trunc _ (by omega) hpre rfl (by show gs.length = g.count; omega) (by omega) (by omega) hrec
    | true =>
      have hst : serTup g = 128 :: (leEnc 4 g.count ++ leEnc 4 g.maxSize) := by simp [serTup, hv]
      have hpre : ((128 : UInt8) :: (leEnc 4 g.count ++ leEnc 4 g.maxSize)).length = 9 := by simp
      rw [hst] at hk hl ⊢
      rw [hpre] at hk hl
      rw [deserF_succ f (take_zero_get (by omega)) (by omega)]
      by_cases hk5 : k < 5
      · exact deserBody_num4_short _ (c := UInt8.toNat 128) (by decide) (num4_short (by omega))
      · have hnum : num4 (((128 : UInt8) :: (leEnc 4 g.count ++ leEnc 4 g.maxSize) ++ (serName h.name ++ serAll gs)).take k) k 1 =
            some (some g.count) := by
          have : (128 : UInt8) :: (leEnc 4 g.count ++ leEnc 4 g.maxSize) ++ (serName h.name ++ serAll gs) =
            ((128 : UInt8) :: leEnc 4 g.count) ++ (leEnc 4 g.maxSize ++ (serName h.name ++ serAll gs)) := by simp
          rw [this, take_append_ge (by simp; omega)]
          exact num4_eq (pre := [128]) (rest := (leEnc 4 g.maxSize ++ (serName h.name ++ serAll gs)).take (k - ((128 : UInt8) :: leEnc 4 g.count).length)) hu1 (by simp) rfl (by omega)
        by_cases hk9 : k < 9
        · exact deserBody_num4_short2 _ (c := UInt8.toNat 128) (.inl rfl) hnum (num4_short (by omega))
        · have hnum2 : num4 (((128 : UInt8) :: (leEnc 4 g.count ++ leEnc 4 g.maxSize) ++ (serName h.name ++ serAll gs)).take k) k 5 =
              some (some g.maxSize) := by
            rw [take_append_ge (by omega)]
            exact num4_eq (pre := 128 :: leEnc 4 g.count) (rest := (serName h.name ++ serAll gs).take (k - ((128 : UInt8) :: (leEnc 4 g.count ++ leEnc 4 g.maxSize)).length)) hu2 (by simp) (by simp) (by omega)
          rw [deserBody_vtup _ (c := UInt8.toNat 128) rfl hnum hnum2]
          exact deserTup_trunc _ (by omega) hpre rfl (by show gs.length = g.count; omega) (by omega) (by omega) hrec
  | @arr h c d hmade hf ih =>
    intro hu f k hfuel hk hl
    cases f with
    | zero => rfl
    | succ f =>
    by_cases hk0 : k = 0
    · subst hk0; rfl
    have hd := (finArr_iff.mp hf).2.2
    obtain ⟨g, hd, g5⟩ : ∃ g : Hdr, d = .arr g c ∧ g.name = h.name := ⟨_, hd, rfl⟩
    obtain ⟨hu1, hu2, hu3⟩ : g.count < 4294967296 ∧ g.maxSize < 4294967296 ∧ U32 c := by
      rw [hd] at hu; exact hu
    have hserd : ser d = serArr g ++ (serName h.name ++ ser c) := by
      rw [hd]; simp only [ser, g5]
    rw [hserd] at hk hl ⊢
    simp only [List.length_append, serName_length] at hk hl
    have hn := nameBytes_pos h.name
    have hrec : ∀ k', k' < (ser c).length → k' < k → deserF f ((ser c).take k') k' = some none :=
      fun k' hk' hlt => ih hu3 f k' (by omega) hk' (by omega)
    have one : ∀ (cb : UInt8) (x : Nat), serArr g = cb :: leEnc 4 x → x < 4294967296 →
        (cb.toNat = 129 ∨ cb.toNat = 130 ∨ cb.toNat = 132) →
        deserF (f + 1) ((serArr g ++ (serName h.name ++ ser c)).take k) k = some none := by
      intro cb x hst hx hc
      have hpre : (cb :: leEnc 4 x).length = 5 := by simp
      rw [hst] at hk hl ⊢
      rw [hpre] at hk hl
      rw [deserF_succ f (take_zero_get (by omega)) (by omega)]
      by_cases hk5 : k < 5
      · exact deserBody_num4_short _ (by omega) (num4_short (by omega))
      · have hnum : num4 (((cb :: leEnc 4 x) ++ (serName h.name ++ ser c)).take k) k 1 = some (some x) := by
          rw [take_append_ge (by omega)]
          exact num4_eq (pre := [cb]) (rest := (serName h.name ++ ser c).take (k - (cb :: leEnc 4 x).length)) hx (by simp) rfl (by omega)
        by_cases hc2 : cb.toNat = 132
        · rw [deserBody_carr _ hc2 hnum]
          exact deserArr_trunc _ (by omega) hpre rfl (by omega) (by omega) hrec
        · rw [deserBody_arr _ (by omega) hnum]
          exact deserArr_trunc _ (by omega) hpre rfl (by omega) (by omega) hrec
    cases hv : g.isVar with
    | false =>
      refine one (if g.nullable then 129 else 130) g.count (by simp only [serArr, hv]; rfl) hu1 ?_
      cases g.nullable <;> decide
    | true =>
      cases hvc : g.varCount with
      | true => exact one 132 g.maxSize (by simp only [serArr, hv, hvc]; rfl) hu2 (by decide)
      | false =>
        have hst : serArr g = 131 :: (leEnc 4 g.count ++ leEnc 4 g.maxSize) := by simp [serArr, hv, hvc]
        have hpre : ((131 : UInt8) :: (leEnc 4 g.count ++ leEnc 4 g.maxSize)).length = 9 := by simp
        rw [hst] at hk hl ⊢
        rw [hpre] at hk hl
        rw [deserF_succ f (take_zero_get (by omega)) (by omega)]
        by_cases hk5 : k < 5
        · exact deserBody_num4_short _ (c := UInt8.toNat 131) (by decide) (num4_short (by omega))
        · have hnum : num4 (((131 : UInt8) :: (leEnc 4 g.count ++ leEnc 4 g.maxSize) ++ (serName h.name ++ ser c)).take k) k 1 =
              some (some g.count) := by
            have : (131 : UInt8) :: (leEnc 4 g.count ++ leEnc 4 g.maxSize) ++ (serName h.name ++ ser c) =
              ((131 : UInt8) :: leEnc 4 g.count) ++ (leEnc 4 g.maxSize ++ (serName h.name ++ ser c)) := by simp
            rw [this, take_append_ge (by simp; omega)]
            exact num4_eq (pre := [131]) (rest := (leEnc 4 g.maxSize ++ (serName h.name ++ ser c)).take (k - ((131 : UInt8) :: leEnc 4 g.count).length)) hu1 (by simp) rfl (by omega)
          by_cases hk9 : k < 9
          · exact deserBody_num4_short2 _ (c := UInt8.toNat 131) (.inr rfl) hnum (num4_short (by omega))
          · have hnum2 : num4 (((131 : UInt8) :: (leEnc 4 g.count ++ leEnc 4 g.maxSize) ++ (serName h.name ++ ser c)).take k) k 5 =
                some (some g.maxSize) := by
              rw [take_append_ge (by omega)]
              exact num4_eq (pre := 131 :: leEnc 4 g.count) (rest := (serName h.name ++ ser c).take (k - ((131 : UInt8) :: (leEnc 4 g.count ++ leEnc 4 g.maxSize)).length)) hu2 (by simp) (by simp) (by omega)
            rw [deserBody_varr _ (c := UInt8.toNat 131) rfl hnum hnum2]
            exact deserArr_trunc _ (by omega) hpre rfl (by omega) (by omega) hrec

end Dti
end TS
