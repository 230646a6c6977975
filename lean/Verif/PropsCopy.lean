import Verif.Copy
import Verif.EncSame
import Verif.PropsNum
import Verif.PropsSer
/-
Property C49: copying an element from one tuple to another.
-/
namespace TS
namespace Dti

/-- `y` is what an element of type `t` can hold. -/
def Held (t : Dti) (y : Val) : Prop :=
  y = .null ∨ (∃ v, y = .bits v ∧ t.isBit = true ∧ v < 2 ^ t.hdr.size) ∨ ∃ b, Enc t b y

theorem held_at (pa : List Nat) : ∀ {d t : Dti} {y z : Val}, TyOk d → Held d y → y.at' pa = some z →
    d.typeAt pa = some t → Held t z := by
  induction pa with
  | nil => intro d t y z _ h ha ht; simp only [Val.at', typeAt, Option.some.injEq] at ha ht; subst ha; subst ht; exact h
  | cons i pa ih =>
    intro d t y z hd h ha ht
    rcases h with h | ⟨v, h, _⟩ | ⟨b, h⟩
    · subst h; simp [Val.at'] at ha; left; exact ha.symm
    · subst h; simp [Val.at'] at ha
    · cases hc : d.isCont with
      | false =>
        cases d with
        | prim => rw [(enc_prim h).2.2] at ha; simp [Val.at'] at ha
        | _ => simp [isCont] at hc
      | true =>
        obtain ⟨cs, o, vs, rfl, r, hv⟩ := enc_cont hc h
        simp only [Val.at'] at ha
        cases hx : vs[i]? with
        | none => rw [hx] at ha; simp at ha
        | some x =>
          rw [hx] at ha
          have hlt : i < cs.length := by rw [← hv.1]; exact (List.getElem?_eq_some_iff.mp hx).1
          have hty := tyAtNoData_pos hd hc r.countOk hlt
          simp only [typeAt, hty, Option.bind_eq_bind, Option.bind_some] at ht
          refine ih (posOf_ok hd hc r.countOk hlt) ?_ ha ht
          have := hv.2 i _ _ (List.getElem?_eq_getElem hlt) hx
          have he := r.elt i _ (List.getElem?_eq_getElem hlt)
          generalize cs[i] = c at this he
          cases c with
          | null => exact .inl this
          | bits v =>
            obtain ⟨e1, e2, e3⟩ := he
            exact .inr (.inl ⟨v, this, e1, by rw [← e3]; exact bitsVal_lt _ _ _ _⟩)
          | fixd b => exact .inr (.inr ⟨b, this⟩)
          | var b => exact .inr (.inr ⟨b, this⟩)

theorem at_append' (val : Val) (pa pb : List Nat) {y : Val} (h : val.at' pa = some y) :
    val.at' (pa ++ pb) = y.at' pb := by
  induction pa generalizing val with
  | nil => simp only [Val.at', Option.some.injEq] at h; subst h; rfl
  | cons i pa ih =>
    cases val with
    | null =>
      simp only [Val.at', Option.some.injEq] at h
      subst h
      cases pb <;> simp [Val.at']
    | bits => simp [Val.at'] at h
    | raw => simp [Val.at'] at h
    | node vs =>
      simp only [List.cons_append, Val.at'] at h ⊢
      cases hx : vs[i]? with
      | none => rw [hx] at h; simp at h
      | some x => rw [hx] at h; exact ih x h

theorem Made.sub {d t : Dti} (pa : List Nat) (h : Made d) (ht : d.typeAt pa = some t) : Made t := by
  induction pa generalizing d with
  | nil => simp [typeAt] at ht; subst ht; exact h
  | cons i pa ih =>
    simp only [typeAt, Option.bind_eq_bind] at ht
    obtain ⟨c, h1, h2⟩ := Option.bind_eq_some_iff.mp ht
    refine ih ?_ h2
    unfold tyAtNoData at h1
    split at h1
    · cases h1
    · split at h1
      · cases h1
      · cases h with
        | prim hf => rw [(finPrim_eq hf).1] at h1; simp [tyAt] at h1
        | str hf =>
          rw [(finStr_eq hf).1] at h1
          simp [tyAt] at h1; subst h1
          exact .prim (k := .uint) (h := { isStatic := true, size := 1 }) rfl
        | @tup h gs d' hg _ _ hf =>
          rw [finTup_eq hf] at h1
          simp only [tyAt] at h1
          obtain ⟨⟨f, t'⟩, g1, g2⟩ := Option.map_eq_some_iff.mp h1
          simp only at g2
          subst g2
          obtain ⟨g, hg'⟩ := mem_names (tupOffs_names h gs) (List.mem_of_getElem? g1)
          exact hg g _ hg'
        | @arr h c d' hc hf =>
          rw [(finArr_iff.mp hf).2.2] at h1
          simp [tyAt] at h1; subst h1
          exact hc

end Dti

namespace Props
open Dti

theorem strn_cut {x : Bytes} : 0 ∉ strn x ∧ (strn x).length ≤ x.length := by
  exact ⟨fun h => strn_nonzero h rfl, strn_le x⟩

/-- A value that is read is a value of its type; a pointer leads to a well formed tuple. -/
theorem shows_exact {t : Dti} {y : Val} {dt : Datum} (ht : TyOk t) (hs : Shows t y dt) (hh : Held t y) :
    dt = .null ∨ (Exact t dt ∧ ∀ b, dt = .bytes b → b.length < lim) ∨
      (∃ m S, dt = .ptr m ∧ S ≤ m.length ∧ Enc t (m.take S) y ∧ (∀ b h, t ≠ .str b h) ∧ ∀ k h, t ≠ .prim k h) := by
  cases y with
  | null => exact .inl hs
  | bits v =>
    right; left
    obtain ⟨h1, rfl⟩ := hs
    refine ⟨.inr ?_, nofun⟩
    rcases hh with hh | ⟨v', hv, _, hlt⟩ | ⟨b, hh⟩
    · cases hh
    · cases hv
      cases t with
      | prim k h => cases k <;> first | exact hlt | simp [isBit] at h1
      | _ => simp [isBit] at h1
    · cases hh
  | raw b =>
    right; left
    rcases hh with hh | ⟨v', hv, _⟩ | ⟨b', hh⟩
    · cases hh
    · cases hv
    · cases t with
      | prim k h =>
        obtain ⟨_, hl, hb⟩ := enc_prim hh
        cases hb
        have hlt := leDec_lt b
        rw [hl] at hlt
        cases k <;> simp only [Shows] at hs
        · subst hs; exact ⟨.inr hlt, nofun⟩
        · subst hs
          refine ⟨.inr ?_, nofun⟩
          unfold intDec
          rw [hl]
          simp only
          have hlt : leDec b < 256 ^ h.size := hlt
          generalize 256 ^ h.size = P at *
          split <;> omega
        · subst hs; exact ⟨.inr hl, nofun⟩
        · subst hs; exact ⟨.inr hlt, nofun⟩
        · subst hs
          refine ⟨.inr ?_, nofun⟩
          unfold intDec
          rw [hl]
          simp only
          have hlt : leDec b < 256 ^ h.size := hlt
          generalize 256 ^ h.size = P at *
          split <;> omega
      | _ => exact hs.elim
  | node vs =>
    right
    rcases hh with hh | ⟨v', hv, _⟩ | ⟨b', hh⟩
    · cases hh
    · cases hv
    · cases t with
      | prim => exact hs.elim
      | str bin h =>
        left
        obtain ⟨x, hx, rfl⟩ := hs
        obtain ⟨cs, o, vs', e1, r, hv⟩ := enc_cont rfl hh
        cases e1
        obtain ⟨s1, s2⟩ := str_vals r hv
        rw [s1] at hx
        have hx := (chars_inj hx).symm
        have hl : x.length = cs.length := by rw [hx]; exact rd_length _ _ _ (by omega)
        have hsz := enc_size ht hh
        have hxl : x.length ≤ b'.length := by omega
        obtain ⟨q1, q2⟩ := strn_cut (x := x)
        have hcap : h.isVar = false → x.length = h.size := by
          intro hv
          have := r.cntF (by simp [isVarCount, hv])
          cases ht with
          | str _ _ a1 a2 a3 a4 => simp only [hdr] at this; have := (a3 hv).1; omega
        constructor
        · right
          cases bin with
          | false => exact ⟨q1, fun hv => by have := hcap hv; simp only [Bool.false_eq_true, if_false]; omega⟩
          | true => exact fun hv => hcap hv
        · intro b hb
          cases hb
          split <;> omega
      | tup h fs =>
        obtain ⟨m, S, h1, h2, h3⟩ := hs
        exact .inr ⟨m, S, h1, h2, h3, nofun, nofun⟩
      | arr h fs =>
        obtain ⟨m, S, h1, h2, h3⟩ := hs
        exact .inr ⟨m, S, h1, h2, h3, nofun, nofun⟩

/-- What is read at a position. -/
theorem read_at {d t : Dti} {m : Bytes} {S : Nat} {val : Val} {pa : List Nat} {dt : Datum} (hd : TyOk d) (hS : S ≤ m.length)
    (he : Enc d (m.take S) val) (ht : d.typeAt pa = some t) (hg : d.getElem m pa = some (some dt)) :
    ∃ y, val.at' pa = some y ∧ Shows t y dt ∧ Held t y := by
  have g := getElem_ok pa hd hS he
  unfold GetOk at g
  cases ha : val.at' pa with
  | none => rw [ha] at g; simp only at g; rw [g] at hg; cases hg
  | some y =>
    rw [ha] at g
    simp only at g
    refine ⟨y, rfl, ?_⟩
    rcases g with ⟨rfl, g⟩ | ⟨t', dt', g1, g2, g3⟩
    · rw [g] at hg; cases hg
      exact ⟨rfl, .inl rfl⟩
    · rw [g1] at ht; cases ht
      rw [g2] at hg; cases hg
      exact ⟨g3, held_at pa hd (.inr (.inr ⟨_, he⟩)) ha g1⟩

/-- A value that is read from a type is accepted by an identical type. -/
theorem exact_accepts {t : Dti} {v : Datum} (hx : Exact t v) (hl : ∀ b, v = .bytes b → b.length < lim) : Accepts t v := by
  rcases hx with rfl | hx
  · exact .inl rfl
  · right; right
    cases t with
    | prim k h => cases k <;> cases v <;> simp only at hx <;> first | exact ⟨_, rfl⟩ | exact ⟨_, rfl, hx⟩
    | str b h => cases b <;> cases v <;> simp only at hx <;> exact ⟨_, rfl, hl _ rfl⟩
    | _ => cases v <;> exact hx.elim

theorem castVal_accepts {cv : Conv} (hcv : cv.Ok) {k kf : PKind} {h hf : Hdr} {e v : Datum}
    (hc : castVal cv k h e kf hf = some (some v)) : Accepts (.prim k h) v := by
  have hfrom : ∀ {s bits}, castFromFlt cv s bits e hf = some (some v) →
      if s then ∃ z, v = .int z else ∃ n, v = .uint n := by
    intro s bits h1
    unfold castFromFlt at h1
    split at h1
    · simp only [Option.bind_eq_bind, Option.bind_eq_some_iff] at h1
      obtain ⟨b, _, h1⟩ := h1
      split at h1
      · cases h1
      · cases h1
        cases s <;> exact ⟨_, rfl⟩
    · cases h1
  have hto : ∀ {b z}, castToFlt cv h b z = some (some v) → ∃ b, v = .flt b ∧ b.length = h.size := by
    intro b z h1
    unfold castToFlt at h1
    have := hcv.intLen
    have := hcv.fltLen
    have := hcv.bigLen
    grind
  right; right
  cases k <;> cases kf <;> simp only [castVal, Option.bind_eq_bind, Option.bind_eq_some_iff, Option.pure_def,
    Option.some.injEq] at hc ⊢ <;> first
    | (obtain ⟨n, _, rfl⟩ := hc; exact ⟨_, rfl⟩)
    | exact (by simpa using hfrom hc)
    | (obtain ⟨n, _, h2⟩ := hc; exact hto h2)
    | skip
  split at hc
  · obtain ⟨b, h1, h2⟩ := Option.bind_eq_some_iff.mp hc
    split at h2
    · rename_i hz
      cases h2
      exact ⟨b, rfl, by rw [hz]; exact asFlt_length h1⟩
    · cases h2
      exact ⟨_, rfl, hcv.fltLen _ _ (by grind)⟩
  · cases hc

theorem exact_same {t t2 : Dti} {v : Datum} (hs : norm false t = norm false t2) (hx : Exact t2 v) : Exact t v := by
  rcases hx with hx | hx
  · exact .inl hx
  · right
    cases t with
    | prim k h =>
      cases t2 <;> simp only [norm, reduceCtorEq] at hs
      rename_i k2 h2
      injection hs with e1 e2
      subst e1
      have : h.size = h2.size := by have := congrArg Hdr.size e2; simpa [nHdr] using this
      cases k <;> cases v <;> simp only [this] at hx ⊢ <;> exact hx
    | str b h =>
      cases t2 <;> simp only [norm, reduceCtorEq] at hs
      rename_i k2 h2
      injection hs with e1 e2
      subst e1
      have a1 : h.size = h2.size := by have := congrArg Hdr.size e2; simpa [nHdr] using this
      have a2 : h.isVar = h2.isVar := by have := congrArg Hdr.isVar e2; simpa [nHdr] using this
      cases b <;> cases v <;> simp only [a1, a2] at hx ⊢ <;> exact hx
    | tup h fs => cases t2 <;> simp only [norm, reduceCtorEq] at hs; cases v <;> exact hx
    | arr h fs => cases t2 <;> simp only [norm, reduceCtorEq] at hs; cases v <;> exact hx

theorem same_symm {a b : Option (Option Datum)} (h : Same a b) : Same b a := by
  rcases h with rfl | ⟨x, y, h1, h2⟩
  · exact .inl rfl
  · exact .inr ⟨y, x, h2, h1⟩

theorem same_trans' {a b c : Option (Option Datum)} (h : Same a b) (h' : Same b c) : Same a c := by
  rcases h with rfl | ⟨x, y, h1, h2⟩
  · exact h'
  · rcases h' with rfl | ⟨x', y', h3, h4⟩
    · exact .inr ⟨x, y, h1, h2⟩
    · exact .inr ⟨x, y', h1, h4⟩

/-- What is assumed when an element is copied: two finalised types with names that end, a tuple of
each in memory, room for the destination to grow. -/
structure CopyArgs (d : Dti) (m : Bytes) (S : Nat) (pa : List Nat) (d2 : Dti) (m2 : Bytes) (S2 : Nat) (inc : Nat) : Prop where
  usable : Usable d
  made : Made d
  tuple : IsTuple d m S
  room : d.isVar = true → min (S + inc) d.hdr.maxSize ≤ m.length
  names : ∀ t, d.typeAt pa = some t → ShortNames t
  usable2 : Usable d2
  made2 : Made d2
  tuple2 : IsTuple d2 m2 S2

/-- The element of the source can be set where the destination has an identical type. -/
theorem copy_ident {d t d2 t2 : Dti} {m m2 : Bytes} {S S2 inc : Nat} {pa pa2 : List Nat} {dt : Datum}
    (ha : CopyArgs d m S pa d2 m2 S2 inc) (ht : d.typeAt pa = some t) (ht2 : d2.typeAt pa2 = some t2)
    (hg : d2.getElem m2 pa2 = some (some dt)) (hi : ident t t2 = some true) : SetArgs d m S pa dt inc := by
  refine ⟨ha.usable, ha.tuple, ?_, ha.room⟩
  intro t' ht'
  rw [ht] at ht'; cases ht'
  obtain ⟨hS2, val2, he2⟩ := ha.tuple2
  obtain ⟨y, h1, h2, h3⟩ := read_at ha.usable2.ok hS2 he2 ht2 hg
  have hk2 := (typeAt_ok pa2 ha.usable2.ok ht2).1
  have hm := ha.made.sub pa ht
  have hm2 := ha.made2.sub pa2 ht2
  have hs := ident_same hm hm2 hi
  rcases shows_exact hk2 h2 h3 with rfl | ⟨hx, hl⟩ | ⟨src, s, rfl, q1, q2, q3⟩
  · exact .inl rfl
  · exact exact_accepts (exact_same hs hx) hl
  · right; right
    have he := enc_same q2 (show SameTy false t2 t from hs.symm) hk2 hm2.varUp
    cases t with
    | prim k h => cases t2 <;> simp only [norm, reduceCtorEq] at hs; exact absurd rfl (q3.2 _ _)
    | str b h => cases t2 <;> simp only [norm, reduceCtorEq] at hs; exact absurd rfl (q3.1 _ _)
    | tup h fs => exact ⟨src, s, rfl, q1, _, he⟩
    | arr h c => exact ⟨src, s, rfl, q1, _, he⟩

theorem getElem_null {d : Dti} {m : Bytes} {S : Nat} {val : Val} {pa : List Nat} (hd : TyOk d) (hS : S ≤ m.length)
    (he : Enc d (m.take S) val) (ha : val.at' pa = some .null) : d.getElem m pa = some (some .null) := by
  have g := getElem_ok pa hd hS he
  unfold GetOk at g
  rw [ha] at g
  rcases g with ⟨_, g⟩ | ⟨t', dt', g1, g2, g3⟩
  · exact g
  · rw [g2]; cases g3; rfl

theorem shows_null {t : Dti} {y : Val} (h : Shows t y .null) : y = .null := by
  cases y with
  | null => rfl
  | bits v => cases h.2
  | raw b =>
    cases t with
    | prim k _ => cases k <;> simp [Shows] at h
    | _ => exact h.elim
  | node vs =>
    cases t with
    | prim => exact h.elim
    | str => obtain ⟨x, _, h⟩ := h; cases h
    | tup => obtain ⟨m, S, h, _⟩ := h; cases h
    | arr => obtain ⟨m, S, h, _⟩ := h; cases h

theorem leaf_inner {d : Dti} {k : PKind} {h : Hdr} {m : Bytes} {S : Nat} {val : Val} {pa : List Nat} {dt : Datum} (hd : TyOk d)
    (hS : S ≤ m.length) (he : Enc d (m.take S) val) (ht : d.typeAt pa = some (.prim k h)) (hg : d.getElem m pa = some (some dt))
    (hn : dt ≠ .null) (i : Nat) (pb : List Nat) : d.getElem m (pa ++ i :: pb) = some none := by
  obtain ⟨y, h1, h2, h3⟩ := read_at hd hS he ht hg
  have g := getElem_ok (pa ++ i :: pb) hd hS he
  unfold GetOk at g
  rw [at_append' _ _ _ h1] at g
  have : y.at' (i :: pb) = none := by
    cases y with
    | null => exact absurd h2 hn
    | bits => rfl
    | raw => rfl
    | node vs => exact h2.elim
  rw [this] at g
  exact g

/-- C49. A copy between elements of identical types is `set_element_in_tuple` with what is read from
the source, and it may be set (so C34 to C37 speak about it). If it succeeds the destination reads
like the source, and (strings aside, of which only the characters up to the first zero byte are
copied) so does everything inside of it. -/
theorem C49_identical (cv : Conv) {d t d2 t2 : Dti} {m m2 : Bytes} {S S2 inc : Nat} {pa pa2 : List Nat} {dt : Datum}
    (ha : CopyArgs d m S pa d2 m2 S2 inc) (ht : d.typeAt pa = some t) (ht2 : d2.typeAt pa2 = some t2)
    (hg : d2.getElem m2 pa2 = some (some dt)) (hi : ident t t2 = some true) :
    d.setFromTuple cv m pa d2 m2 pa2 inc = d.setElem m pa dt inc ∧ SetArgs d m S pa dt inc ∧
      ∀ m', d.setFromTuple cv m pa d2 m2 pa2 inc = some (m', true) →
        Same (d.getElem m' pa) (d2.getElem m2 pa2) ∧
        (t.isCont = false → d.getElem m' pa = d2.getElem m2 pa2) ∧
        ((∀ b h, t ≠ .str b h) → ∀ pb, Same (d.getElem m' (pa ++ pb)) (d2.getElem m2 (pa2 ++ pb))) := by
  have hsa := copy_ident ha ht ht2 hg hi
  have heq : d.setFromTuple cv m pa d2 m2 pa2 inc = d.setElem m pa dt inc := by
    simp only [setFromTuple, hg, ht, ht2, hi, Option.bind_eq_bind, Option.bind_some, if_true]
  refine ⟨heq, hsa, ?_⟩
  intro m' hc
  rw [heq] at hc
  obtain ⟨hS2, val2, he2⟩ := ha.tuple2
  have hd2 := ha.usable2.ok
  have hd := ha.usable.ok
  obtain ⟨y, h1, h2, h3⟩ := read_at hd2 hS2 he2 ht2 hg
  have hk2 := (typeAt_ok pa2 hd2 ht2).1
  have hm := ha.made.sub pa ht
  have hm2 := ha.made2.sub pa2 ht2
  have hs := ident_same hm hm2 hi
  obtain ⟨hS, val, he⟩ := ha.tuple
  obtain ⟨m1, q, S', val', k1, k2, k3, k4, k5, k6, k7, k8, k9⟩ := setElem_main hd hS he hsa.datum ha.room
  rw [hc] at k1
  cases k1
  obtain ⟨g1, t', y', g2, g3, g4⟩ := k9 rfl
  rw [ht] at g2
  cases g2
  have hat : ∀ pb, val'.at' (pa ++ pb) = y'.at' pb := by intro pb; rw [g4]; exact at_upd_append val pa pb y' g1
  have hcs : dt = .null ∨ (dt ≠ .null ∧ Exact t2 dt) ∨
      (∃ m S, dt = .ptr m ∧ S ≤ m.length ∧ Enc t2 (m.take S) y ∧ (∀ b h, t2 ≠ .str b h) ∧ ∀ k h, t2 ≠ .prim k h) := by
    by_cases hn : dt = .null
    · exact .inl hn
    · rcases shows_exact hk2 h2 h3 with h | ⟨h, _⟩ | h
      · exact .inl h
      · exact .inr (.inl ⟨hn, h⟩)
      · exact .inr (.inr h)
  rcases hcs with rfl | ⟨hnn, hx⟩ | ⟨src, s, rfl, q1, q2, q3⟩
  · have hy' : y' = .null := by simpa [EDen, Datum.isNull] using g3
    have hy : y = .null := shows_null h2
    subst hy'; subst hy
    have hnull : ∀ pb, d.getElem m' (pa ++ pb) = d2.getElem m2 (pa2 ++ pb) := by
      intro pb
      rw [getElem_null hd (by rw [k3]; exact k4) k5 (by rw [hat]; cases pb <;> rfl),
        getElem_null hd2 hS2 he2 (by rw [at_append' _ _ _ h1]; cases pb <;> rfl)]
    have hn0 := hnull []
    simp only [List.append_nil] at hn0
    exact ⟨.inl hn0, fun _ => hn0, fun _ pb => .inl (hnull pb)⟩
  · have hr := C34_exact hsa ht (exact_same hs hx) hc
    refine ⟨.inl (by rw [hr, hg]), fun _ => by rw [hr, hg], ?_⟩
    intro hstr pb
    cases pb with
    | nil => simp only [List.append_nil]; rw [hr, hg]; exact .inl rfl
    | cons i pb =>
      left
      have hx' := (exact_same hs hx).resolve_left hnn
      cases t with
      | prim k h =>
        cases t2 <;> simp only [norm, reduceCtorEq] at hs
        rw [leaf_inner hd (by rw [k3]; exact k4) k5 ht hr hnn, leaf_inner hd2 hS2 he2 ht2 hg hnn]
      | str b h => exact absurd rfl (hstr b h)
      | tup => cases dt <;> exact hx'.elim
      | arr => cases dt <;> exact hx'.elim
  · have hnest : ∀ pb, Same (d.getElem m' (pa ++ pb)) (d2.getElem m2 (pa2 ++ pb)) := by
      intro pb
      have a1 := (C34_nested hsa ht hc pb).1 src rfl
      have a2 := getElem_congr pb (show SameTy false t t2 from hs) hm.varUp src
      rw [a2] at a1
      refine same_trans' a1 (getElem_same hk2 hd2 q1 q2 hS2 he2 ?_ ?_)
      · rw [typeAt_append, ht2]; rfl
      · exact (at_append' _ _ _ h1).symm
    have h0 := hnest []
    simp only [List.append_nil] at h0
    refine ⟨h0, ?_, fun _ => hnest⟩
    intro hcon
    cases t <;> simp [isCont] at hcon
    cases t2 <;> simp only [norm, reduceCtorEq] at hs
    exact absurd rfl (q3.2 _ _)

/-- C49. Between different numeral types the value is cast (C48): a number that the type of the
destination can represent arrives, NULL arrives as NULL or, where the destination has no NULL, as
zero. -/
theorem C49_numeral {cv : Conv} (hcv : cv.Ok) {d d2 : Dti} {m m2 m' : Bytes} {S S2 inc : Nat} {pa pa2 : List Nat} {dt : Datum}
    {k k2 : PKind} {h h2 : Hdr} (ha : CopyArgs d m S pa d2 m2 S2 inc) (ht : d.typeAt pa = some (.prim k h))
    (ht2 : d2.typeAt pa2 = some (.prim k2 h2)) (hg : d2.getElem m2 pa2 = some (some dt))
    (hc : d.setFromTuple cv m pa d2 m2 pa2 inc = some (m', true)) :
    (∀ x, dt ≠ .null → numOf k2 h2 dt = some x → Represents k h x →
      ∃ v, d.getElem m' pa = some (some v) ∧ v ≠ .null ∧ numOf k h v = some x) ∧
    (dt = .null → h.nullable = true → d.getElem m' pa = some (some .null)) ∧
    (dt = .null → h.nullable = false → ident (.prim k h) (.prim k2 h2) = some false →
      ∃ v, d.getElem m' pa = some (some v) ∧ v ≠ .null ∧ numOf k h v = some (.ofInt 0)) := by
  have hk := (typeAt_ok pa ha.usable.ok ht).1
  have hk2 := (typeAt_ok pa2 ha.usable2.ok ht2).1
  have hiv : h.isVar = false := by cases hk; assumption
  obtain ⟨b, hb⟩ := ident_total (ha.names _ ht) (.prim k2 h2)
  cases b with
  | true =>
    obtain ⟨_, hsa, hid⟩ := C49_identical cv ha ht ht2 hg hb
    have hr := (hid m' hc).2.1 rfl
    rw [hg] at hr
    have hs := ident_same (ha.made.sub pa ht) (ha.made2.sub pa2 ht2) hb
    simp only [norm] at hs
    injection hs with e1 e2
    subst e1
    have hz : h.size = h2.size := by have := congrArg Hdr.size e2; simpa [nHdr] using this
    refine ⟨?_, ?_, by rw [hb]; simp⟩
    · intro x hn hx _
      refine ⟨dt, hr, hn, ?_⟩
      rw [← hx]
      cases k <;> simp only [numOf, hz]
    · rintro rfl _
      exact hr
  | false =>
    have hstep : d.setFromTuple cv m pa d2 m2 pa2 inc = (typeCast cv .empty (.prim k h) dt (.prim k2 h2)).bind fun r =>
        match r with
        | (_, false) => some (m, false)
        | (v', true) => d.setElem m pa v' inc := by
      simp only [setFromTuple, hg, ht, ht2, hb, Option.bind_eq_bind, Option.bind_some, Bool.false_eq_true, if_false,
        isNum, Bool.and_self, if_true]
      rfl
    rw [hstep] at hc
    have hset : ∀ {v}, Accepts (.prim k h) v → SetArgs d m S pa v inc := by
      intro v hv
      exact ⟨ha.usable, ha.tuple, fun t hh => by rw [ht] at hh; cases hh; exact hv, ha.room⟩
    refine ⟨?_, ?_, ?_⟩
    · intro x hn hx hr
      obtain ⟨v, h1, h2, h3, h4⟩ := castVal_ok hcv hk hk2 hx hr
      have nn : dt.isNull = false := by cases dt <;> first | rfl | exact absurd rfl hn
      rw [typeCast, nn] at hc
      simp only [h1, Option.bind_eq_bind, Option.bind_some, Bool.false_eq_true, if_false, Datum.isNull,
        Option.pure_def] at hc
      exact ⟨v, C34_exact (hset (castVal_accepts hcv h1)) ht h3 hc, h2, h4⟩
    · rintro rfl hn
      simp only [typeCast, Datum.isNull, if_true, isNullable, isVar, hdr, hn, Bool.or_true, Option.bind_some] at hc
      exact C34_exact (hset (.inl rfl)) ht (.inl rfl) hc
    · rintro rfl hn _
      simp only [typeCast, Datum.isNull, if_true, isNullable, isVar, hdr, hn, hiv, Bool.or_self, Bool.false_eq_true,
        if_false, Option.bind_some] at hc
      obtain ⟨v, g1, g2⟩ := C34_set_then_get (hset (.inr (.inl rfl))) ht hc
      refine ⟨v, g1, ?_⟩
      have g2 := (g2.resolve_left (fun h => nomatch h.1)).2
      have hzero : ∀ {z : Int} {P : Nat}, (P : Int) ∣ z - 0 → -(P : Int) ≤ 2 * z → 2 * z < P → z = 0 :=
        fun h1 h2 h3 => int_unique h1 (by omega) (by omega) h2 h3
      cases k with
      | float =>
        obtain ⟨b, q1, rfl⟩ := g2
        cases q1
        have hsz : h.size = 4 ∨ h.size = 8 := by cases hk with | prim _ _ _ _ _ _ _ _ a7 => exact a7 rfl
        refine ⟨nofun, ?_⟩
        simp only [numOf, Datum.asFlt, List.length_replicate, if_true, Option.map_some, Option.some.injEq]
        rcases hsz with e | e <;> rw [e] <;> decide +kernel
      | int =>
        obtain ⟨z, z', q1, rfl, q2, q3, q4⟩ := g2
        cases q1
        rw [hzero q2 q3 q4]
        exact ⟨nofun, rfl⟩
      | largeInt =>
        obtain ⟨z, z', q1, rfl, q2, q3, q4⟩ := g2
        cases q1
        rw [hzero q2 q3 q4]
        exact ⟨nofun, rfl⟩
      | _ =>
        obtain ⟨n, q1, rfl⟩ := g2
        cases q1
        rw [Nat.zero_mod]
        exact ⟨nofun, rfl⟩

/-- C49. Between strings and binaries of any two types the copy is `set_element_in_tuple` with what
is read from the source; a value that the type of the destination can hold arrives unchanged. -/
theorem C49_string (cv : Conv) {d d2 : Dti} {m m2 : Bytes} {S S2 inc : Nat} {pa pa2 : List Nat} {dt : Datum}
    {b b2 : Bool} {h h2 : Hdr} (ha : CopyArgs d m S pa d2 m2 S2 inc) (ht : d.typeAt pa = some (.str b h))
    (ht2 : d2.typeAt pa2 = some (.str b2 h2)) (hg : d2.getElem m2 pa2 = some (some dt)) :
    d.setFromTuple cv m pa d2 m2 pa2 inc = d.setElem m pa dt inc ∧ SetArgs d m S pa dt inc ∧
      ∀ m', d.setFromTuple cv m pa d2 m2 pa2 inc = some (m', true) → Exact (.str b h) dt →
        d.getElem m' pa = d2.getElem m2 pa2 := by
  obtain ⟨i, hi⟩ := ident_total (ha.names _ ht) (.str b2 h2)
  have heq : d.setFromTuple cv m pa d2 m2 pa2 inc = d.setElem m pa dt inc := by
    cases i <;> simp only [setFromTuple, hg, ht, ht2, hi, Option.bind_eq_bind, Option.bind_some, Bool.false_eq_true, if_false,
        isNum, isStr, Bool.and_self, if_true]
  obtain ⟨hS2, val2, he2⟩ := ha.tuple2
  obtain ⟨y, h1, h3, h4⟩ := read_at ha.usable2.ok hS2 he2 ht2 hg
  have hk2 := (typeAt_ok pa2 ha.usable2.ok ht2).1
  have hacc : Accepts (.str b h) dt := by
    rcases shows_exact hk2 h3 h4 with rfl | ⟨hx, hl⟩ | ⟨src, s, rfl, q1, q2, q3⟩
    · exact .inl rfl
    · rcases hx with hx | hx
      · exact .inl hx
      · right; right
        cases dt <;> first | exact ⟨_, rfl, hl _ rfl⟩ | (cases b2 <;> exact hx.elim)
    · exact absurd rfl (q3.1 _ _)
  have hsa : SetArgs d m S pa dt inc :=
    ⟨ha.usable, ha.tuple, fun t hh => by rw [ht] at hh; cases hh; exact hacc, ha.room⟩
  refine ⟨heq, hsa, ?_⟩
  intro m' hc hx
  rw [heq] at hc
  rw [C34_exact hsa ht hx hc, hg]

/-- The value that is set when `dt`, read from an element of type `t2`, is copied to an element of
type `t`: the same one between identical types and between strings, the converted one between
numerals (C47, C48). -/
def Carried (cv : Conv) (t t2 : Dti) (dt v : Datum) : Prop :=
  (ident t t2 = some true ∧ v = dt) ∨
  (ident t t2 = some false ∧ t.isNum = true ∧ t2.isNum = true ∧ typeCast cv .empty t dt t2 = some (v, true)) ∨
  (ident t t2 = some false ∧ t.isStr = true ∧ t2.isStr = true ∧ v = dt)

/-- C49. Every copy either leaves the destination as it is and answers false, or is
`set_element_in_tuple` with a value that may be set (so that C35 to C37 speak about it); it never
goes outside of memory. It is refused without a look at the destination if one of the positions is
not there, or if the types are neither identical nor both numeral nor both strings. -/
theorem C49_is_set {cv : Conv} (hcv : cv.Ok) {d d2 : Dti} {m m2 : Bytes} {S S2 inc : Nat} {pa pa2 : List Nat}
    (ha : CopyArgs d m S pa d2 m2 S2 inc) :
    (∃ v q m', d.setFromTuple cv m pa d2 m2 pa2 inc = some (m', q) ∧
      ((m' = m ∧ q = false ∧ ∀ t t2 dt v, d.typeAt pa = some t → d2.typeAt pa2 = some t2 →
          d2.getElem m2 pa2 = some (some dt) → ¬ Carried cv t t2 dt v) ∨ (SetArgs d m S pa v inc ∧ d.setElem m pa v inc = some (m', q) ∧
        ∃ t t2 dt, d.typeAt pa = some t ∧ d2.typeAt pa2 = some t2 ∧ d2.getElem m2 pa2 = some (some dt) ∧
          Carried cv t t2 dt v))) ∧
    (d2.getElem m2 pa2 = some none ∨ d.typeAt pa = none ∨
      (∃ t t2, d.typeAt pa = some t ∧ d2.typeAt pa2 = some t2 ∧ ident t t2 = some false ∧
        ¬ (t.isNum = true ∧ t2.isNum = true) ∧ ¬ (t.isStr = true ∧ t2.isStr = true)) →
      d.setFromTuple cv m pa d2 m2 pa2 inc = some (m, false)) := by
  obtain ⟨hS2, val2, he2⟩ := ha.tuple2
  have hgt : ∃ r, d2.getElem m2 pa2 = some r := by
    have g := getElem_ok pa2 ha.usable2.ok hS2 he2
    unfold GetOk at g
    split at g
    · exact ⟨_, g⟩
    · rcases g with ⟨_, g⟩ | ⟨t', dt', g1, g2, g3⟩ <;> exact ⟨_, by assumption⟩
  obtain ⟨r, hg⟩ := hgt
  cases r with
  | none => exact ⟨⟨.null, false, m, by simp [setFromTuple, hg], .inl ⟨rfl, rfl, by simp [hg]⟩⟩, fun _ => by simp [setFromTuple, hg]⟩
  | some dt =>
    cases ht2 : d2.typeAt pa2 with
    | none => exact ⟨⟨.null, false, m, by simp [setFromTuple, hg, ht2], .inl ⟨rfl, rfl, by simp⟩⟩, fun _ => by simp [setFromTuple, hg, ht2]⟩
    | some t2 =>
      cases ht : d.typeAt pa with
      | none => exact ⟨⟨.null, false, m, by simp [setFromTuple, hg, ht2, ht], .inl ⟨rfl, rfl, by simp⟩⟩, fun _ => by simp [setFromTuple, hg, ht2, ht]⟩
      | some t =>
        have hk := (typeAt_ok pa ha.usable.ok ht).1
        have hk2 := (typeAt_ok pa2 ha.usable2.ok ht2).1
        obtain ⟨b, hb⟩ := ident_total (ha.names _ ht) t2
        constructor
        · cases b with
          | true =>
            obtain ⟨h1, h2, _⟩ := C49_identical cv ha ht ht2 hg hb
            obtain ⟨m', q, h3, _⟩ := C36_can_set_predicts h2
            exact ⟨dt, q, m', by rw [h1, h3], .inr ⟨h2, h3, t, t2, dt, rfl, rfl, hg, .inl ⟨hb, rfl⟩⟩⟩
          | false =>
            by_cases hnum : t.isNum = true ∧ t2.isNum = true
            · cases t <;> simp [isNum] at hnum
              cases t2 <;> simp at hnum
              rename_i k h k2 h2
              have hcast : ∃ v q, typeCast cv .empty (.prim k h) dt (.prim k2 h2) = some (v, q) ∧ (q = true → Accepts (.prim k h) v) := by
                cases hn : dt.isNull with
                | true =>
                  rw [typeCast, hn]
                  refine ⟨_, true, rfl, fun _ => ?_⟩
                  split
                  · exact .inl rfl
                  · exact .inr (.inl rfl)
                | false =>
                  obtain ⟨y, h1, h3, h4⟩ := read_at ha.usable2.ok hS2 he2 ht2 hg
                  have hnn : dt ≠ .null := by rintro rfl; cases hn
                  obtain ⟨x, hx, _⟩ := exact_num (k := k2) (h := h2) (v := dt) (by
                    rcases shows_exact hk2 h3 h4 with rfl | ⟨hx, hl⟩ | ⟨src, s, rfl, q1, q2, q3⟩
                    · exact .inl rfl
                    · exact hx
                    · exact absurd rfl (q3.2 _ _)) hnn
                  obtain ⟨v, q, h5, h6, h7⟩ := cast_total cv (e0 := .empty) hk hk2 hnn hx
                  refine ⟨v, q, h5, ?_⟩
                  rintro rfl
                  rw [typeCast, hn] at h5
                  simp only [Bool.false_eq_true, if_false, Option.bind_eq_bind] at h5
                  obtain ⟨o, h8, h9⟩ := Option.bind_eq_some_iff.mp h5
                  cases o with
                  | none => cases h9
                  | some o => cases h9; exact castVal_accepts hcv h8
              obtain ⟨v, q, h5, h6⟩ := hcast
              have hstep : d.setFromTuple cv m pa d2 m2 pa2 inc = if q then d.setElem m pa v inc else some (m, false) := by
                simp only [setFromTuple, hg, ht, ht2, hb, Option.bind_eq_bind, Option.bind_some, Bool.false_eq_true, if_false,
                  isNum, Bool.and_self, if_true, h5]
                cases q <;> rfl
              rw [hstep]
              cases q with
              | false =>
                refine ⟨.null, false, m, rfl, .inl ⟨rfl, rfl, ?_⟩⟩
                intro t t2 dt' v' e1 e2 e3 hcar
                cases e1; cases e2
                rw [hg] at e3; cases e3
                rcases hcar with ⟨e, _⟩ | ⟨_, _, _, e⟩ | ⟨_, e, _⟩
                · rw [hb] at e; cases e
                · rw [h5] at e; cases e
                · simp [isStr] at e
              | true =>
                have hsa : SetArgs d m S pa v inc :=
                  ⟨ha.usable, ha.tuple, fun t hh => by rw [ht] at hh; cases hh; exact h6 rfl, ha.room⟩
                obtain ⟨m', q, h3, _⟩ := C36_can_set_predicts hsa
                exact ⟨v, q, m', h3, .inr ⟨hsa, h3, _, _, dt, rfl, rfl, hg, .inr (.inl ⟨hb, rfl, rfl, h5⟩)⟩⟩
            · by_cases hstr : t.isStr = true ∧ t2.isStr = true
              · cases t <;> simp [isStr] at hstr
                cases t2 <;> simp at hstr
                obtain ⟨h1, h2, _⟩ := C49_string cv ha ht ht2 hg
                obtain ⟨m', q, h3, _⟩ := C36_can_set_predicts h2
                exact ⟨dt, q, m', by rw [h1, h3], .inr ⟨h2, h3, _, _, dt, rfl, rfl, hg, .inr (.inr ⟨hb, rfl, rfl, rfl⟩)⟩⟩
              · refine ⟨.null, false, m, ?_, .inl ⟨rfl, rfl, ?_⟩⟩
                rotate_left
                · intro t' t2' dt' v' e1 e2 e3 hcar
                  cases e1; cases e2
                  rcases hcar with ⟨e, _⟩ | ⟨_, e, e', _⟩ | ⟨_, e, e', _⟩
                  · rw [hb] at e; cases e
                  · exact hnum ⟨e, e'⟩
                  · exact hstr ⟨e, e'⟩
                simp only [setFromTuple, hg, ht, ht2, hb, Option.bind_eq_bind, Option.bind_some, Bool.false_eq_true, if_false]
                rw [if_neg (by simpa using hnum), if_neg (by simpa using hstr)]
                rfl
        · rintro (h | h | ⟨t', t2', h1, h2, h3, h4, h5⟩)
          · rw [hg] at h; cases h
          · cases h
          · cases h1; cases h2
            simp only [setFromTuple, hg, ht, ht2, h3, Option.bind_eq_bind, Option.bind_some, Bool.false_eq_true, if_false]
            rw [if_neg (by simpa using h4), if_neg (by simpa using h5)]
            rfl

/-- The array [5, NULL] is copied, then read inside; a bit field is copied to an integer; a string
to itself; a string is not copied to an integer. -/
example : CopyArgs exFinal exMem 11 [3] exFinal exMem 11 20 ∧
    (exFinal.setElem exMem [3] (.ptr exArr) 20).bind (fun s =>
      (exFinal.setFromTuple ieee exMem [3] exFinal s.1 [3] 20).bind (fun x => (exFinal.getElem x.1 [3, 0]).bind
      (fun a => (exFinal.getElem x.1 [3, 1]).map (fun b => (x.2, a, b))))) = some (true, some (.uint 5), some .null) ∧
    (exFinal.setElem exMem [0] (.uint 9) 20).bind (fun s =>
      (exFinal.setFromTuple ieee exMem [1] exFinal s.1 [0] 20).bind (fun x => (exFinal.getElem x.1 [1]).map
      (fun a => (x.2, a)))) = some (true, some (.int 9)) ∧
    (exFinal.setElem exMem [2] (.bytes [97]) 20).bind (fun s =>
      (exFinal.setFromTuple ieee exMem [2] exFinal s.1 [2] 20).bind (fun x => (exFinal.getElem x.1 [2]).map
      (fun a => (x.2, a)))) = some (true, some (.bytes [97])) ∧
    exFinal.setFromTuple ieee exMem [1] exFinal exMem [2] 20 = some (exMem, false) := by
  have hm : Made exFinal := raw_finalize _ _ exType_raw exType_finalize
  refine ⟨⟨exFinal_usable, hm, exMem_tuple, by decide, ?_, exFinal_usable, hm, exMem_tuple⟩, by decide +kernel,
    by decide +kernel, by decide +kernel, by decide +kernel⟩
  intro t ht
  cases ht
  simp [ShortNames, cname, strn]

end Props
end TS
