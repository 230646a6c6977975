import Verif.ValidPage
import Verif.PropsInPlace
import Verif.Valid
/-
Property C82: pages of unknown origin. The library reads a page from whatever bytes it is given and
has no function that checks them. `okPage` (ValidPage.lean, not in the code) looks only at the bytes.
It accepts all pages of the library, and a page that it accepts is as good as one that the library
has made: all that is proved about histories of calls holds from such a page on.
-/
namespace TS
namespace Props
open Dti

variable {ps h : Nat} {d : SizeDef} {pg : Bytes} {s : Slots}

theorem okPage_prep (l : Legal ps h d) (hk : okPage ps h d pg = true) :
    PRep ps h d pg (slotsOf ps h d pg) :=
  okPage_rep l.size_ge (by have := l.size_le; omega) (by have := l.ps_le; omega) hk

/-- C82: the check accepts the page after any history of legal calls, and finds the tuples on it. -/
theorem C82_accepts (l : Legal ps h d) (hr : Reach ps h d pg s) :
    okPage ps h d pg = true ∧ slotsOf ps h d pg = s := rep_okPage (hr.rep l.fit)

/-- C82: from bytes that the check accepts on, every history of legal calls is defined, returns what
the specification says for the tuples found, leaves a page that the check accepts, and the page
header is changed by nothing but the calls that write it. -/
theorem C82_history (l : Legal ps h d) (hk : okPage ps h d pg = true) {ops : List Op}
    (ho : ∀ op ∈ ops, OpOk h d op) :
    ∃ pg' rs, run ps d pg ops = some (pg', rs) ∧
      SpecRun d (slotsOf ps h d pg) ops rs (slotsOf ps h d pg') ∧
      Observe ps d pg' (slotsOf ps h d pg') ∧ okPage ps h d pg' = true ∧
      hdrBytes ps h pg' = hdrSpec (hdrBytes ps h pg) ops := by
  obtain ⟨pg', rs, s', h1, h2, h3, h4⟩ := (okPage_prep l hk).run ho
  obtain ⟨h5, h6⟩ := rep_okPage h3
  subst h6
  exact ⟨pg', rs, h1, h2, h3.observe, h5, h4⟩

/-- C82: on bytes that the check accepts every query with any arguments stays inside of the page. -/
theorem C82_queries (l : Legal ps h d) (hk : okPage ps h d pg = true) :
    QueriesDefined ps h d pg ∧ Observe ps d pg (slotsOf ps h d pg) ∧
    ∀ i o, Api.getNth pg ps d i = some (some o) →
      ∃ t, lookup (slotsOf ps h d pg) i = some t ∧ WellFormed d t ∧ o + t.length ≤ ps ∧
        (pg.drop o).take t.length = t := by
  have r := okPage_prep l hk
  refine ⟨rep_queries r, r.observe, ?_⟩
  intro i o hg
  rcases r.getNth i with ⟨o', t, h1, h2, h3, h4, -⟩ | ⟨h1, -⟩
  · rw [hg] at h1; cases h1
    exact ⟨t, lookup_some h2, r.wf.get h2, by rw [← r.len]; exact h3, h4⟩
  · rw [hg] at h1; cases h1

/-- The page passes its check and every tuple on it passes that of its type (C81). -/
def okTyped (ps h : Nat) (sd : SizeDef) (ty : Dti) (pg : Bytes) : Bool :=
  okPage ps h sd pg &&
    (slotsOf ps h sd pg).all (fun x => match x with | none => true | some t => ty.check t)

theorem check_typed {ty : Dti} (hu : Usable ty) (t : Bytes) : ty.check t = true ↔ Typed ty t := by
  unfold Typed IsTuple
  rw [Dti.check_iff ty hu.ok, List.take_length]
  simp

theorem okTyped_iff {sd : SizeDef} {ty : Dti} (hu : Usable ty) :
    okTyped ps h sd ty pg = true ↔ okPage ps h sd pg = true ∧ AllTyped ty (slotsOf ps h sd pg) := by
  unfold okTyped
  rw [Bool.and_eq_true, List.all_eq_true, AllTyped.iff]
  refine and_congr_right fun _ => ⟨?_, ?_⟩
  · intro hx t ht
    exact (check_typed hu t).mp (hx _ ht)
  · intro hx x hm
    cases x with
    | none => rfl
    | some t => exact (check_typed hu t).mpr (hx t hm)

/-- C82: the same with the calls that change elements of tuples in place: where every tuple on an
accepted page passes the check of C81 too, histories of calls with tuples and values of the type are
defined, follow the specification and keep both checks true. -/
theorem C82_typed {sd : SizeDef} {ty : Dti} {d0 : SizeDef} (l : Legal ps h sd) (hu : Usable ty)
    (hsd : sizeDefOf d0 ty = some sd) (hk : okTyped ps h sd ty pg = true) {ops : List Op}
    (ho : ∀ op ∈ ops, TypedOp h ty op) :
    ∃ pg' rs, run ps sd pg ops = some (pg', rs) ∧
      SpecRun sd (slotsOf ps h sd pg) ops rs (slotsOf ps h sd pg') ∧ okTyped ps h sd ty pg' = true := by
  obtain ⟨k1, k2⟩ := (okTyped_iff hu).mp hk
  have : ∀ (ops : List Op) (pg : Bytes) (s : Slots), (∀ op ∈ ops, TypedOp h ty op) → PRep ps h sd pg s →
      AllTyped ty s → ∃ pg' rs s', run ps sd pg ops = some (pg', rs) ∧ SpecRun sd s ops rs s' ∧
        PRep ps h sd pg' s' ∧ AllTyped ty s' := by
    intro ops
    induction ops with
    | nil => intro pg s _ r t; exact ⟨pg, [], s, rfl, .nil s, r, t⟩
    | cons op ops ih =>
      intro pg s ho r t
      obtain ⟨p1, n, s1, h1, h2, h3, h4⟩ := typed_step_of (J := PRep ps h sd)
        (fun r _ ho => by obtain ⟨a, b, c, e1, e2, e3, -⟩ := r.step ho; exact ⟨a, b, c, e1, e2, e3⟩)
        (fun r => r.observe) hu hsd r t (ho op (by simp))
      obtain ⟨p2, rs, s2, h5, h6, h7, h8⟩ := ih p1 s1 (fun o hm => ho o (by simp [hm])) h3 h4
      exact ⟨p2, n :: rs, s2, by simp [TS.run, h1, h5], .cons h2 h6, h7, h8⟩
  obtain ⟨pg', rs, s', h1, h2, h3, h4⟩ := this ops pg _ ho (okPage_prep l k1) k2
  obtain ⟨h5, h6⟩ := rep_okPage h3
  subst h6
  exact ⟨pg', rs, h1, h2, (okTyped_iff hu).mpr ⟨h5, h4⟩⟩

/-! ### Pages that the check refuses -/

/-- A page of 128 bytes with a header of 8 bytes: the words behind the header and the last bytes. -/
def badPage (ws tl : List UInt8) : Bytes :=
  [8, 0, 0, 0, 0, 0, 0, 0, 0] ++ ws ++ List.replicate (119 - ws.length - tl.length) 7 ++ tl

/-- Four slots, of which two hold tuples, as the library would lay them out. -/
def goodPage : Bytes := badPage [11, 4, 2, 116, 0, 119, 116, 0] [3, 8, 8, 4, 7, 7, 7, 2, 9, 3, 1, 2]

/-- C82: what the library does on pages that differ from an acceptable page in one respect: a tuple
announced outside of the page is read there (or the announced slots are); with the space in use
too low, or the number of tomb stones too low, the count wraps around; if free space is announced to
end behind the page the next tuple is written there; and of two tuples that overlap one is changed when an
element of the other is set in place. On a page of tuples of fixed size so many announced tuples reach behind the page. -/
theorem C82_needed :
    (∀ pg ∈ [badPage [11, 4, 2, 116, 0, 200, 116, 0] [3, 8, 8, 4, 7, 7, 7, 2, 9, 3, 1, 2],
             badPage [11, 4, 2, 116, 0, 126, 116, 0] [3, 8, 8, 4, 7, 7, 7, 2, 9, 3, 4, 2]],
      okPage 128 8 exVar pg = false ∧ Api.readNth pg 128 exVar 1 = none) ∧
    (∀ pg ∈ [badPage [11, 250, 2, 116, 0, 119, 116, 0] [3, 8, 8, 4, 7, 7, 7, 2, 9, 3, 1, 2]],
      okPage 128 8 exVar pg = false ∧ Api.readNth pg 128 exVar 200 = none) ∧
    (∀ pg ∈ [badPage [1, 4, 2, 116, 0, 119, 116, 0] [3, 8, 8, 4, 7, 7, 7, 2, 9, 3, 1, 2]],
      okPage 128 8 exVar pg = false ∧ step 128 exVar pg (.discard 1) = none) ∧
    (∀ pg ∈ [badPage [11, 4, 0, 116, 0, 119, 116, 0] [3, 8, 8, 4, 7, 7, 7, 2, 9, 3, 1, 2]],
      okPage 128 8 exVar pg = false ∧ step 128 exVar pg (.discard 0) = none) ∧
    (∀ pg ∈ [badPage [11, 4, 2, 140, 0, 119, 116, 0] [3, 8, 8, 4, 7, 7, 7, 2, 9, 3, 1, 2]],
      okPage 128 8 exVar pg = false ∧ step 128 exVar pg (.append (some [2, 5])) = none) ∧
    (∀ pg ∈ [badPage [12, 4, 2, 119, 0, 119, 119, 0] [3, 8, 8, 4, 7, 7, 7, 2, 9, 3, 1, 2]],
      okPage 128 8 exVar pg = false ∧ Api.readNth pg 128 exVar 2 = some (some [4, 7, 7, 7]) ∧
        (step 128 exVar pg (.setElem 1 ⟨fun _ => some true, fun _ => some ([4, 1, 1, 1], true)⟩)).bind (fun x => Api.readNth x.1 128 exVar 2) =
          some (some [4, 1, 1, 1])) ∧
    (∀ pg ∈ [badPage [250, 2, 6] []],
      okPage 128 8 exFix pg = false ∧ Api.readNth pg 128 exFix 249 = none) := by
  decide +kernel

example : okPage 128 8 exVar goodPage = true ∧
    slotsOf 128 8 exVar goodPage = [none, some [4, 7, 7, 7], some [3, 8, 8], none] ∧
    Legal 128 8 exVar ∧ ∀ op ∈ exVarOps, OpOk 8 exVar op :=
  ⟨by decide +kernel, by decide +kernel, exVar_legal, exVar_ops⟩

example : okPage 128 8 exFix (badPage [3, 1, 5] []) = true ∧ Legal 128 8 exFix := ⟨by decide +kernel, exFix_legal⟩

example : ∃ pg, Legal 128 8 exVar ∧ Reach 128 8 exVar pg exVarSlots := by
  obtain ⟨pg, hp⟩ := exVar_reach
  exact ⟨pg, exVar_legal, hp⟩

example : ∃ pg, okTyped 128 4 exSd exFinal pg = true ∧ Legal 128 4 exSd ∧ Usable exFinal ∧
    TypedOp 4 exFinal (.append (some exTup)) := by
  obtain ⟨pg, _, hr⟩ := exPage_reach
  obtain ⟨r1, r2⟩ := hr.reach exPage_legal exFinal_usable exSd_of
  obtain ⟨a, b⟩ := C82_accepts exPage_legal r1
  exact ⟨pg, (okTyped_iff exFinal_usable).mpr ⟨a, by rw [b]; exact r2⟩, exPage_legal, exFinal_usable,
    fun t ht => by cases ht; exact r2 0 exTup rfl⟩

end Props
end TS
