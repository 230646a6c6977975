import Verif.PropsHash
/-
The sample hash function `fnv_64_update`, /repo/src/tuple_hasher.c:17-23: for how many bytes it has no
collisions.

Written as numbers one step is `h * p + e` modulo 2^64 with `|e| ≤ 255`. Two runs of six steps from the same
state that end in the same state give six numbers `d1 .. d6`, each at most 510 in absolute value, with
`p^5 d1 + p^4 d2 + p^3 d3 + p^2 d4 + p d5 + d6` divisible by 2^64. `fnv_lattice` says that they are all 0. The
coefficients in its proof are a reduced basis of the lattice of solutions, and its inverse.
-/
namespace TS

theorem fnv_small {x y1 y2 y3 y4 y5 y6 b1 b2 b3 b4 b5 b6 : Int} (h1 : -b1 ≤ y1 ∧ y1 ≤ b1) (h2 : -b2 ≤ y2 ∧ y2 ≤ b2) (h3 : -b3 ≤ y3 ∧ y3 ≤ b3)
    (h4 : -b4 ≤ y4 ∧ y4 ≤ b4) (h5 : -b5 ≤ y5 ∧ y5 ≤ b5) (h6 : -b6 ≤ y6 ∧ y6 ≤ b6) (hs : b1 + b2 + b3 + b4 + b5 + b6 < 18446744073709551616)
    (e : 18446744073709551616 * x = y1 + y2 + y3 + y4 + y5 + y6) : x = 0 := by omega

theorem fnv_row0 {x d1 d2 d3 d4 d5 d6 : Int} (b1 : -510 ≤ d1 ∧ d1 ≤ 510) (b2 : -510 ≤ d2 ∧ d2 ≤ 510)
    (b3 : -510 ≤ d3 ∧ d3 ≤ 510) (b4 : -510 ≤ d4 ∧ d4 ≤ 510) (b5 : -510 ≤ d5 ∧ d5 ≤ 510) (b6 : -510 ≤ d6 ∧ d6 ≤ 510)
    (e : 18446744073709551616 * x = (-6302646686563376) * d1 + 1535281643037936 * d2 + (-5452110822838448) * d3 + 559839306353520 * d4 + (-5164142811992368) * d5 + (-4410605614494224) * d6) : x = 0 := by
  refine fnv_small (b1 := 3214349810147321760) (b2 := 782993637949347360) (b3 := 2780576519647608480) (b4 := 285518046240295200) (b5 := 2633712834116107680) (b6 := 2249408863392054240) ?_ ?_ ?_ ?_ ?_ ?_ (by decide) e <;> clear e <;> omega

theorem fnv_row1 {x d1 d2 d3 d4 d5 d6 : Int} (b1 : -510 ≤ d1 ∧ d1 ≤ 510) (b2 : -510 ≤ d2 ∧ d2 ≤ 510)
    (b3 : -510 ≤ d3 ∧ d3 ≤ 510) (b4 : -510 ≤ d4 ∧ d4 ≤ 510) (b5 : -510 ≤ d5 ∧ d5 ≤ 510) (b6 : -510 ≤ d6 ∧ d6 ≤ 510)
    (e : 18446744073709551616 * x = (-10117495039556816) * d1 + 644476066068496 * d2 + 7704392091402160 * d3 + (-4253954618046064) * d4 + (-3431600937981904) * d5 + 2518874921680656 * d6) : x = 0 := by
  refine fnv_small (b1 := 5159922470173976160) (b2 := 328682793694932960) (b3 := 3929239966615101600) (b4 := 2169516855203492640) (b5 := 1750116478370771040) (b6 := 1284626210057134560) ?_ ?_ ?_ ?_ ?_ ?_ (by decide) e <;> clear e <;> omega

theorem fnv_row2 {x d1 d2 d3 d4 d5 d6 : Int} (b1 : -510 ≤ d1 ∧ d1 ≤ 510) (b2 : -510 ≤ d2 ∧ d2 ≤ 510)
    (b3 : -510 ≤ d3 ∧ d3 ≤ 510) (b4 : -510 ≤ d4 ∧ d4 ≤ 510) (b5 : -510 ≤ d5 ∧ d5 ≤ 510) (b6 : -510 ≤ d6 ∧ d6 ≤ 510)
    (e : 18446744073709551616 * x = 10753435092956894 * d1 + 1503490379027114 * d2 + 2833942984976814 * d3 + (-84464088609638) * d4 + (-3509890893664258) * d5 + (-8107455562062582) * d6) : x = 0 := by
  refine fnv_small (b1 := 5484251897408015940) (b2 := 766780093303828140) (b3 := 1445310922338175140) (b4 := 43076685190915380) (b5 := 1790044355768771580) (b6 := 4134802336651916820) ?_ ?_ ?_ ?_ ?_ ?_ (by decide) e <;> clear e <;> omega

theorem fnv_row3 {x d1 d2 d3 d4 d5 d6 : Int} (b1 : -510 ≤ d1 ∧ d1 ≤ 510) (b2 : -510 ≤ d2 ∧ d2 ≤ 510)
    (b3 : -510 ≤ d3 ∧ d3 ≤ 510) (b4 : -510 ≤ d4 ∧ d4 ≤ 510) (b5 : -510 ≤ d5 ∧ d5 ≤ 510) (b6 : -510 ≤ d6 ∧ d6 ≤ 510)
    (e : 18446744073709551616 * x = 964417354571113 * d1 + (-6415703093100941) * d2 + 1237812376006721 * d3 + (-6915764390345669) * d4 + 1040540266766169 * d5 + (-8671412534092605) * d6) : x = 0 := by
  refine fnv_small (b1 := 491852850831267630) (b2 := 3272008577481479910) (b3 := 631284311763427710) (b4 := 3527039839076291190) (b5 := 530675536050746190) (b6 := 4422420392387228550) ?_ ?_ ?_ ?_ ?_ ?_ (by decide) e <;> clear e <;> omega

theorem fnv_row4 {x d1 d2 d3 d4 d5 d6 : Int} (b1 : -510 ≤ d1 ∧ d1 ≤ 510) (b2 : -510 ≤ d2 ∧ d2 ≤ 510)
    (b3 : -510 ≤ d3 ∧ d3 ≤ 510) (b4 : -510 ≤ d4 ∧ d4 ≤ 510) (b5 : -510 ≤ d5 ∧ d5 ≤ 510) (b6 : -510 ≤ d6 ∧ d6 ≤ 510)
    (e : 18446744073709551616 * x = 4482579670404340 * d1 + (-5247281785750212) * d2 + (-1973864442898476) * d3 + (-1178876700584228) * d4 + (-4977183758088268) * d5 + 5046382459189116 * d6) : x = 0 := by
  refine fnv_small (b1 := 2286115631906213400) (b2 := 2676113710732608120) (b3 := 1006670865878222760) (b4 := 601227117297956280) (b5 := 2538363716625016680) (b6 := 2573655054186449160) ?_ ?_ ?_ ?_ ?_ ?_ (by decide) e <;> clear e <;> omega

theorem fnv_row5 {x d1 d2 d3 d4 d5 d6 : Int} (b1 : -510 ≤ d1 ∧ d1 ≤ 510) (b2 : -510 ≤ d2 ∧ d2 ≤ 510)
    (b3 : -510 ≤ d3 ∧ d3 ≤ 510) (b4 : -510 ≤ d4 ∧ d4 ≤ 510) (b5 : -510 ≤ d5 ∧ d5 ≤ 510) (b6 : -510 ≤ d6 ∧ d6 ≤ 510)
    (e : 18446744073709551616 * x = 1150927258463695 * d1 + (-6373219910648459) * d2 + 2407835907481655 * d3 + 7420022407511405 * d4 + 521531150890079 * d5 + (-2434785518635867) * d6) : x = 0 := by
  refine fnv_small (b1 := 586972901816484450) (b2 := 3250342154430714090) (b3 := 1227996312815644050) (b4 := 3784211427830816550) (b5 := 265980886953940290) (b6 := 1241740614504292170) ?_ ?_ ?_ ?_ ?_ ?_ (by decide) e <;> clear e <;> omega

theorem fnv_comb {d a0 a1 a2 a3 a4 a5 x0 x1 x2 x3 x4 x5 : Int} (h0 : x0 = 0) (h1 : x1 = 0) (h2 : x2 = 0) (h3 : x3 = 0)
    (h4 : x4 = 0) (h5 : x5 = 0) (e : d = a0 * x0 + a1 * x1 + a2 * x2 + a3 * x3 + a4 * x4 + a5 * x5) : d = 0 := by
  subst h0 h1 h2 h3 h4 h5; simpa using e

theorem fnv_lattice {d1 d2 d3 d4 d5 d6 q : Int} (b1 : -510 ≤ d1 ∧ d1 ≤ 510) (b2 : -510 ≤ d2 ∧ d2 ≤ 510)
    (b3 : -510 ≤ d3 ∧ d3 ≤ 510) (b4 : -510 ≤ d4 ∧ d4 ≤ 510) (b5 : -510 ≤ d5 ∧ d5 ≤ 510) (b6 : -510 ≤ d6 ∧ d6 ≤ 510)
    (h : 913917546033277539 * d1 + 11527715348014283921 * d2 + 624165263380053675 * d3 + 956575116354345 * d4 + 1099511628211 * d5 + d6 = 18446744073709551616 * q) :
    d1 = 0 ∧ d2 = 0 ∧ d3 = 0 ∧ d4 = 0 ∧ d5 = 0 ∧ d6 = 0 := by
  have c0 : 218517145552210 * d1 + 2756269932139765 * d2 + 149237545879972 * d3 + 228716545425 * d4 + 262892581 * d5 + (-4410605614494224) * q = 0 :=
    fnv_row0 b1 b2 b3 b4 b5 b6 (by clear b1 b2 b3 b4 b5 b6; omega)
  have c1 : (-124794054603275) * d1 + (-1574092044555980) * d2 + (-85228819927790) * d3 + (-130618881124) * d4 + (-150136645) * d5 + 2518874921680656 * q = 0 :=
    fnv_row1 b1 b2 b3 b4 b5 b6 (by clear b1 b2 b3 b4 b5 b6 c0; omega)
  have c2 : 401672287653962 * d1 + 5066500599926096 * d2 + 274324407386829 * d3 + 420420547747 * d4 + 483242009 * d5 + (-8107455562062582) * q = 0 :=
    fnv_row2 b1 b2 b3 b4 b5 b6 (by clear b1 b2 b3 b4 b5 b6 c0 c1; omega)
  have c3 : 429612729061213 * d1 + 5418927858422929 * d2 + 293406493123781 * d3 + 449665123591 * d4 + 516856464 * d5 + (-8671412534092605) * q = 0 :=
    fnv_row3 b1 b2 b3 b4 b5 b6 (by clear b1 b2 b3 b4 b5 b6 c0 c1 c2; omega)
  have c4 : (-250015799808299) * d1 + (-3153578772183078) * d2 + (-170749733620761) * d3 + (-261685415528) * d4 + (-300787834) * d5 + 5046382459189116 * q = 0 :=
    fnv_row4 b1 b2 b3 b4 b5 b6 (by clear b1 b2 b3 b4 b5 b6 c0 c1 c2 c3; omega)
  have c5 : 120627965424013 * d1 + 1521543004020078 * d2 + 82383565275305 * d3 + 126258337595 * d4 + 145124526 * d5 + (-2434785518635867) * q = 0 :=
    fnv_row5 b1 b2 b3 b4 b5 b6 (by clear b1 b2 b3 b4 b5 b6 c0 c1 c2 c3 c4; omega)
  clear b1 b2 b3 b4 b5 b6
  refine ⟨fnv_comb c0 c1 c2 c3 c4 c5 (a0 := -653) (a1 := -498) (a2 := 715) (a3 := -135) (a4 := 459) (a5 := -281) ?_,
    fnv_comb c0 c1 c2 c3 c4 c5 (a0 := 106) (a1 := 48) (a2 := 684) (a3 := -939) (a4 := -926) (a5 := -995) ?_,
    fnv_comb c0 c1 c2 c3 c4 c5 (a0 := -943) (a1 := 1232) (a2 := 713) (a3 := -191) (a4 := -356) (a5 := 551) ?_,
    fnv_comb c0 c1 c2 c3 c4 c5 (a0 := 348) (a1 := -181) (a2 := 133) (a3 := -970) (a4 := -387) (a5 := 1392) ?_,
    fnv_comb c0 c1 c2 c3 c4 c5 (a0 := -1115) (a1 := -811) (a2 := -943) (a3 := 527) (a4 := -1225) (a5 := -95) ?_,
    fnv_comb c0 c1 c2 c3 c4 c5 (a0 := -697) (a1 := 132) (a2 := -544) (a3 := -638) (a4 := 847) (a5 := -338) ?_⟩ <;> clear c0 c1 c2 c3 c4 c5 <;> omega

namespace Props
open Dti

/-! ### One step -/

theorem fnv_byte {h : UInt64} {b c : UInt8} (he : fnv h b = fnv h c) : b = c := by
  unfold fnv at he
  have : b.toUInt64 = c.toUInt64 := by
    have := congrArg (fun x => (h * 0x100000001b3) ^^^ x) he
    simpa [← UInt64.xor_assoc] using this
  have := congrArg UInt64.toUInt8 this
  simpa using this

theorem fnv_state {h g : UInt64} {b : UInt8} (he : fnv h b = fnv g b) : h = g := by
  unfold fnv at he
  have h1 : h * 0x100000001b3 = g * 0x100000001b3 := by
    have := congrArg (fun x => x ^^^ b.toUInt64) he
    simpa [UInt64.xor_assoc] using this
  have h2 := congrArg (fun x => x * 0xce965057aff6957b) h1
  simp only [UInt64.mul_assoc] at h2
  have : (0x100000001b3 : UInt64) * 0xce965057aff6957b = 1 := by decide
  rw [this] at h2
  simpa using h2

theorem xor_byte (a b : Nat) (hb : b < 256) : ∃ e : Int, -255 ≤ e ∧ e ≤ 255 ∧ ((a ^^^ b : Nat) : Int) = a + e := by
  have h1 : (a ^^^ b) / 256 = a / 256 := by
    have : b >>> 8 = 0 := by rw [Nat.shiftRight_eq_div_pow]; exact Nat.div_eq_of_lt hb
    have h := Nat.shiftRight_xor_distrib (a := a) (b := b) (i := 8)
    rw [this, Nat.xor_zero, Nat.shiftRight_eq_div_pow, Nat.shiftRight_eq_div_pow] at h
    exact h
  refine ⟨((a ^^^ b : Nat) : Int) - a, ?_, ?_, by omega⟩ <;> omega

/-- One step as a computation with numbers. -/
theorem fnv_step (h : UInt64) (b : UInt8) : ∃ e k : Int, -255 ≤ e ∧ e ≤ 255 ∧
    ((fnv h b).toNat : Int) = 1099511628211 * (h.toNat : Int) + e + 18446744073709551616 * k := by
  have hx : (fnv h b).toNat = (h.toNat * 1099511628211 % 18446744073709551616) ^^^ b.toNat := by
    unfold fnv
    rw [UInt64.toNat_xor, UInt64.toNat_mul]
    simp
  obtain ⟨e, h1, h2, h3⟩ := xor_byte (h.toNat * 1099511628211 % 18446744073709551616) b.toNat (by have := b.toNat_lt; omega)
  refine ⟨e, -((h.toNat * 1099511628211 / 18446744073709551616 : Nat) : Int), h1, h2, ?_⟩
  rw [hx, h3]
  omega

/-- Equal bytes keep states apart. -/
theorem fnv_run_state (b : Bytes) : ∀ {h g : UInt64}, hashBytes fnv h b = hashBytes fnv g b → h = g := by
  induction b with
  | nil => intro h g he; exact he
  | cons x b ih => intro h g he; exact fnv_state (ih he)

theorem fnv_combine {S1 S2 S3 S4 S5 d1 d2 d3 d4 d5 d6 m1 m2 m3 m4 m5 m6 : Int} (h1 : S1 = d1 + 18446744073709551616 * m1)
    (h2 : S2 = 1099511628211 * S1 + d2 + 18446744073709551616 * m2) (h3 : S3 = 1099511628211 * S2 + d3 + 18446744073709551616 * m3)
    (h4 : S4 = 1099511628211 * S3 + d4 + 18446744073709551616 * m4) (h5 : S5 = 1099511628211 * S4 + d5 + 18446744073709551616 * m5)
    (h6 : 0 = 1099511628211 * S5 + d6 + 18446744073709551616 * m6) :
    913917546033277539 * d1 + 11527715348014283921 * d2 + 624165263380053675 * d3 + 956575116354345 * d4 + 1099511628211 * d5 + d6 = 18446744073709551616 * (-(m6 + 1099511628211 * m5 + 1208925820571204291060521 * m4 + 1329227997362564068125063396651957931 * m3 + 1461501639643759632241992381230392390794884791441 * m2 + 1606938047437756339251907615453285773121308785567455066942051 * m1) - 65536 * d4 - 72057594123452416 * d3 - 79228162639644551293944856595 * d2 - 87112286104081500251499816140704456780207 * d1) := by
  subst h1 h2 h3 h4 h5
  omega

/-- Six bytes. -/
theorem fnv_six {h : UInt64} {a1 a2 a3 a4 a5 a6 b1 b2 b3 b4 b5 b6 : UInt8}
    (he : hashBytes fnv h [a1, a2, a3, a4, a5, a6] = hashBytes fnv h [b1, b2, b3, b4, b5, b6]) :
    [a1, a2, a3, a4, a5, a6] = [b1, b2, b3, b4, b5, b6] := by
  simp only [hashBytes, List.foldl_cons, List.foldl_nil] at he
  obtain ⟨e1, k1, x1, y1, z1⟩ := fnv_step h a1
  obtain ⟨f1, l1, u1, v1, w1⟩ := fnv_step h b1
  generalize hs1 : fnv h a1 = s1 at he z1
  generalize ht1 : fnv h b1 = t1 at he w1
  obtain ⟨e2, k2, x2, y2, z2⟩ := fnv_step s1 a2
  obtain ⟨f2, l2, u2, v2, w2⟩ := fnv_step t1 b2
  generalize hs2 : fnv s1 a2 = s2 at he z2
  generalize ht2 : fnv t1 b2 = t2 at he w2
  obtain ⟨e3, k3, x3, y3, z3⟩ := fnv_step s2 a3
  obtain ⟨f3, l3, u3, v3, w3⟩ := fnv_step t2 b3
  generalize hs3 : fnv s2 a3 = s3 at he z3
  generalize ht3 : fnv t2 b3 = t3 at he w3
  obtain ⟨e4, k4, x4, y4, z4⟩ := fnv_step s3 a4
  obtain ⟨f4, l4, u4, v4, w4⟩ := fnv_step t3 b4
  generalize hs4 : fnv s3 a4 = s4 at he z4
  generalize ht4 : fnv t3 b4 = t4 at he w4
  obtain ⟨e5, k5, x5, y5, z5⟩ := fnv_step s4 a5
  obtain ⟨f5, l5, u5, v5, w5⟩ := fnv_step t4 b5
  generalize hs5 : fnv s4 a5 = s5 at he z5
  generalize ht5 : fnv t4 b5 = t5 at he w5
  obtain ⟨e6, k6, x6, y6, z6⟩ := fnv_step s5 a6
  obtain ⟨f6, l6, u6, v6, w6⟩ := fnv_step t5 b6
  generalize hs6 : fnv s5 a6 = s6 at he z6
  generalize ht6 : fnv t5 b6 = t6 at he w6
  have q6 : (s6.toNat : Int) = t6.toNat := by rw [he]
  have hc := fnv_combine (S1 := s1.toNat - t1.toNat) (S2 := s2.toNat - t2.toNat) (S3 := s3.toNat - t3.toNat) (S4 := s4.toNat - t4.toNat)
    (S5 := s5.toNat - t5.toNat) (d1 := e1 - f1) (d2 := e2 - f2) (d3 := e3 - f3) (d4 := e4 - f4) (d5 := e5 - f5) (d6 := e6 - f6)
    (m1 := k1 - l1) (m2 := k2 - l2) (m3 := k3 - l3) (m4 := k4 - l4) (m5 := k5 - l5) (m6 := k6 - l6)
    (by omega) (by omega) (by omega) (by omega) (by omega) (by omega)
  obtain ⟨n1, n2, n3, n4, n5, n6⟩ := fnv_lattice (by omega) (by omega) (by omega) (by omega) (by omega) (by omega) hc
  have step : ∀ {s t : UInt64} {x k l e f : Int}, (s.toNat : Int) = x + e + 18446744073709551616 * k →
      (t.toNat : Int) = x + f + 18446744073709551616 * l → e - f = 0 → s = t := by
    intro s t x k l e f h1 h2 h3
    have := s.toNat_lt
    have := t.toNat_lt
    exact UInt64.toNat.inj (by omega)
  have r1 := step z1 w1 n1
  rw [← r1] at w2 ht2
  have r2 := step z2 w2 n2
  rw [← r2] at w3 ht3
  have r3 := step z3 w3 n3
  rw [← r3] at w4 ht4
  have r4 := step z4 w4 n4
  rw [← r4] at w5 ht5
  have r5 := step z5 w5 n5
  rw [← r5] at w6 ht6
  have r6 := step z6 w6 n6
  rw [fnv_byte (hs1.trans (r1.trans ht1.symm)), fnv_byte (hs2.trans (r2.trans ht2.symm)), fnv_byte (hs3.trans (r3.trans ht3.symm)), fnv_byte (hs4.trans (r4.trans ht4.symm)), fnv_byte (hs5.trans (r5.trans ht5.symm)), fnv_byte (hs6.trans (r6.trans ht6.symm))]

/-- Up to six bytes. -/
theorem fnv_short {h : UInt64} {a b : Bytes} (hl : a.length = b.length) (h6 : a.length ≤ 6)
    (he : hashBytes fnv h a = hashBytes fnv h b) : a = b := by
  have hp : hashBytes fnv h (a ++ List.replicate (6 - a.length) 0) = hashBytes fnv h (b ++ List.replicate (6 - a.length) 0) := by
    rw [hashBytes_append, hashBytes_append, he]
  have six : ∀ {x y : Bytes}, x.length = 6 → y.length = 6 → hashBytes fnv h x = hashBytes fnv h y → x = y := by
    intro x y hx hy hxy
    match x, hx with
    | [a1, a2, a3, a4, a5, a6], _ =>
      match y, hy with
      | [b1, b2, b3, b4, b5, b6], _ => exact fnv_six hxy
  have := six (by simp; omega) (by simp; omega) hp
  exact List.append_cancel_right this

end Props
end TS
