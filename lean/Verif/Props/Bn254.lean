import Verif.Bn254
import Verif.Props.Limb
import Verif.Props.Text

/-!
# C73: the built-in curves of BN254

`c/alt_bn128.cpp:5-18` (and the same text in `alt_bn128.hpp:49-63`) builds `G1` from the texts "0", "3", "1", "2" over `RawFq` and `G2`
from the texts below over `F2Field("-1")`.  `bnP` is the modulus `q` of `RawFq`, `bnR` the modulus `r` of `RawFr`.
-/

set_option linter.unusedSectionVars false
set_option linter.constructorNameAsVariable false

namespace FF.Props

open FF FF.Curve FF.Split Polynomial

/-! ## The first group -/

theorem base_read (n : Nat) : ∃ x : El bnP, baseFromString bnP (mpzGetStr 10 n) = .ok x.v ∧ x.toZ = (n : Fq) := by
  obtain ⟨m', h1, h2, -⟩ := C21_fromString (q := bnP) (m := fun _ => []) (r := 0) Fact.out (by omega : 2 ≤ 10) (by omega) n
  exact ⟨El.mk' h2, by rw [baseFromString, h1]; rfl, El.toZ_of h2⟩

/-- The texts of `alt_bn128.cpp:10` give the coefficients 0, 3 and the coordinates 1, 2. -/
theorem C73_g1_texts : ∃ a b gx gy : El bnP, baseFromString bnP "0".toList = .ok a.v ∧ baseFromString bnP "3".toList = .ok b.v ∧
    baseFromString bnP "1".toList = .ok gx.v ∧ baseFromString bnP "2".toList = .ok gy.v ∧
    a = 0 ∧ b.toZ = 3 ∧ gx.toZ = 1 ∧ gy.toZ = 2 := by
  have key := base_read
  obtain ⟨a, h1, h2⟩ := key 0
  obtain ⟨b, h3, h4⟩ := key 3
  obtain ⟨gx, h5, h6⟩ := key 1
  obtain ⟨gy, h7, h8⟩ := key 2
  rw [show mpzGetStr 10 0 = "0".toList by rw [mpzGetStr]; decide] at h1
  rw [show mpzGetStr 10 3 = "3".toList by rw [mpzGetStr]; decide] at h3
  rw [show mpzGetStr 10 1 = "1".toList by rw [mpzGetStr]; decide] at h5
  rw [show mpzGetStr 10 2 = "2".toList by rw [mpzGetStr]; decide] at h7
  refine ⟨a, b, gx, gy, h1, h3, h5, h7, El.toZ_inj (h2.trans (Nat.cast_zero.trans (map_zero (El.hom bnP)).symm)), ?_, ?_, ?_⟩
  · simpa using h4
  · simpa using h6
  · simpa using h8

/-- Every point of the first curve has order dividing `r`; there are exactly `r` points. -/
theorem C73_g1_order : Nat.card (GPoint (0 : ZMod bnP) 3) = bnR ∧ ∀ P : GPoint (0 : ZMod bnP) 3, bnR • P = 0 := ⟨g1_card, g1_torsion⟩

/-- The generator `(1, 2)` as the code keeps it (`curve.cpp:31-37`) stands for a point that generates the whole group. -/
theorem C73_g1_generator {gx gy : El bnP} (hx : gx.toZ = 1) (hy : gy.toZ = 2) :
    ∃ G : GPoint (0 : ZMod bnP) 3, CRep ((one gx gy).map (El.hom bnP)) G ∧ ARep ((oneAffine gx gy).map (El.hom bnP)) G ∧ addOrderOf G = bnR ∧
      ∀ P : GPoint (0 : ZMod bnP) 3, ∃ k < bnR, P = k • G := by
  have e : (one gx gy).map (El.hom bnP) = one (1 : Fq) 2 := by
    simp only [one, Pt.map, map_one]
    exact Pt.ext hx hy rfl rfl
  have e2 : (oneAffine gx gy).map (El.hom bnP) = ⟨(1 : Fq), 2⟩ := PtA.ext hx hy
  refine ⟨g1, by rw [e]; exact g1_rep, by rw [e2]; exact ⟨rfl, rfl⟩, g1_addOrderOf, fun P => ?_⟩
  have hz := zmultiples_eq_top_of_prime_card (p := bnR) g1_card g1_ne_zero
  have hP : P ∈ AddSubgroup.zmultiples g1 := by rw [hz]; trivial
  obtain ⟨k, hk, hk2⟩ := (mem_zmultiples_iff_mem_range_addOrderOf (x := g1)).mp hP |> Finset.mem_image.mp
  exact ⟨k, by rw [Finset.mem_range, g1_addOrderOf] at hk; exact hk, hk2.symm⟩

/-- Scalar multiplication on the first curve, on limb arrays, depends only on the scalar modulo `r`, for every point, every two byte
strings, every placement; and a multiple of `r` gives zero. -/
theorem C73_g1_scalar {m : PStore (El bnP)} {r1 r r' : Nat} {P : GPoint (0 : ZMod bnP) 3} (h : CRep ((m r1).map (El.hom bnP)) P)
    (s s' : List (BitVec 8)) (hs : s ≠ []) (hs' : s' ≠ []) (hl : s.length < 2 ^ 28) (hl' : s'.length < 2 ^ 28) (hm : valLE s % bnR = valLE s' % bnR) :
    ∃ m1 m2, nafMulByScalarM zero (dbl 0) (add 0) (sub 0) m r r1 s = some m1 ∧
      nafMulByScalarM zero (dbl 0) (add 0) (sub 0) m r' r1 s' = some m2 ∧
      copyAP (m1 r) = copyAP (m2 r') ∧ (valLE s % bnR = 0 → isZero (m1 r) = true) := by
  have g : ARep ((copyAP (m r1)).map (El.hom bnP)) P := by rw [copyAP_map]; exact copyAP_rep h
  obtain ⟨⟨m1, e1, c1, -⟩, -⟩ := C72_scalar (φ := El.hom bnP) (a' := 0) (r := r) (map_zero _) three_ne_zero h g s hs hl
  obtain ⟨⟨m2, e2, c2, -⟩, -⟩ := C72_scalar (φ := El.hom bnP) (a' := 0) (r := r') (map_zero _) three_ne_zero h g s' hs' hl'
  have red : ∀ n, n • P = (n % bnR) • P := by
    intro n
    conv_lhs => rw [← Nat.div_add_mod n bnR, add_nsmul, mul_nsmul, g1_torsion, nsmul_zero, zero_add]
  rw [red] at c1 c2
  rw [← hm] at c2
  refine ⟨m1, m2, e1, e2, ?_, fun hz => ?_⟩
  · have := (ARep.inj three_ne_zero (copyAP_rep c1) (copyAP_rep c2)).mpr rfl
    rw [← copyAP_map, ← copyAP_map] at this
    have h' := PtA.ext_iff.mp this
    exact PtA.ext ((El.hom bnP).injective h'.1) ((El.hom bnP).injective h'.2)
  · rw [hz, zero_nsmul] at c1
    rw [← isZero_map (El.hom bnP)]; exact (isZero_iff c1).mpr rfl

/-- Sums of multiples by scalars below `r` (32 bytes each): both algorithms, on any threads and schedules, give the same affine point, limb
for limb, and it stands for the sum.  Here `msm.cpp` has no exception: a number below `r` has at most 254 bits. -/
theorem C73_g1_multiexp {σ σ' : Sched} {T T' n : Nat} {bases : Nat → PtA (El bnP)} {B : Nat → GPoint (0 : ZMod bnP) 3}
    (hσ : σ.Valid T) (hT : 1 ≤ T) (hσ' : σ'.Valid T') (hB : ∀ i < n, ARep ((bases i).map (El.hom bnP)) (B i)) (hn : n < 2 ^ 31)
    (mem mem' memM memC : Nat → Pt (El bnP)) (memS : Nat → ℤ) (scalars : Nat → BitVec 8) (hsc : ∀ i < n, scalarVal scalars 32 i < bnR) :
    ∃ r r', multiexp (Curve.code 0) σ T mem mem' bases scalars 32 n = some r ∧
      msmRun (Curve.code 0) σ' memM memC memS bases scalars 32 n = some r' ∧ copyAP r = copyAP r' ∧
      CRep (r.map (El.hom bnP)) (∑ i ∈ Finset.range n, scalarVal scalars 32 i • B i) := by
  have hb : bnR ≤ 2 ^ (8 * 32 - 2) := by decide +kernel
  obtain ⟨r, h1, h2⟩ := C72_multiexp (φ := El.hom bnP) (a' := 0) (map_zero _) three_ne_zero hσ hT hB mem mem' scalars (scalarSize := 32) (by norm_num) (by norm_num)
  obtain ⟨r1, r', h3, h4, h5⟩ := C72_agree_partial (φ := El.hom bnP) (a' := 0) (map_zero _) three_ne_zero hσ hT hσ' hB hn mem mem' memM memC memS scalars
    (scalarSize := 32) (by norm_num) (by norm_num) (fun i hi => (hsc i hi).trans_le hb)
  obtain rfl : r = r1 := Option.some_inj.mp (h1.symm.trans h3)
  exact ⟨r, r', h1, h4, h5, h2⟩

/-! ## The second group -/

/-- Values of the numbers in the texts of `alt_bn128.cpp:13-17`. -/
def g2b : F2El Fq := ⟨19485874751759354771024239261021720505790618469301721065564631296452457478373,
  266929791119991161246907387137283842545076965332900288569378510910307636690⟩
def g2x : F2El Fq := ⟨10857046999023057135944570762232829481370756359578518086990519993285655852781,
  11559732032986387107991004021392285783925812861821192530917403151452391805634⟩
def g2y : F2El Fq := ⟨8495653923123431417604973247489272438418190587263600148770280649306958101930,
  4082367875863433681332203403145435568316851327593401208105741076214120093531⟩

/-- A pair of arrays read in `𝔽_q[u]/(u²+1)`. -/
noncomputable abbrev f2Read : F2El (El bnP) →+* Ext2 (-1 : ZMod bnP) := F2El.hom (El.hom bnP)

/-- The text `s` is read as the pair `v`. -/
def F2Text (s : String) (e : F2El (El bnP)) (v : F2El Fq) : Prop :=
  f2FromString (baseFromString bnP) 2 s.toList = .ok (e.a.v, e.b.v) ∧ e.a.toZ = v.a ∧ e.b.toZ = v.b

theorem f2_read {s : String} {n1 n2 : Nat} (h : splitParStr 2 s.toList = .ok [mpzGetStr 10 n1, mpzGetStr 10 n2]) :
    ∃ e, F2Text s e ⟨(n1 : Fq), (n2 : Fq)⟩ := by
  obtain ⟨x, h1, h2⟩ := base_read n1
  obtain ⟨y, h3, h4⟩ := base_read n2
  refine ⟨⟨x, y⟩, ?_, h2, h4⟩
  rw [f2FromString, h]
  simp only [Res.bind, h1, h3]

theorem C73_g2_texts : ∃ a b gx gy, F2Text "0,0" a ⟨0, 0⟩ ∧
    F2Text "19485874751759354771024239261021720505790618469301721065564631296452457478373, 266929791119991161246907387137283842545076965332900288569378510910307636690" b g2b ∧
    F2Text "10857046999023057135944570762232829481370756359578518086990519993285655852781, 11559732032986387107991004021392285783925812861821192530917403151452391805634" gx g2x ∧
    F2Text "8495653923123431417604973247489272438418190587263600148770280649306958101930, 4082367875863433681332203403145435568316851327593401208105741076214120093531" gy g2y := by
  obtain ⟨a, ha⟩ := f2_read (s := "0,0") (n1 := 0) (n2 := 0) (by decide +kernel)
  obtain ⟨b, hb⟩ := f2_read (s := "19485874751759354771024239261021720505790618469301721065564631296452457478373, 266929791119991161246907387137283842545076965332900288569378510910307636690")
    (n1 := 19485874751759354771024239261021720505790618469301721065564631296452457478373)
    (n2 := 266929791119991161246907387137283842545076965332900288569378510910307636690) (by decide +kernel)
  obtain ⟨gx, hx⟩ := f2_read (s := "10857046999023057135944570762232829481370756359578518086990519993285655852781, 11559732032986387107991004021392285783925812861821192530917403151452391805634")
    (n1 := 10857046999023057135944570762232829481370756359578518086990519993285655852781)
    (n2 := 11559732032986387107991004021392285783925812861821192530917403151452391805634) (by decide +kernel)
  obtain ⟨gy, hy⟩ := f2_read (s := "8495653923123431417604973247489272438418190587263600148770280649306958101930, 4082367875863433681332203403145435568316851327593401208105741076214120093531")
    (n1 := 8495653923123431417604973247489272438418190587263600148770280649306958101930)
    (n2 := 4082367875863433681332203403145435568316851327593401208105741076214120093531) (by decide +kernel)
  refine ⟨a, b, gx, gy, ?_, ?_, ?_, ?_⟩
  · simpa using ha
  · simpa only [g2b, Nat.cast_ofNat] using hb
  · simpa only [g2x, Nat.cast_ofNat] using hx
  · simpa only [g2y, Nat.cast_ofNat] using hy

/-- The coefficient of the second curve is `3 / (9 + u)`. -/
theorem C73_g2_coefficient : F2.toExt (-1) g2b * (9 + AdjoinRoot.root (X ^ 2 - C (-1 : ZMod bnP))) = 3 := by
  have e : F2.mul (-1) g2b ⟨9, 1⟩ = ⟨3, 0⟩ := by decide +kernel
  have := congrArg (F2.toExt (-1 : Fq)) e
  rw [F2.toExt_mul, F2.toExt_xi] at this
  rw [this, F2.toExt, map_zero, zero_mul, add_zero]; exact map_ofNat _ 3

/-- The second curve: `y² = x³ + 3/(9+u)` over `𝔽_q[u]/(u²+1)`. -/
noncomputable abbrev g2B : Ext2 (-1 : ZMod bnP) := F2.toExt (-1) g2b

noncomputable instance : DecidableEq (Ext2 (-1 : ZMod bnP)) := Classical.decEq _

theorem g2B_ne_zero : g2B ≠ 0 := by
  intro h
  have := C73_g2_coefficient
  rw [show F2.toExt (-1) g2b = 0 from h, zero_mul] at this
  have h3 : AdjoinRoot.of (X ^ 2 - C (-1 : Fq)) 3 = 0 := by rw [map_ofNat]; exact this.symm
  exact three_ne_zero ((map_eq_zero (AdjoinRoot.of (X ^ 2 - C (-1 : Fq)))).mp h3)

theorem g2_ns : (curveW (0 : Ext2 (-1 : ZMod bnP)) g2B).Nonsingular (F2.toExt (-1) g2x) (F2.toExt (-1) g2y) := by
  rw [nonsingular_iff'']
  have e1 : F2.mul (-1) g2y g2y = F2.add (F2.mul (-1) (F2.mul (-1) g2x g2x) g2x) g2b := by decide +kernel
  have h1 := congrArg (F2.toExt (-1 : Fq)) e1
  have ha : ∀ a b : F2El Fq, F2.toExt (-1) (F2.add a b) = F2.toExt (-1) a + F2.toExt (-1) b := F2.ev_add
  rw [ha, F2.toExt_mul, F2.toExt_mul, F2.toExt_mul] at h1
  refine ⟨by linear_combination h1, Or.inr ?_⟩
  have e2 : F2.add g2y g2y ≠ F2.zero := by decide +kernel
  intro h
  apply e2
  apply (F2.toExt_bijective (-1 : Fq)).1
  rw [ha, show F2.toExt (-1 : Fq) F2.zero = 0 from F2.ev_zero]
  linear_combination h

/-- The generator of the second group. -/
noncomputable def g2 : GPoint (0 : Ext2 (-1 : ZMod bnP)) g2B := .some _ _ g2_ns

theorem g2_run : ((nafMulByScalar zero (dbl (0 : F2El Fq)) (add 0) (sub 0) (one g2x g2y) (bytesLE 32 bnR)).map isZero) = some true := by
  decide +kernel

theorem g2_order : addOrderOf g2 = bnR := by
  refine addOrderOf_eq_prime ?_ (by intro h; cases h)
  have hid : ∀ v : F2El Fq, F2El.hom (RingHom.id Fq) v = F2.toExt (-1) v := fun v => rfl
  have hr : CRep ((one g2x g2y).map (F2El.hom (RingHom.id Fq))) g2 := by
    have h1 : F2.toExt (-1 : Fq) (1 : F2El Fq) = 1 := F2.ev_one
    refine ⟨?_, ?_, ?_, ?_⟩ <;> simp [one, Pt.map, hid, h1]
  have hA : ARep ((oneAffine g2x g2y).map (F2El.hom (RingHom.id Fq))) g2 := ⟨rfl, rfl⟩
  obtain ⟨⟨m', e, hv, -⟩, -⟩ := C72_scalar (φ := F2El.hom (RingHom.id Fq)) (a' := 0) (m := fun _ => one g2x g2y) (r1 := 0) (r := 0)
    (map_zero _) g2B_ne_zero hr hA (bytesLE 32 bnR) (List.cons_ne_nil _ _) (by rw [bytesLE_length]; norm_num)
  have h := g2_run
  rw [nafMulByScalarM_eq] at e
  cases hc : nafMulByScalar zero (dbl (0 : F2El Fq)) (add 0) (sub 0) (one g2x g2y) (bytesLE 32 bnR) with
  | none => rw [hc] at h; cases h
  | some v =>
    rw [hc] at e h
    rw [Option.map_some, Option.some_inj] at e h
    subst e
    rw [valLE_bnR, Function.update_self] at hv
    generalize bnR • g2 = X at hv ⊢
    exact (isZero_iff hv).mp (by rw [isZero_map]; exact h)

/-- The generator of the second group as the code keeps it stands for a point of order `r`. -/
theorem C73_g2_generator {gx gy : F2El (El bnP)} (hx : gx.a.toZ = g2x.a ∧ gx.b.toZ = g2x.b) (hy : gy.a.toZ = g2y.a ∧ gy.b.toZ = g2y.b) :
    ∃ G : GPoint (0 : Ext2 (-1 : ZMod bnP)) g2B, CRep ((one gx gy).map f2Read) G ∧ ARep ((oneAffine gx gy).map f2Read) G ∧ addOrderOf G = bnR := by
  have ex : f2Read gx = F2.toExt (-1) g2x := by
    rw [F2El.hom_apply, show El.hom bnP gx.a = gx.a.toZ from rfl, show El.hom bnP gx.b = gx.b.toZ from rfl]
    rw [hx.1, hx.2]; rfl
  have ey : f2Read gy = F2.toExt (-1) g2y := by
    rw [F2El.hom_apply, show El.hom bnP gy.a = gy.a.toZ from rfl, show El.hom bnP gy.b = gy.b.toZ from rfl]
    rw [hy.1, hy.2]; rfl
  refine ⟨g2, ?_, ⟨ex, ey⟩, g2_order⟩
  refine ⟨?_, ?_, ?_, ?_⟩ <;> simp [one, Pt.map, ex, ey]

/-- Multiples of a point of order `r` of the second group, on pairs of limb arrays, depend only on the scalar modulo `r`. -/
theorem C73_g2_scalar {m : PStore (F2El (El bnP))} {r1 r r' : Nat} {P : GPoint (0 : Ext2 (-1 : ZMod bnP)) g2B}
    (h : CRep ((m r1).map f2Read) P) (hP : bnR • P = 0) (s s' : List (BitVec 8)) (hs : s ≠ []) (hs' : s' ≠ []) (hl : s.length < 2 ^ 28) (hl' : s'.length < 2 ^ 28)
    (hm : valLE s % bnR = valLE s' % bnR) :
    ∃ m1 m2, nafMulByScalarM zero (dbl 0) (add 0) (sub 0) m r r1 s = some m1 ∧
      nafMulByScalarM zero (dbl 0) (add 0) (sub 0) m r' r1 s' = some m2 ∧
      copyAP (m1 r) = copyAP (m2 r') ∧ (valLE s % bnR = 0 → isZero (m1 r) = true) := by
  have g : ARep ((copyAP (m r1)).map f2Read) P := by rw [copyAP_map]; exact copyAP_rep h
  obtain ⟨⟨m1, e1, c1, -⟩, -⟩ := C72_scalar (φ := f2Read) (a' := 0) (r := r) (map_zero _) g2B_ne_zero h g s hs hl
  obtain ⟨⟨m2, e2, c2, -⟩, -⟩ := C72_scalar (φ := f2Read) (a' := 0) (r := r') (map_zero _) g2B_ne_zero h g s' hs' hl'
  have red : ∀ n, n • P = (n % bnR) • P := by
    intro n
    conv_lhs => rw [← Nat.div_add_mod n bnR, add_nsmul, mul_nsmul, hP, nsmul_zero, zero_add]
  rw [red] at c1 c2
  rw [← hm] at c2
  refine ⟨m1, m2, e1, e2, ?_, fun hz => ?_⟩
  · have := (ARep.inj g2B_ne_zero (copyAP_rep c1) (copyAP_rep c2)).mpr rfl
    rw [← copyAP_map, ← copyAP_map] at this
    have h' := PtA.ext_iff.mp this
    exact PtA.ext (f2Read.injective h'.1) (f2Read.injective h'.2)
  · rw [hz, zero_nsmul] at c1
    rw [← isZero_map f2Read]; exact (isZero_iff c1).mpr rfl

/-- The same for the second group. -/
theorem C73_g2_multiexp {σ σ' : Sched} {T T' n : Nat} {bases : Nat → PtA (F2El (El bnP))} {B : Nat → GPoint (0 : Ext2 (-1 : ZMod bnP)) g2B}
    (hσ : σ.Valid T) (hT : 1 ≤ T) (hσ' : σ'.Valid T') (hB : ∀ i < n, ARep ((bases i).map f2Read) (B i)) (hn : n < 2 ^ 31)
    (mem mem' memM memC : Nat → Pt (F2El (El bnP))) (memS : Nat → ℤ) (scalars : Nat → BitVec 8) (hsc : ∀ i < n, scalarVal scalars 32 i < bnR) :
    ∃ r r', multiexp (Curve.code 0) σ T mem mem' bases scalars 32 n = some r ∧
      msmRun (Curve.code 0) σ' memM memC memS bases scalars 32 n = some r' ∧ copyAP r = copyAP r' ∧
      CRep (r.map f2Read) (∑ i ∈ Finset.range n, scalarVal scalars 32 i • B i) := by
  have hb : bnR ≤ 2 ^ (8 * 32 - 2) := by decide +kernel
  obtain ⟨r, h1, h2⟩ := C72_multiexp (φ := f2Read) (a' := 0) (map_zero _) g2B_ne_zero hσ hT hB mem mem' scalars (scalarSize := 32) (by norm_num) (by norm_num)
  obtain ⟨r1, r', h3, h4, h5⟩ := C72_agree_partial (φ := f2Read) (a' := 0) (map_zero _) g2B_ne_zero hσ hT hσ' hB hn mem mem' memM memC memS scalars
    (scalarSize := 32) (by norm_num) (by norm_num) (fun i hi => (hsc i hi).trans_le hb)
  obtain rfl : r = r1 := Option.some_inj.mp (h1.symm.trans h3)
  exact ⟨r, r', h1, h4, h5, h2⟩

/-- The hypotheses are met: an array for every residue, so a pair for every value; the generator times 5, taken as 5 and as `5 + r`. -/
example : ∃ (gx gy : F2El (El bnP)), (gx.a.toZ = g2x.a ∧ gx.b.toZ = g2x.b) ∧ (gy.a.toZ = g2y.a ∧ gy.b.toZ = g2y.b) :=
  ⟨⟨El.ofZ g2x.a, El.ofZ g2x.b⟩, ⟨El.ofZ g2y.a, El.ofZ g2y.b⟩, ⟨El.toZ_ofZ _, El.toZ_ofZ _⟩, El.toZ_ofZ _, El.toZ_ofZ _⟩

example : ∃ m1 m2, nafMulByScalarM zero (dbl 0) (add 0) (sub 0) (fun _ => one (El.ofZ 1) (El.ofZ 2) : PStore (El bnP)) 0 0 (bytesLE 1 5) = some m1 ∧
    nafMulByScalarM zero (dbl 0) (add 0) (sub 0) (fun _ => one (El.ofZ 1) (El.ofZ 2) : PStore (El bnP)) 0 0 (bytesLE 32 (bnR + 5)) = some m2 ∧
    copyAP (m1 0) = copyAP (m2 0) ∧ (valLE (bytesLE 1 5) % bnR = 0 → isZero (m1 0) = true) := by
  obtain ⟨G, hG, -⟩ := C73_g1_generator (El.toZ_ofZ (q := bnP) 1) (El.toZ_ofZ 2)
  exact C73_g1_scalar (m := fun _ => one (El.ofZ 1) (El.ofZ 2)) (r1 := 0) hG _ _ (List.cons_ne_nil _ _) (List.cons_ne_nil _ _) (by rw [bytesLE_length]; norm_num) (by rw [bytesLE_length]; norm_num) (by
    rw [valLE_bytesLE, valLE_bytesLE]; decide +kernel)

/-- Multi-exponentiation over the second group, three copies of the generator, two threads. -/
example (mem mem' : Nat → Pt (F2El (El bnP))) : ∃ (bases : Nat → PtA (F2El (El bnP))) (G : GPoint (0 : Ext2 (-1 : ZMod bnP)) g2B), ∃ r,
    multiexp (Curve.code 0) altSched 2 mem mem' bases (fun i => BitVec.ofNat 8 i) 32 3 = some r ∧
      CRep (r.map f2Read) (∑ i ∈ Finset.range 3, scalarVal (fun i => BitVec.ofNat 8 i) 32 i • G) := by
  obtain ⟨G, -, hG, -⟩ := C73_g2_generator (gx := ⟨El.ofZ g2x.a, El.ofZ g2x.b⟩) (gy := ⟨El.ofZ g2y.a, El.ofZ g2y.b⟩)
    ⟨El.toZ_ofZ _, El.toZ_ofZ _⟩ ⟨El.toZ_ofZ _, El.toZ_ofZ _⟩
  exact ⟨fun _ => _, G, C72_multiexp (φ := f2Read) (a' := 0) (map_zero _) g2B_ne_zero altSched_valid (by norm_num) (fun _ _ => hG) mem mem' _ (by norm_num) (by norm_num)⟩

example (mem mem' memM memC : Nat → Pt (El bnP)) (memS : Nat → ℤ) : ∃ (bases : Nat → PtA (El bnP)) (G : GPoint (0 : ZMod bnP) 3), ∃ r r',
    multiexp (Curve.code 0) altSched 2 mem mem' bases (fun i => BitVec.ofNat 8 i &&& 15) 32 7 = some r ∧
      msmRun (Curve.code 0) altSched memM memC memS bases (fun i => BitVec.ofNat 8 i &&& 15) 32 7 = some r' ∧ copyAP r = copyAP r' ∧
      CRep (r.map (El.hom bnP)) (∑ i ∈ Finset.range 7, scalarVal (fun i => BitVec.ofNat 8 i &&& 15) 32 i • G) := by
  obtain ⟨G, -, hG, -⟩ := C73_g1_generator (El.toZ_ofZ (q := bnP) 1) (El.toZ_ofZ 2)
  exact ⟨fun _ => _, G, C73_g1_multiexp (B := fun _ => G) altSched_valid (by norm_num) altSched_valid (fun _ _ => hG) (by norm_num) mem mem' memM memC memS _
    (by decide +kernel)⟩

end FF.Props
