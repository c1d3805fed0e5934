import Verif.FieldMap
import Verif.F2Inst
import Verif.Props.Curve
import Verif.Props.Multiexp

/-!
# C72: the curves of BN254 on limb arrays

The curve code of C29–C39 is modelled over any field.  Here the field is the code's own: `El q` are the arrays of `N64` limbs below `q`
with the operations of the class `RawFr`/`RawFq` (`ElField.lean`), `F2El (El q)` pairs of them with the operations of `F2Field("-1")`.
`El.toZ` reads an array as the residue it stands for in Montgomery form, `f2Read` a pair as `a + b·u` in `𝔽_q[u]/(u²+1)`.
-/

set_option linter.unusedSectionVars false

namespace FF.Props

open FF FF.Curve Polynomial

/-! ## The operations are those of the class -/

section ops
variable {q : Nat} [Fact q.Prime] [Fact (q % 2 = 1)]

/-- The operators on `El q` are by definition the routines of the class on the arrays. -/
theorem C72_operations (x y : El q) :
    (x + y).v = rawAdd q x.v y.v ∧ (x - y).v = rawSub q x.v y.v ∧ (-x).v = rawNeg q x.v ∧ (x * y).v = rawMMul q x.v y.v ∧
    (0 : El q).v = RawFr.zero q ∧ (1 : El q).v = RawFr.one q ∧
    ((x == y) = rawIsEq x.v y.v) ∧ ((x == 0) = rawIsZero x.v) := by
  refine ⟨rfl, rfl, rfl, rfl, rfl, rfl, ?_, ?_⟩
  · rw [Bool.eq_iff_iff, rawIsEq_iff (x.len.trans y.len.symm), beq_iff_eq]
    exact ⟨fun h => by rw [h], fun h => El.ext (val_inj (x.len.trans y.len.symm) h)⟩
  · have h0 : val (0 : El q).v = 0 := by
      have h : LRep q (0 : El q).v 0 := LRep.congr (RawFr.zero_rep (q := q) (Fact.out : q % 2 = 1)) (zero_mul _)
      rw [h.val_eq]; simp
    rw [Bool.eq_iff_iff, rawIsZero_iff, beq_iff_eq]
    exact ⟨fun h => by rw [h, h0], fun h => El.ext (val_inj (x.len.trans (0 : El q).len.symm) (by rw [h, h0]))⟩

/-- Inverse and quotient are those of the class when the divisor is not zero, whatever GMP leaves for a failed inversion. -/
theorem C72_division (x y : El q) (hy : y ≠ 0) (junk : Int) (m : LMem) (r a b t : Nat) (hr : r ≠ t) (hat : a ≠ t) (ha : m a = x.v) (hb : m b = y.v) :
    (∃ m', RawFr.inv q junk m r b = some m' ∧ m' r = (y⁻¹).v) ∧ ∃ m', RawFr.div q junk m r a b t = some m' ∧ m' r = (x / y).v := by
  have ho : q % 2 = 1 := Fact.out
  have hy' : y.toZ ≠ 0 := fun h => hy ((map_eq_zero (El.hom q)).mp h)
  obtain ⟨m1, h1, h2, -⟩ := RawFr.inv_rep (m := m) (r := r) (a := b) ho junk (hb ▸ y.rep) (isUnit_iff_ne_zero.mpr hy')
  obtain ⟨m2, h3, h4, -⟩ := RawFr.div_rep (m := m) (r := r) (a := a) (b := b) ho junk hr hat (ha ▸ x.rep) (hb ▸ y.rep) (isUnit_iff_ne_zero.mpr hy')
  exact ⟨⟨m1, h1, h2.inj y.invArr_rep⟩, m2, h3, h4.inj (by rw [← div_eq_mul_inv]; exact El.divArr_rep x y)⟩

/-- An array below `q` with `N64` limbs is an element; its residue times `2^(64·N64)` is its number; every residue has one array. -/
theorem C72_reading (x : El q) : x.toZ * 2 ^ (64 * n64 q) = (val x.v : ZMod q) ∧ Function.Bijective (El.toZ (q := q)) := by
  refine ⟨?_, El.hom_bijective⟩
  rw [x.rep.2.2, R]

end ops

/-! ## Any representation of a field -/

section any
variable {K L : Type} [Field K] [DecidableEq K] [Field L] [DecidableEq L] {φ : K →+* L} {a' : K} {a b : L}
  {P Q : GPoint a b} {m : PStore K} {s s1 s2 : PtA K} {r r1 r2 r3 t : Nat}

/-- Addition, doubling, negation and subtraction of points whose coordinates are read by `φ`, in every placement. -/
theorem C72_group (ha : φ a' = a) (hb : b ≠ 0) (h1 : CRep ((m r1).map φ) P) (h2 : CRep ((m r2).map φ) Q) (g1 : ARep (s1.map φ) P) (g2 : ARep (s2.map φ) Q) :
    CRep ((addM a' m r3 r1 r2 r3).map φ) (P + Q) ∧ CRep ((addMixM a' m r3 r1 s2 r3).map φ) (P + Q) ∧
    CRep ((addAffM a' m r3 s1 s2 r3).map φ) (P + Q) ∧ CRep ((dblM a' m r3 r1 r3).map φ) (P + P) ∧
    CRep ((dblAM a' m r3 s1 r3).map φ) (P + P) ∧ CRep ((negM m r3 r1 r3).map φ) (-P) ∧ ARep ((negA s1).map φ) (-P) ∧
    (r1 ≠ t → r3 ≠ t → CRep ((subM a' m r3 r1 r2 t r3).map φ) (P - Q)) := by
  subst ha
  refine ⟨?_, ?_, ?_, ?_, ?_, ?_, ?_, ?_⟩
  · rw [addM_eq, Function.update_self, add_map]; exact (add_rep h1 h2).1
  · rw [addMixM_eq, Function.update_self, addMix_map]; exact (addMix_rep hb h1 g2).1
  · rw [addAffM_eq, Function.update_self, addAff_map]; exact (addAff_rep hb g1 g2).1
  · rw [dblM_eq, Function.update_self, dbl_map]; exact (dbl_rep h1).1
  · rw [dblAM_eq, Function.update_self, dblA_map]; exact (dblA_rep hb g1).1
  · rw [negM_eq, Function.update_self, neg_map]; exact (neg_rep h1).1
  · rw [negA_map]; exact negA_rep g1
  · intro ht1 ht3
    rw [subM_eq a' m r3 r1 r2 t ht1 ht3 r3 ht3, Function.update_self, sub_map, sub_eq_add_neg]
    exact (add_rep h1 (neg_rep h2).1).1

/-- Tests and conversions. -/
theorem C72_tests (hb : b ≠ 0) (h1 : CRep ((m r1).map φ) P) (h2 : CRep ((m r2).map φ) Q) (g1 : ARep (s1.map φ) P) (g2 : ARep (s2.map φ) Q)
    (hp : Proper (m r2)) :
    (isZero (m r1) = true ↔ P = 0) ∧ (isZeroA s1 = true ↔ P = 0) ∧ (eq (m r1) (m r2) = true ↔ P = Q) ∧
    (eqPA (m r1) s2 = true ↔ P = Q) ∧ (eqAA s1 s2 = true ↔ P = Q) ∧
    ARep ((copyAP (m r1)).map φ) P ∧ CRep ((copyPA s1).map φ) P ∧ (copyAP (m r1) = copyAP (m r2) ↔ P = Q) := by
  have hp' : Proper ((m r2).map φ) := by
    intro h
    have := hp ((map_eq_zero φ).mp h)
    simpa [Pt.map] using this
  have inj : ∀ x y : PtA K, x = y ↔ x.map φ = y.map φ := by
    intro x y
    refine ⟨fun h => by rw [h], fun h => ?_⟩
    have h' := PtA.ext_iff.mp h
    exact PtA.ext (φ.injective h'.1) (φ.injective h'.2)
  refine ⟨?_, ?_, ?_, ?_, ?_, ?_, ?_, ?_⟩
  · rw [← isZero_map φ]; exact isZero_iff h1
  · rw [← isZeroA_map φ]; exact isZeroA_iff hb g1
  · rw [← eq_map φ]; exact eq_iff h1 h2 hp'
  · rw [← eqPA_map φ]; exact eqPA_iff hb h1 g2
  · rw [← eqAA_map φ]; exact eqAA_iff hb g1 g2
  · rw [copyAP_map]; exact copyAP_rep h1
  · rw [copyPA_map]; exact (copyPA_rep hb g1).1
  · rw [inj, copyAP_map, copyAP_map]; exact ARep.inj hb (copyAP_rep h1) (copyAP_rep h2)

/-- Multiplication by a scalar of any non-zero number of bytes below `2^28` (see C35). -/
theorem C72_scalar (ha : φ a' = a) (hb : b ≠ 0) (h : CRep ((m r1).map φ) P) (g : ARep (s.map φ) P) (scalar : List (BitVec 8)) (hs : scalar ≠ [])
    (hl : scalar.length < 2 ^ 28) :
    (∃ m', nafMulByScalarM zero (dbl a') (add a') (sub a') m r r1 scalar = some m' ∧ CRep ((m' r).map φ) (valLE scalar • P) ∧
      ∀ i, i ≠ r → m' i = m i) ∧
    ∃ v, nafMulByScalar zero (dbl a') (addMix a') (subMix a') s scalar = some v ∧ CRep (v.map φ) (valLE scalar • P) := by
  subst ha
  have hS := code_sound_map (φ := φ) (a := a') hb
  constructor
  · obtain ⟨v, e, hv⟩ := nafMulByScalar_spec (zero := zero) (dbl := dbl a') (add := add a') (sub := sub a')
      (D := fun (p : Pt K) P => CRep (a := φ a') (b := b) (p.map φ) P) hS.zero (fun _ _ h => hS.dbl h) (fun _ _ h' => hS.add h' h)
      (fun p x h' => by
        show CRep ((sub a' p (m r1)).map φ) _
        rw [sub_map, sub_eq_add_neg]; exact (add_rep h' (neg_rep h).1).1) scalar hs hl
    refine ⟨Function.update m r v, ?_, by simpa using hv, fun i hi => by simp [hi]⟩
    rw [nafMulByScalarM_eq, e]; rfl
  · exact nafMulByScalar_spec (D := fun (p : Pt K) P => CRep (a := φ a') (b := b) (p.map φ) P) hS.zero (fun _ _ h => hS.dbl h)
      (fun _ _ h' => hS.addMix h' g) (fun _ _ h' => hS.subMix h' g) scalar hs hl

variable {σ σ' : Sched} {nThreads nThreads' n : Nat} {bases : Nat → PtA K} {B : Nat → GPoint a b}

/-- Multi-exponentiation by the parallel algorithm, for every number of points and of threads and every schedule. -/
theorem C72_multiexp (ha : φ a' = a) (hb : b ≠ 0) (hσ : σ.Valid nThreads) (hT : 1 ≤ nThreads) (hB : ∀ i < n, ARep ((bases i).map φ) (B i))
    (mem mem' : Nat → Pt K) (scalars : Nat → BitVec 8) {scalarSize : Nat} (hs : 8 ≤ scalarSize) (hs' : scalarSize < 2 ^ 28) :
    ∃ r, multiexp (Curve.code a') σ nThreads mem mem' bases scalars scalarSize n = some r ∧
      CRep (r.map φ) (∑ i ∈ Finset.range n, scalarVal scalars scalarSize i • B i) := by
  subst ha
  exact C36_multiexp (code_sound_map hb) hσ hT hB mem mem' scalars hs hs'

/-- Multi-exponentiation by `msm.cpp`.  Missing, as in C38: scalars of more than `8·scalarSize - 2` bits, for which the code is wrong. -/
theorem C72_msm_partial (ha : φ a' = a) (hb : b ≠ 0) (hσ : σ.Valid nThreads) (hB : ∀ i < n, ARep ((bases i).map φ) (B i)) (hn : n < 2 ^ 31)
    (memM memC : Nat → Pt K) (memS : Nat → ℤ) (scalars : Nat → BitVec 8) {scalarSize : Nat} (hs : 8 ≤ scalarSize) (hs' : scalarSize < 2 ^ 28)
    (hsc : ∀ i < n, scalarVal scalars scalarSize i < 2 ^ (8 * scalarSize - 2)) :
    ∃ r, msmRun (Curve.code a') σ memM memC memS bases scalars scalarSize n = some r ∧
      CRep (r.map φ) (∑ i ∈ Finset.range n, scalarVal scalars scalarSize i • B i) := by
  subst ha
  exact C38_msm_partial (code_sound_map hb) hσ hB hn memM memC memS scalars hs hs' hsc

/-- Both algorithms give the same affine point, limb for limb. -/
theorem C72_agree_partial (ha : φ a' = a) (hb : b ≠ 0) (hσ : σ.Valid nThreads) (hT : 1 ≤ nThreads) (hσ' : σ'.Valid nThreads')
    (hB : ∀ i < n, ARep ((bases i).map φ) (B i)) (hn : n < 2 ^ 31)
    (mem mem' memM memC : Nat → Pt K) (memS : Nat → ℤ) (scalars : Nat → BitVec 8) {scalarSize : Nat} (hs : 8 ≤ scalarSize) (hs' : scalarSize < 2 ^ 28)
    (hsc : ∀ i < n, scalarVal scalars scalarSize i < 2 ^ (8 * scalarSize - 2)) :
    ∃ r r', multiexp (Curve.code a') σ nThreads mem mem' bases scalars scalarSize n = some r ∧
      msmRun (Curve.code a') σ' memM memC memS bases scalars scalarSize n = some r' ∧ copyAP r = copyAP r' := by
  obtain ⟨r, h1, h2⟩ := C72_multiexp ha hb hσ hT hB mem mem' scalars hs hs'
  obtain ⟨r', h3, h4⟩ := C72_msm_partial ha hb hσ' hB hn memM memC memS scalars hs hs' hsc
  refine ⟨r, r', h1, h3, ?_⟩
  have := (ARep.inj hb (copyAP_rep h2) (copyAP_rep h4)).mpr rfl
  rw [← copyAP_map, ← copyAP_map] at this
  have h' := PtA.ext_iff.mp this
  exact PtA.ext (φ.injective h'.1) (φ.injective h'.2)

end any

/-! ## The hypotheses are met

The point `(1, 2)` of `y² = x³ + 3` over `𝔽₁₃`, its coordinates arrays of one limb.  BN254 itself is in `Props/Bn254.lean`. -/

section sample

local instance : Fact (Nat.Prime 13) := ⟨by norm_num⟩
local instance : Fact (13 % 2 = 1) := ⟨by norm_num⟩

theorem sample_ns : (curveW (0 : ZMod 13) 3).Nonsingular 1 2 := by
  rw [nonsingular_iff'']
  exact ⟨by decide, Or.inr (by decide)⟩

theorem sample_ne : (3 : ZMod 13) ≠ 0 := by decide

theorem sample_rep : CRep (a := (0 : ZMod 13)) (b := 3) ((one (El.ofZ 1) (El.ofZ 2) : Pt (El 13)).map (El.hom 13)) (.some 1 2 sample_ns) := by
  have e : (one (El.ofZ 1) (El.ofZ 2) : Pt (El 13)).map (El.hom 13) = one (1 : ZMod 13) 2 := by
    simp only [one, Pt.map, map_one]
    exact Pt.ext (El.toZ_ofZ 1) (El.toZ_ofZ 2) rfl rfl
  rw [e]
  exact ⟨one_ne_zero, by simp [one], by simp [one], by simp [one]⟩

theorem sample_repA : ARep (a := (0 : ZMod 13)) (b := 3) ((oneAffine (El.ofZ 1) (El.ofZ 2) : PtA (El 13)).map (El.hom 13)) (.some 1 2 sample_ns) :=
  ⟨El.toZ_ofZ 1, El.toZ_ofZ 2⟩

example := C72_group (a' := 0) (t := 3) (m := fun _ => one (El.ofZ 1) (El.ofZ 2)) (r1 := 0) (r2 := 1) (r3 := 0) (map_zero (El.hom 13)) sample_ne
  sample_rep sample_rep sample_repA sample_repA

example := C72_tests (m := fun _ => one (El.ofZ 1) (El.ofZ 2)) (r1 := 0) (r2 := 1) sample_ne sample_rep sample_rep sample_repA sample_repA
  (fun h => absurd h one_ne_zero)

example := C72_scalar (a' := 0) (m := fun _ => one (El.ofZ 1) (El.ofZ 2)) (r1 := 0) (r := 0) (map_zero (El.hom 13)) sample_ne sample_rep sample_repA
  [200, 3] (List.cons_ne_nil _ _)

example (mem mem' memM memC : Nat → Pt (El 13)) (memS : Nat → ℤ) := C72_agree_partial (a' := 0) (n := 5) (map_zero (El.hom 13)) sample_ne altSched_valid
  (by norm_num) altSched_valid (bases := fun _ => oneAffine (El.ofZ 1) (El.ofZ 2)) (fun _ _ => sample_repA) (by norm_num) mem mem' memM memC memS
  (fun i => BitVec.ofNat 8 i &&& 15) (scalarSize := 8) (by norm_num) (by decide +kernel)

end sample
end FF.Props
