import Verif.CurveProof
import Mathlib.FieldTheory.Finite.Basic

/-!
# Properties C29 – C35: curve arithmetic and scalar multiplication

`GPoint a b` is Mathlib's group of nonsingular points of `y² = x³ + a x + b` over an arbitrary field `K`.  `CRep p P`: the extended
point `p = (x, y, zz, zzz)` stands for `P`; `ARep s P`: the affine pair `s` stands for `P`, with (0,0) for zero (hence `b ≠ 0`, so
that (0,0) is not on the curve).  `Proper p`: a zero point does not have both `x` and `y` zero.  Functions with suffix `M` work on a
store of points in which the result may be one of the operands.
-/

set_option linter.unusedSectionVars false

namespace FF.Props

open FF FF.Curve

variable {K : Type} [Field K] [DecidableEq K] {a b : K} {P Q : GPoint a b} {p p1 p2 : Pt K} {s s1 s2 : PtA K}
  {m : PStore K} {r r1 r2 r3 r' : Nat}

/-- Every extended point that satisfies the curve equation, on a nonsingular curve, stands for a group element. -/
theorem C29_every_point (hΔ : (curveW a b).Δ ≠ 0) (h0 : p.zz ≠ 0) (h1 : p.zz ^ 3 = p.zzz ^ 2)
    (h2 : p.y ^ 2 = p.x ^ 3 + a * p.x * p.zz ^ 2 + b * p.zz ^ 3) : ∃ P : GPoint a b, CRep p P := by
  obtain ⟨z, hz, e1, e2⟩ := scale h0 h1
  have he : (curveW a b).Equation (p.x / p.zz) (p.y / p.zzz) := by
    rw [equation_iff']
    rw [e1] at h2 ⊢
    rw [e2]
    field_simp
    linear_combination h2
  have hns := (WeierstrassCurve.Affine.equation_iff_nonsingular_of_Δ_ne_zero hΔ).mp he
  have h3 : p.zzz ≠ 0 := by rw [e2]; exact pow_ne_zero _ hz
  exact ⟨.some _ _ hns, h0, h1, by field_simp, by field_simp⟩

/-- Conversely a represented point is on the curve. -/
theorem C29_on_curve (h : CRep p P) (h0 : p.zz ≠ 0) : p.y ^ 2 = p.x ^ 3 + a * p.x * p.zz ^ 2 + b * p.zz ^ 3 := by
  rcases P with _ | ⟨x, y, hP⟩
  · exact absurd h.1 h0
  · obtain ⟨h1, h2, h3, h4⟩ := h
    have := (nonsingular_iff''.mp hP).1
    rw [h3, h4]
    linear_combination (y ^ 2) * (-h2) + p.zz ^ 3 * this

/-- Every group element has representations, one for each non-zero scale. -/
theorem C29_every_scale (P : GPoint a b) {z : K} (hz : z ≠ 0) : ∃ p, CRep p P ∧ Proper p ∧ (P ≠ 0 → p.zz = z ^ 2) := by
  rcases P with _ | ⟨x, y, hP⟩
  · exact ⟨zero, zero_rep.1, (zero_rep (a := a) (b := b)).2, fun h => absurd rfl h⟩
  · exact ⟨⟨x * z ^ 2, y * z ^ 3, z ^ 2, z ^ 3⟩, ⟨pow_ne_zero _ hz, by ring, rfl, rfl⟩, fun e => absurd e (pow_ne_zero _ hz), fun _ => rfl⟩

/-! ## C29: addition and doubling -/

/-- C29, extended plus extended: any representatives, any placement. -/
theorem C29_add (h1 : CRep (m r1) P) (h2 : CRep (m r2) Q) :
    CRep (addM a m r3 r1 r2 r3) (P + Q) ∧ ∀ r, r ≠ r3 → addM a m r3 r1 r2 r = m r := by
  rw [addM_eq]; exact ⟨by simpa using (add_rep h1 h2).1, fun r h => by simp [h]⟩

/-- C29, extended plus affine. -/
theorem C29_add_mixed (hb : b ≠ 0) (h1 : CRep (m r1) P) (h2 : ARep s Q) :
    CRep (addMixM a m r3 r1 s r3) (P + Q) ∧ ∀ r, r ≠ r3 → addMixM a m r3 r1 s r = m r := by
  rw [addMixM_eq]; exact ⟨by simpa using (addMix_rep hb h1 h2).1, fun r h => by simp [h]⟩

/-- C29, affine plus affine. -/
theorem C29_add_affine (hb : b ≠ 0) (h1 : ARep s1 P) (h2 : ARep s2 Q) :
    CRep (addAffM a m r3 s1 s2 r3) (P + Q) ∧ ∀ r, r ≠ r3 → addAffM a m r3 s1 s2 r = m r := by
  rw [addAffM_eq]; exact ⟨by simpa using (addAff_rep hb h1 h2).1, fun r h => by simp [h]⟩

/-- C29, doublings. -/
theorem C29_dbl (h : CRep (m r1) P) :
    CRep (dblM a m r3 r1 r3) (P + P) ∧ ∀ r, r ≠ r3 → dblM a m r3 r1 r = m r := by
  rw [dblM_eq]; exact ⟨by simpa using (dbl_rep h).1, fun r h => by simp [h]⟩

theorem C29_dbl_affine (hb : b ≠ 0) (h : ARep s P) :
    CRep (dblAM a m r3 s r3) (P + P) ∧ ∀ r, r ≠ r3 → dblAM a m r3 s r = m r := by
  rw [dblAM_eq]; exact ⟨by simpa using (dblA_rep hb h).1, fun r h => by simp [h]⟩

/-- C29, the inline overloads that swap operands or return affine points. -/
theorem C29_overloads (hb : b ≠ 0) (h1 : CRep p1 P) (h2 : CRep p2 Q) (g1 : ARep s1 P) (g2 : ARep s2 Q) :
    CRep (addXP a s1 p2) (P + Q) ∧ ARep (addToA a p1 p2) (P + Q) ∧ ARep (addMixToA a p1 s2) (P + Q) ∧
    ARep (addAffToA a s1 s2) (P + Q) ∧ ARep (addXPToA a s1 p2) (P + Q) ∧ ARep (dblToA a p1) (P + P) ∧ ARep (dblAToA a s1) (P + P) := by
  have e : CRep (addXP a s1 p2) (P + Q) := by rw [add_comm]; exact (addMix_rep hb h2 g1).1
  exact ⟨e, copyAP_rep (add_rep h1 h2).1, copyAP_rep (addMix_rep hb h1 g2).1, copyAP_rep (addAff_rep hb g1 g2).1, copyAP_rep e,
    copyAP_rep (dbl_rep h1).1, copyAP_rep (dblA_rep hb g1).1⟩

/-- The two constants. -/
theorem C29_zero : CRep (zero : Pt K) (0 : GPoint a b) ∧ ARep (zeroAffine : PtA K) (0 : GPoint a b) := ⟨zero_rep.1, zeroAffine_rep⟩

/-! ## C30: negation and subtraction -/

/-- C30, negation of an extended point, in any placement. -/
theorem C30_neg (h : CRep (m r1) P) : CRep (negM m r3 r1 r3) (-P) ∧ ∀ r, r ≠ r3 → negM m r3 r1 r = m r := by
  rw [negM_eq]; exact ⟨by simpa using (neg_rep h).1, fun r h => by simp [h]⟩

/-- C30, negation of an affine point, in any placement. -/
theorem C30_neg_affine {m : Nat → PtA K} (h : ARep (m r1) P) : ARep (negAM m r3 r1 r3) (-P) ∧ ∀ r, r ≠ r3 → negAM m r3 r1 r = m r := by
  rw [negAM_eq]; exact ⟨by simpa using negA_rep h, fun r h => by simp [h]⟩

/-- C30, negation of an extended into an affine point. -/
theorem C30_neg_to_affine (h : CRep p P) : ARep (negAP p) (-P) := negAP_rep h

/-- C30, negation of an affine into an extended point.  Missing: zero, for which the call is wrong (`C30_neg_zero_violated`). -/
theorem C30_neg_from_affine_partial (h : ARep s P) (hP : P ≠ 0) : CRep (negPAM m r3 s r3) (-P) := by
  rw [negPAM_eq]; simpa using (negPA_rep h hP).1

/-- C30 fails there: the negative of the affine zero is a point that is not zero, nor any point of the curve. -/
theorem C30_neg_zero_violated (m : PStore K) (hb : b ≠ 0) :
    isZero (negPAM m r3 zeroAffine r3) = false ∧ ∀ P : GPoint a b, ¬ CRep (negPAM m r3 zeroAffine r3) P := by
  rw [negPAM_eq]
  simp only [Function.update_self, negPA, zeroAffine, neg_zero]
  refine ⟨by simp [isZero], fun P h => ?_⟩
  rcases P with _ | ⟨x, y, hP⟩
  · exact one_ne_zero h.1
  · obtain ⟨-, -, h3, h4⟩ := h
    simp only [mul_one] at h3 h4
    have := (nonsingular_iff''.mp hP).1
    rw [← h3, ← h4] at this
    exact hb (by simpa using this.symm)

/-- C30, all eight subtractions (the affine operand is negated as an affine point, so zero is handled). -/
theorem C30_sub (hb : b ≠ 0) (h1 : CRep p1 P) (h2 : CRep p2 Q) (g1 : ARep s1 P) (g2 : ARep s2 Q) :
    CRep (sub a p1 p2) (P - Q) ∧ CRep (subMix a p1 s2) (P - Q) ∧ CRep (subAff a s1 s2) (P - Q) ∧ CRep (subXP a s1 p2) (P - Q) ∧
    ARep (subToA a p1 p2) (P - Q) ∧ ARep (subMixToA a p1 s2) (P - Q) ∧ ARep (subAffToA a s1 s2) (P - Q) ∧
    ARep (subXPToA a s1 p2) (P - Q) := by
  rw [sub_eq_add_neg]
  obtain ⟨c1, c2, c3, c4, c5, -, -⟩ := C29_overloads hb h1 (neg_rep h2).1 g1 (negA_rep g2)
  exact ⟨(add_rep h1 (neg_rep h2).1).1, (addMix_rep hb h1 (negA_rep g2)).1, (addAff_rep hb g1 (negA_rep g2)).1, c1, c2, c3, c4, c5⟩

/-- C30, subtraction on a store; `t` is the address of the function's local. -/
theorem C30_sub_inplace {t : Nat} (h1 : CRep (m r1) P) (h2 : CRep (m r2) Q) (ht1 : r1 ≠ t) (ht3 : r3 ≠ t) :
    CRep (subM a m r3 r1 r2 t r3) (P - Q) ∧ ∀ r, r ≠ r3 → r ≠ t → subM a m r3 r1 r2 t r = m r := by
  have e := subM_eq a m r3 r1 r2 t ht1 ht3
  refine ⟨?_, fun r h h' => by rw [e r h']; simp [h]⟩
  rw [e r3 ht3, sub_eq_add_neg]
  simpa [sub] using (add_rep h1 (neg_rep h2).1).1

/-! ## C31: zero test and equality -/

/-- C31, zero tests. -/
theorem C31_isZero (hb : b ≠ 0) (h : CRep p P) (g : ARep s P) : (isZero p = true ↔ P = 0) ∧ (isZeroA s = true ↔ P = 0) :=
  ⟨isZero_iff h, isZeroA_iff hb g⟩

/-- C31, equality of extended points, when the second is `Proper`.  Missing: an all-zero second operand (`C31_eq_violated`). -/
theorem C31_eq_partial (h1 : CRep p1 P) (h2 : CRep p2 Q) (hp : Proper p2) : eq p1 p2 = true ↔ P = Q := eq_iff h1 h2 hp

/-- C31, symmetry. -/
theorem C31_eq_symm_partial (h1 : CRep p1 P) (h2 : CRep p2 Q) (hp1 : Proper p1) (hp2 : Proper p2) : eq p1 p2 = eq p2 p1 := by
  have e1 := eq_iff h1 h2 hp2
  have e2 := eq_iff h2 h1 hp1
  rw [eq_comm (a := Q)] at e2
  rw [Bool.eq_iff_iff, e1, e2]

/-- C31: the constants and every operation produce `Proper` points from `Proper` operands, so only points filled in by other means
(such as the zeroed accumulator of the multi-exponentiation) are excluded. -/
theorem C31_proper (hb : b ≠ 0) (h1 : CRep p1 P) (h2 : CRep p2 Q) (g1 : ARep s1 P) (g2 : ARep s2 Q) (hp1 : Proper p1) (hp2 : Proper p2) :
    Proper (zero : Pt K) ∧ Proper (add a p1 p2) ∧ Proper (addMix a p1 s2) ∧ Proper (addAff a s1 s2) ∧ Proper (dbl a p1) ∧
    Proper (dblA a s1) ∧ Proper (neg p1) ∧ Proper (copyPA s1) ∧ Proper (sub a p1 p2) ∧ Proper (subMix a p1 s2) :=
  ⟨(zero_rep (a := a) (b := b)).2, (add_rep h1 h2).2 hp1 hp2, (addMix_rep hb h1 g2).2 hp1, (addAff_rep hb g1 g2).2, (dbl_rep h1).2 hp1, (dblA_rep hb g1).2,
    (neg_rep h1).2 hp1, (copyPA_rep hb g1).2, (add_rep h1 (neg_rep h2).1).2 hp1 ((neg_rep h2).2 hp2),
    (addMix_rep hb h1 (negA_rep g2)).2 hp1⟩

/-- C31, equality with an affine point and of affine points. -/
theorem C31_eq_affine (hb : b ≠ 0) (h1 : CRep p1 P) (g1 : ARep s1 P) (g2 : ARep s2 Q) :
    (eqPA p1 s2 = true ↔ P = Q) ∧ (eqAA s1 s2 = true ↔ P = Q) := ⟨eqPA_iff hb h1 g2, eqAA_iff hb g1 g2⟩

/-- C31 fails for the all-zero point, which represents zero: every point is "equal" to it, but not the other way round. -/
theorem C31_eq_violated (h : CRep p P) (hP : P ≠ 0) :
    CRep (⟨0, 0, 0, 0⟩ : Pt K) (0 : GPoint a b) ∧ eq p ⟨0, 0, 0, 0⟩ = true ∧ eq (⟨0, 0, 0, 0⟩ : Pt K) p = false := by
  have hz : ¬ isZero p = true := fun e => hP ((isZero_iff h).mp e)
  refine ⟨⟨rfl, rfl⟩, ?_, ?_⟩
  · rw [eq, if_neg hz]; simp
  · rw [eq, if_pos (by simp [isZero])]; simpa using hz

/-! ## C32: results may overwrite operands -/

/-- C32.  The point stored does not depend on where it is stored, operands included. -/
theorem C32_inplace (a : K) (m : PStore K) (r r' r1 r2 : Nat) (s : PtA K) :
    addM a m r r1 r2 r = addM a m r' r1 r2 r' ∧ addMixM a m r r1 s r = addMixM a m r' r1 s r' ∧
    dblM a m r r1 r = dblM a m r' r1 r' ∧ negM m r r1 r = negM m r' r1 r' ∧ copyM m r r1 r = m r1 := by
  simp [addM_eq, addMixM_eq, dblM_eq, negM_eq, copyM_eq]

/-- C32, affine points. -/
theorem C32_inplace_affine (m : Nat → PtA K) (r r' r1 : Nat) : negAM m r r1 r = negAM m r' r1 r' ∧ copyAM m r r1 r = m r1 := by
  simp [negAM_eq, copyAM_eq]

/-! ## C33: coordinate conversion -/

/-- C33, extended to affine keeps the point, and the result depends only on the point. -/
theorem C33_to_affine (h : CRep p P) : ARep (copyAP p) P := copyAP_rep h
theorem C33_canonical (hb : b ≠ 0) (h1 : CRep p1 P) (h2 : CRep p2 Q) : copyAP p1 = copyAP p2 ↔ P = Q :=
  ARep.inj hb (copyAP_rep h1) (copyAP_rep h2)

/-- C33, affine to extended keeps the point, and converting back gives the same coordinates. -/
theorem C33_from_affine (hb : b ≠ 0) (h : ARep s P) : CRep (copyPAM m r s r) P ∧ copyAP (copyPAM m r s r) = s := by
  rw [copyPAM_eq]
  simp only [Function.update_self]
  exact ⟨(copyPA_rep hb h).1, (ARep.inj hb (copyAP_rep (copyPA_rep hb h).1) h).mpr rfl⟩

/-! ## C34: signed-digit recoding -/

/-- C34.  The digits written for a byte string: `8·(size+2)` of them, each 0, 1 or 2 (for -1), with weighted sum the encoded integer,
no two adjacent ones non-zero, all zero beyond position `8·size+1`. -/
theorem C34_naf (scalar : List (BitVec 8)) (h : scalar ≠ []) :
    ∃ naf, buildNaf scalar = some naf ∧ naf.length = 8 * (scalar.length + 2) ∧ (∀ d ∈ naf, d = 0 ∨ d = 1 ∨ d = 2) ∧
      nafVal naf = (valLE scalar : ℤ) ∧ (∀ j, naf.getD j 0 = 0 ∨ naf.getD (j + 1) 0 = 0) ∧
      ∀ j, 8 * scalar.length + 2 ≤ j → naf.getD j 0 = 0 := buildNaf_spec scalar h

example : buildNaf [0xFF, 0x07] = some ([2, 0, 0, 0, 0, 0, 0, 0, 0, 0, 0, 1] ++ List.replicate 20 0) := by decide +kernel

/-! ## C35: scalar multiplication -/

/-- C35, extended base, possibly the same object as the result.  `sub` uses a local point, so its value is `Curve.sub`. -/
theorem C35_mulByScalar (h : CRep (m r1) P) (scalar : List (BitVec 8)) (hs : scalar ≠ []) (hl : scalar.length < 2 ^ 28) :
    ∃ m', nafMulByScalarM zero (dbl a) (add a) (sub a) m r r1 scalar = some m' ∧ CRep (m' r) (valLE scalar • P) ∧
      ∀ i, i ≠ r → m' i = m i := by
  obtain ⟨v, e, hv⟩ := nafMulByScalar_spec (zero := zero) (dbl := dbl a) (add := add a) (sub := sub a) (D := CRep (a := a) (b := b))
    zero_rep.1 (fun _ _ h => (dbl_rep h).1) (fun _ _ h' => (add_rep h' h).1)
    (fun _ _ h' => by rw [sub_eq_add_neg]; exact (add_rep h' (neg_rep h).1).1) scalar hs hl
  refine ⟨Function.update m r v, ?_, by simpa using hv, fun i hi => by simp [hi]⟩
  rw [nafMulByScalarM_eq, e]; rfl

/-- C35, affine base. -/
theorem C35_mulByScalar_affine (hb : b ≠ 0) (h : ARep s P) (scalar : List (BitVec 8)) (hs : scalar ≠ []) (hl : scalar.length < 2 ^ 28) :
    ∃ v, nafMulByScalar zero (dbl a) (addMix a) (subMix a) s scalar = some v ∧ CRep v (valLE scalar • P) :=
  nafMulByScalar_spec (D := CRep (a := a) (b := b)) zero_rep.1 (fun _ _ h => (dbl_rep h).1) (fun _ _ h' => (addMix_rep hb h' h).1)
    (fun _ _ h' => by rw [sub_eq_add_neg]; exact (addMix_rep hb h' (negA_rep h)).1) scalar hs hl

/-- C35: the bound on the length is sharp.  From `2^28` bytes on the digit counter is negative and the result is zero, whatever the base and
the scalar, as long as the array of digits can be allocated. -/
theorem C35_long_scalar (scalar : List (BitVec 8)) (h1 : 2 ^ 28 ≤ scalar.length) (h2 : scalar.length + 2 < 2 ^ 29) :
    nafMulByScalar zero (dbl a) (addMix a) (subMix a) s scalar = some zero ∧
    ∃ m', nafMulByScalarM zero (dbl a) (add a) (sub a) m r r1 scalar = some m' ∧ m' r = zero :=
  ⟨nafMulByScalar_wrap h1 h2, _, by rw [nafMulByScalarM_eq, nafMulByScalar_wrap h1 h2]; rfl, by simp⟩

/-- C35: the store version of the operations used in C35 is the code's (C32), and the result stays `Proper`. -/
theorem C35_proper (h : CRep (m r1) P) (hp : Proper (m r1)) (scalar : List (BitVec 8)) (hs : scalar ≠ []) (hl : scalar.length < 2 ^ 28) :
    ∃ m', nafMulByScalarM zero (dbl a) (add a) (sub a) m r r1 scalar = some m' ∧ Proper (m' r) := by
  obtain ⟨v, e, hv⟩ := nafMulByScalar_spec (zero := zero) (dbl := dbl a) (add := add a) (sub := sub a)
    (D := fun p P => CRep (a := a) (b := b) p P ∧ Proper p)
    zero_rep (fun _ _ h => ⟨(dbl_rep h.1).1, (dbl_rep h.1).2 h.2⟩) (fun _ _ h' => ⟨(add_rep h'.1 h).1, (add_rep h'.1 h).2 h'.2 hp⟩)
    (fun _ _ h' => by
      rw [sub_eq_add_neg]
      exact ⟨(add_rep h'.1 (neg_rep h).1).1, (add_rep h'.1 (neg_rep h).1).2 h'.2 ((neg_rep h).2 hp)⟩) scalar hs hl
  refine ⟨Function.update m r v, ?_, by simpa using hv.2⟩
  rw [nafMulByScalarM_eq, e]; rfl

/-! ## Concrete cases: `y² = x³ + 3` over the field of 7 elements (13 points) -/

section example7
local instance : Fact (Nat.Prime 7) := ⟨by decide⟩

theorem ns12 : (curveW (0 : ZMod 7) 3).Nonsingular 1 2 := by rw [nonsingular_iff'']; decide
theorem ns45 : (curveW (0 : ZMod 7) 3).Nonsingular 4 2 := by rw [nonsingular_iff'']; decide

/-- The point (1,2) scaled by 3, and (4,2) scaled by 2; the first two add up to neither zero nor a doubling. -/
def ex1 : Pt (ZMod 7) := ⟨1 * 2, 2 * 6, 2, 6⟩
def ex2 : Pt (ZMod 7) := ⟨4 * 4, 2 * 1, 4, 1⟩
example : CRep (a := 0) (b := 3) ex1 (.some 1 2 ns12) ∧ CRep (a := 0) (b := 3) ex2 (.some 4 2 ns45) ∧ Proper ex1 ∧ Proper ex2 := by
  refine ⟨?_, ?_, ?_, ?_⟩
  · show _ ∧ _ ∧ _ ∧ _; decide
  · show _ ∧ _ ∧ _ ∧ _; decide
  · intro h; exact absurd h (by decide)
  · intro h; exact absurd h (by decide)
example : ARep (a := 0) (b := 3) (⟨1, 2⟩ : PtA (ZMod 7)) (.some 1 2 ns12) ∧ (3 : ZMod 7) ≠ 0 := ⟨⟨rfl, rfl⟩, by decide⟩
example : copyAP (addM 0 (fun i => if i = 0 then ex1 else ex2) 0 0 1 0) = ⟨2, 5⟩ := by decide +kernel
example : copyAP (dbl 0 ex1) = ⟨6, 3⟩ ∧ copyAP (add 0 ex1 (neg ex1)) = ⟨0, 0⟩ := by decide +kernel
/-- 13 times the generator is zero; 7 times it is minus 6 times it. -/
example : ((nafMulByScalar zero (dbl (0 : ZMod 7)) (add 0) (sub 0) ex1 [13]).map isZero) = some true ∧
    ((nafMulByScalar zero (dbl (0 : ZMod 7)) (add 0) (sub 0) ex1 [7]).map copyAP) =
      (nafMulByScalar zero (dbl (0 : ZMod 7)) (add 0) (sub 0) ex1 [6]).map negAP := by decide +kernel
example : (curveW (0 : ZMod 7) 3).Δ ≠ 0 := by
  simp [WeierstrassCurve.Δ, WeierstrassCurve.b₂, WeierstrassCurve.b₄, WeierstrassCurve.b₆, WeierstrassCurve.b₈, curveW]; decide

end example7

end FF.Props
