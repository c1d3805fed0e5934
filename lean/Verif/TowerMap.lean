import Verif.FieldMap
import Verif.TowerBn

/-!
# The tower code over one field seen in another

The code of the three extensions uses only the operations and tests of the base field, so it commutes with every homomorphism of base
fields.  `FieldMap.lean` does the same for the curve code.
-/

set_option linter.unusedSectionVars false

namespace FF

/-- Coordinates read in another field. -/
def F2El.map {K L : Type} (f : K → L) (e : F2El K) : F2El L := ⟨f e.a, f e.b⟩
def F6El.map {K L : Type} (f : K → L) (e : F6El K) : F6El L := ⟨e.x.map f, e.y.map f, e.z.map f⟩
def F12El.map {K L : Type} (f : K → L) (e : F12El K) : F12El L := ⟨e.x.map f, e.y.map f⟩

variable {K L : Type} [Field K] [DecidableEq K] [Field L] [DecidableEq L] (φ : K →+* L)

theorem F2El.map_bijective (h : Function.Bijective φ) : Function.Bijective (F2El.map φ) := by
  refine ⟨fun x y e => ?_, fun y => ?_⟩
  · have := F2El.ext_iff.mp e
    exact F2El.ext (h.1 this.1) (h.1 this.2)
  · obtain ⟨a, ha⟩ := h.2 y.a
    obtain ⟨b, hb⟩ := h.2 y.b
    exact ⟨⟨a, b⟩, F2El.ext ha hb⟩

theorem F6El.map_bijective (h : Function.Bijective φ) : Function.Bijective (F6El.map φ) := by
  have h2 := F2El.map_bijective φ h
  refine ⟨fun x y e => ?_, fun y => ?_⟩
  · have := F6El.ext_iff.mp e
    exact F6El.ext (h2.1 this.1) (h2.1 this.2.1) (h2.1 this.2.2)
  · obtain ⟨a, ha⟩ := h2.2 y.x
    obtain ⟨b, hb⟩ := h2.2 y.y
    obtain ⟨c, hc⟩ := h2.2 y.z
    exact ⟨⟨a, b, c⟩, F6El.ext ha hb hc⟩

theorem F12El.map_bijective (h : Function.Bijective φ) : Function.Bijective (F12El.map φ) := by
  have h6 := F6El.map_bijective φ h
  refine ⟨fun x y e => ?_, fun y => ?_⟩
  · have := F12El.ext_iff.mp e
    exact F12El.ext (h6.1 this.1) (h6.1 this.2)
  · obtain ⟨a, ha⟩ := h6.2 y.x
    obtain ⟨b, hb⟩ := h6.2 y.y
    exact ⟨⟨a, b⟩, F12El.ext ha hb⟩

namespace F2

theorem typeOfNr_map (nr : K) : typeOfNr (φ nr) = typeOfNr nr := by
  have h1 : φ nr = 1 ↔ nr = 1 := ⟨fun e => φ.injective (by rw [e, map_one]), fun e => by rw [e, map_one]⟩
  have h2 : φ nr = -1 ↔ nr = -1 := ⟨fun e => φ.injective (by rw [e, map_neg, map_one]), fun e => by rw [e, map_neg, map_one]⟩
  have h0 : φ nr = 0 ↔ nr = 0 := map_eq_zero φ
  simp only [typeOfNr, h0, h1, h2]

theorem mulByNr_map (nr x : K) : mulByNr (φ nr) (φ x) = φ (mulByNr nr x) := by
  unfold mulByNr
  rw [typeOfNr_map]
  cases typeOfNr nr <;> simp

theorem zero_map : (zero : F2El K).map φ = zero := by simp [zero, F2El.map]
theorem one_map : (one : F2El K).map φ = one := by simp [one, F2El.map]
theorem negOne_map : (negOne : F2El K).map φ = negOne := by simp [negOne, F2El.map]
theorem add_map (x y : F2El K) : (add x y).map φ = add (x.map φ) (y.map φ) := by simp [add, F2El.map]
theorem sub_map (x y : F2El K) : (sub x y).map φ = sub (x.map φ) (y.map φ) := by simp [sub, F2El.map]
theorem neg_map (x : F2El K) : (neg x).map φ = neg (x.map φ) := by simp [neg, F2El.map]
theorem conjugate_map (x : F2El K) : (conjugate x).map φ = conjugate (x.map φ) := by simp [conjugate, F2El.map]
theorem dbl_map (x : F2El K) : (dbl x).map φ = dbl (x.map φ) := by simp [dbl, F2El.map]
theorem mulScalar_map (x : F2El K) (c : K) : (mulScalar x c).map φ = mulScalar (x.map φ) (φ c) := by simp [mulScalar, F2El.map]
theorem mulXi_map (x : F2El K) : (mulXi x).map φ = mulXi (x.map φ) := by simp [mulXi, dbl, add, F2El.map]
theorem mul_map (nr : K) (x y : F2El K) : (mul nr x y).map φ = mul (φ nr) (x.map φ) (y.map φ) := by
  simp [mul, F2El.map, ← mulByNr_map]
theorem inv_map (nr : K) (x : F2El K) : (inv nr x).map φ = inv (φ nr) (x.map φ) := by
  simp [inv, F2El.map, ← mulByNr_map]
theorem div_map (nr : K) (x y : F2El K) : (div nr x y).map φ = div (φ nr) (x.map φ) (y.map φ) := by
  simp only [div, mul_map, inv_map]
theorem square_map (nr : K) (x : F2El K) : (square nr x).map φ = square (φ nr) (x.map φ) := by
  simp only [square, typeOfNr_map]
  split <;> simp [F2El.map, ← mulByNr_map]
theorem isZero_map (x : F2El K) : isZero (x.map φ) = isZero x := by simp only [isZero, F2El.map, Curve.beq_zero_map]
theorem beq_one_map (x : K) : (φ x == 1) = (x == 1) := by rw [← map_one φ, Curve.beq_map]
theorem isOne_map (x : F2El K) : isOne (x.map φ) = isOne x := by simp only [isOne, F2El.map, Curve.beq_zero_map, beq_one_map]
theorem eq_map (x y : F2El K) : eq (x.map φ) (y.map φ) = eq x y := by simp only [eq, F2El.map, Curve.beq_map]

end F2

namespace F6

theorem fmul_map (x y : F2El K) : (fmul x y).map φ = fmul (x.map φ) (y.map φ) := by rw [fmul, F2.mul_map, map_neg, map_one]
theorem fsquare_map (x : F2El K) : (fsquare x).map φ = fsquare (x.map φ) := by rw [fsquare, F2.square_map, map_neg, map_one]
theorem finv_map (x : F2El K) : (finv x).map φ = finv (x.map φ) := by rw [finv, F2.inv_map, map_neg, map_one]

theorem zero_map : (zero : F6El K).map φ = zero := by simp [zero, F6El.map, F2.zero_map]
theorem one_map : (one : F6El K).map φ = one := by simp [one, F6El.map, F2.zero_map, F2.one_map]
theorem negOne_map : (negOne : F6El K).map φ = negOne := by simp [negOne, F6El.map, F2.zero_map, F2.negOne_map]
theorem add_map (x y : F6El K) : (add x y).map φ = add (x.map φ) (y.map φ) := by simp only [add, F6El.map, F2.add_map]
theorem sub_map (x y : F6El K) : (sub x y).map φ = sub (x.map φ) (y.map φ) := by simp only [sub, F6El.map, F2.sub_map]
theorem neg_map (x : F6El K) : (neg x).map φ = neg (x.map φ) := by simp only [neg, F6El.map, F2.neg_map]
theorem dbl_map (x : F6El K) : (dbl x).map φ = dbl (x.map φ) := by simp only [dbl, F6El.map, F2.dbl_map]
theorem mul_map (x y : F6El K) : (mul x y).map φ = mul (x.map φ) (y.map φ) := by
  simp only [mul, F6El.map, fmul_map, F2.add_map, F2.sub_map, F2.mulXi_map]
theorem mulScalar_map (x : F6El K) (y : F2El K) : (mulScalar x y).map φ = mulScalar (x.map φ) (y.map φ) := by
  simp only [mulScalar, F6El.map, fmul_map]
theorem mulTau_map (x : F6El K) : (mulTau x).map φ = mulTau (x.map φ) := by simp only [mulTau, F6El.map, F2.mulXi_map]
theorem mulGFP_map (x : F6El K) (c : K) : (mulGFP x c).map φ = mulGFP (x.map φ) (φ c) := by
  simp only [mulGFP, F6El.map, F2.mulScalar_map]
theorem square_map (x : F6El K) : (square x).map φ = square (x.map φ) := by
  simp only [square, F6El.map, fsquare_map, F2.add_map, F2.sub_map, F2.mulXi_map]
theorem inv_map (x : F6El K) : (inv x).map φ = inv (x.map φ) := by
  simp only [inv, F6El.map, fsquare_map, fmul_map, finv_map, F2.add_map, F2.sub_map, F2.mulXi_map]
theorem div_map (x y : F6El K) : (div x y).map φ = div (x.map φ) (y.map φ) := by simp only [div, mul_map, inv_map]

theorem const1_map : (xiTo2PMinus2Over3 : F2El K).map φ = xiTo2PMinus2Over3 := by
  rw [xiTo2PMinus2Over3, F2El.map, map_natCast, map_natCast]; rfl
theorem const2_map : (xiToPMinus1Over3 : F2El K).map φ = xiToPMinus1Over3 := by
  rw [xiToPMinus1Over3, F2El.map, map_natCast, map_natCast]; rfl
theorem const3_map : φ (xiTo2PSquaredMinus2Over3 : K) = xiTo2PSquaredMinus2Over3 := map_natCast φ _
theorem const4_map : φ (xiToPSquaredMinus1Over3 : K) = xiToPSquaredMinus1Over3 := map_natCast φ _

theorem Frobenius_map (x : F6El K) : (Frobenius x).map φ = Frobenius (x.map φ) := by
  simp only [Frobenius, F6El.map, fmul_map, F2.conjugate_map, const1_map, const2_map]
theorem FrobeniusP2_map (x : F6El K) : (FrobeniusP2 x).map φ = FrobeniusP2 (x.map φ) := by
  simp only [FrobeniusP2, F6El.map, F2.mulScalar_map, const3_map, const4_map]

theorem isZero_map (x : F6El K) : isZero (x.map φ) = isZero x := by simp only [isZero, F6El.map, F2.isZero_map]
theorem isOne_map (x : F6El K) : isOne (x.map φ) = isOne x := by simp only [isOne, F6El.map, F2.isZero_map, F2.isOne_map]
theorem eq_map (x y : F6El K) : eq (x.map φ) (y.map φ) = eq x y := by simp only [eq, F6El.map, F2.eq_map]

end F6

namespace F12

theorem zero_map : (zero : F12El K).map φ = zero := by simp [zero, F12El.map, F6.zero_map]
theorem one_map : (one : F12El K).map φ = one := by simp [one, F12El.map, F6.zero_map, F6.one_map]
theorem negOne_map : (negOne : F12El K).map φ = negOne := by simp [negOne, F12El.map, F6.zero_map, F6.negOne_map]
theorem add_map (x y : F12El K) : (add x y).map φ = add (x.map φ) (y.map φ) := by simp only [add, F12El.map, F6.add_map]
theorem sub_map (x y : F12El K) : (sub x y).map φ = sub (x.map φ) (y.map φ) := by simp only [sub, F12El.map, F6.sub_map]
theorem neg_map (x : F12El K) : (neg x).map φ = neg (x.map φ) := by simp only [neg, F12El.map, F6.neg_map]
theorem conjugate_map (x : F12El K) : (conjugate x).map φ = conjugate (x.map φ) := by simp only [conjugate, F12El.map, F6.neg_map]
theorem mul_map (x y : F12El K) : (mul x y).map φ = mul (x.map φ) (y.map φ) := by
  simp only [mul, F12El.map, F6.mul_map, F6.add_map, F6.mulTau_map]
theorem mulScalar_map (x : F12El K) (y : F6El K) : (mulScalar x y).map φ = mulScalar (x.map φ) (y.map φ) := by
  simp only [mulScalar, F12El.map, F6.mul_map]
theorem square_map (x : F12El K) : (square x).map φ = square (x.map φ) := by
  simp only [square, F12El.map, F6.mul_map, F6.add_map, F6.sub_map, F6.dbl_map, F6.mulTau_map]
theorem inv_map (x : F12El K) : (inv x).map φ = inv (x.map φ) := by
  simp only [inv, F6.square_map, F6.sub_map, F6.mulTau_map, F6.inv_map, F12El.map, F6.neg_map, F6.mul_map, mulScalar]
theorem div_map (x y : F12El K) : (div x y).map φ = div (x.map φ) (y.map φ) := by simp only [div, mul_map, inv_map]

theorem const1_map : (xiToPMinus1Over6 : F2El K).map φ = xiToPMinus1Over6 := by
  rw [xiToPMinus1Over6, F2El.map, map_natCast, map_natCast]; rfl
theorem const2_map : φ (xiToPSquaredMinus1Over6 : K) = xiToPSquaredMinus1Over6 := map_natCast φ _

theorem Frobenius_map (x : F12El K) : (Frobenius x).map φ = Frobenius (x.map φ) := by
  simp only [Frobenius, F12El.map, F6.Frobenius_map, F6.mulScalar_map, const1_map]
theorem FrobeniusP2_map (x : F12El K) : (FrobeniusP2 x).map φ = FrobeniusP2 (x.map φ) := by
  simp only [FrobeniusP2, F12El.map, F6.FrobeniusP2_map, F6.mulGFP_map, const2_map]

theorem isZero_map (x : F12El K) : isZero (x.map φ) = isZero x := by simp only [isZero, F12El.map, F6.isZero_map]
theorem isOne_map (x : F12El K) : isOne (x.map φ) = isOne x := by simp only [isOne, F12El.map, F6.isZero_map, F6.isOne_map]
theorem eq_map (x y : F12El K) : eq (x.map φ) (y.map φ) = eq x y := by simp only [eq, F12El.map, F6.eq_map]

theorem expLoop_map (scalar : List (BitVec 8)) (r a : Nat) : ∀ (i : Nat) (m : Store K) (k : Nat),
    (expLoop scalar r a i m k).map φ = expLoop scalar r a i (fun k => (m k).map φ) k := by
  intro i
  induction i with
  | zero => intro m k; rfl
  | succ i ih =>
    intro m k
    simp only [expLoop]
    rw [ih]
    congr 1
    funext j
    split
    · by_cases hj : j = r
      · subst hj; simp [mul_map, square_map]
      · simp [hj]
    · by_cases hj : j = r
      · subst hj; simp [square_map]
      · simp [hj]

theorem expM_map (m : Store K) (r a : Nat) (scalar : List (BitVec 8)) (k : Nat) :
    (expM m r a scalar k).map φ = expM (fun k => (m k).map φ) r a scalar k := by
  rw [expM, expM, expLoop_map]
  congr 1
  funext j
  by_cases hj : j = r
  · subst hj; simp [one_map]
  · simp [hj]

end F12
end FF
