import Verif.TowerBn
import Verif.ElField

/-!
# The quadratic extension as the field of a template

`F2Field<K>("-1")` over a base field in which -1 is no square: with the operations of the code it is a field, so the curve code can be
instantiated with it (this is the second group of BN254, `c/alt_bn128.hpp:13-17`).
-/

namespace FF

open Polynomial

variable {K : Type} [Field K] [DecidableEq K] [hn : Fact (∀ b : K, b ^ 2 ≠ -1)]

namespace F2El

instance irred : Fact (Irreducible (X ^ 2 - C (-1 : K))) := ⟨X_pow_sub_C_irreducible_of_prime Nat.prime_two hn.out⟩

/-- The element of a value. -/
noncomputable def ofExt (z : Ext2 (-1 : K)) : F2El K := ((F2.toExt_bijective (-1 : K)).2 z).choose
omit hn in
theorem toExt_ofExt (z : Ext2 (-1 : K)) : F2.toExt (-1) (ofExt z) = z := ((F2.toExt_bijective (-1 : K)).2 z).choose_spec

/-- The operations of `f2field.cpp`. -/
instance : Zero (F2El K) := ⟨F2.zero⟩
instance : One (F2El K) := ⟨F2.one⟩
instance : Add (F2El K) := ⟨F2.add⟩
instance : Sub (F2El K) := ⟨F2.sub⟩
instance : Neg (F2El K) := ⟨F2.neg⟩
instance : Mul (F2El K) := ⟨F2.mul (-1)⟩
instance : Inv (F2El K) := ⟨F2.inv (-1)⟩
instance : Div (F2El K) := ⟨F2.div (-1)⟩

theorem toExt_inv (x : F2El K) : F2.toExt (-1) (F2.inv (-1) x) = (F2.toExt (-1) x)⁻¹ := by
  by_cases h : x = F2.zero
  · subst h
    have e : F2.inv (-1 : K) F2.zero = F2.zero := by simp [F2.inv, F2.zero]
    rw [e]
    have : F2.toExt (-1 : K) F2.zero = 0 := F2.ev_zero
    rw [this, inv_zero]
  · have := norm2_ne_zero hn.out x h
    exact eq_inv_of_mul_eq_one_left (F2.ev_inv (F2.hu (-1)) x this)

theorem toExt_div (x y : F2El K) : F2.toExt (-1) (F2.div (-1) x y) = F2.toExt (-1) x / F2.toExt (-1) y := by
  rw [F2.div, F2.toExt_mul, toExt_inv, div_eq_mul_inv]

/-! Operations of Lean's class of fields that the code does not use. -/
noncomputable instance : NatCast (F2El K) := ⟨fun n => ofExt n⟩
noncomputable instance : IntCast (F2El K) := ⟨fun n => ofExt n⟩
noncomputable instance : NNRatCast (F2El K) := ⟨fun n => ofExt n⟩
noncomputable instance : RatCast (F2El K) := ⟨fun n => ofExt n⟩
noncomputable instance : SMul ℕ (F2El K) := ⟨fun n x => ofExt (n • F2.toExt (-1) x)⟩
noncomputable instance : SMul ℤ (F2El K) := ⟨fun n x => ofExt (n • F2.toExt (-1) x)⟩
noncomputable instance : SMul ℚ≥0 (F2El K) := ⟨fun n x => ofExt (n • F2.toExt (-1) x)⟩
noncomputable instance : SMul ℚ (F2El K) := ⟨fun n x => ofExt (n • F2.toExt (-1) x)⟩
noncomputable instance : Pow (F2El K) ℕ := ⟨fun x n => ofExt (F2.toExt (-1) x ^ n)⟩
noncomputable instance : Pow (F2El K) ℤ := ⟨fun x n => ofExt (F2.toExt (-1) x ^ n)⟩

/-- The elements with the operations of the code are a field. -/
noncomputable instance : Field (F2El K) := (F2.toExt_bijective (-1 : K)).1.field (F2.toExt (-1))
  F2.ev_zero F2.ev_one F2.ev_add (F2.toExt_mul (-1)) F2.ev_neg F2.ev_sub toExt_inv toExt_div
  (fun _ _ => toExt_ofExt _) (fun _ _ => toExt_ofExt _) (fun _ _ => toExt_ofExt _) (fun _ _ => toExt_ofExt _)
  (fun _ _ => toExt_ofExt _) (fun _ _ => toExt_ofExt _)
  (fun _ => toExt_ofExt _) (fun _ => toExt_ofExt _) (fun _ => toExt_ofExt _) (fun _ => toExt_ofExt _)

/-- Reading an element over `K` in the extension of another field `L`. -/
noncomputable def hom {L : Type} [Field L] (φ : K →+* L) : F2El K →+* Ext2 (-1 : L) where
  toFun := ev2 ((AdjoinRoot.of (X ^ 2 - C (-1 : L))).comp φ) (AdjoinRoot.root (X ^ 2 - C (-1 : L)))
  map_zero' := F2.ev_zero
  map_one' := F2.ev_one
  map_add' := F2.ev_add
  map_mul' := F2.ev_mul (by
    have e : φ (-1) = -1 := by rw [map_neg, map_one]
    rw [RingHom.comp_apply, e]; exact root_quad (-1))

theorem hom_apply {L : Type} [Field L] (φ : K →+* L) (x : F2El K) :
    hom φ x = AdjoinRoot.of _ (φ x.a) + AdjoinRoot.of _ (φ x.b) * AdjoinRoot.root (X ^ 2 - C (-1 : L)) := rfl

omit hn in
/-- `F.square` of the curve code is the product. -/
theorem square_eq [NeZero (2 : K)] (x : F2El K) : F2.square (-1) x = F2.mul (-1) x x :=
  (F2.toExt_bijective (-1 : K)).1 ((F2.ev_square (F2.hu _) x).trans (F2.toExt_mul _ _ _).symm)

end F2El
end FF
