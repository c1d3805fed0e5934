import Verif.F2Inst
import Verif.FieldMap
import Mathlib.GroupTheory.Perm.Cycle.Type
import Mathlib.SetTheory.Cardinal.Finite

/-!
# The curves of BN254, `c/alt_bn128.cpp`

The number of points of `y² = x³ + 3` over `𝔽_q` is the prime `r`: the generator has order `r`, there are at most `2q+1 < 3r` points, and
no point has order 2 since -3 is no cube.
-/

set_option linter.constructorNameAsVariable false

namespace FF

open Curve Polynomial

instance : Fact (bnP % 2 = 1) := ⟨by decide +kernel⟩
instance : Fact (bnR % 2 = 1) := ⟨by decide +kernel⟩
instance nonsqFq : Fact (∀ b : Fq, b ^ 2 ≠ -1) := ⟨neg_one_nonsquare⟩
instance nonsqEl : Fact (∀ b : El bnP, b ^ 2 ≠ -1) := ⟨fun b h => neg_one_nonsquare (El.hom bnP b) (by
  rw [← map_pow, h, map_neg, map_one])⟩

/-- Little-endian bytes of a number: how the callers pass scalars. -/
def bytesLE : Nat → Nat → List (BitVec 8)
  | 0, _ => []
  | k + 1, n => BitVec.ofNat 8 n :: bytesLE k (n / 256)

theorem valLE_bytesLE (k n : Nat) : valLE (bytesLE k n) = n % 256 ^ k := by
  induction k generalizing n with
  | zero => simp [bytesLE, valLE, Nat.mod_one]
  | succ k ih =>
    rw [bytesLE, valLE, ih, BitVec.toNat_ofNat, show (256 : Nat) ^ (k + 1) = 256 * 256 ^ k from pow_succ' 256 k, Nat.mod_mul]

/-! ## The first group -/

/-- The group of the first curve. -/
abbrev G1P := GPoint (0 : Fq) 3

theorem three_ne_zero : (3 : Fq) ≠ 0 := by
  intro h
  have : (((3 : Nat) : Nat) : ZMod bnP) = 0 := by exact_mod_cast h
  rw [ZMod.natCast_eq_zero_iff] at this
  exact absurd (Nat.le_of_dvd (by norm_num) this) (by decide +kernel)

theorem g1_ns : (curveW (0 : Fq) 3).Nonsingular 1 2 := by
  rw [nonsingular_iff'']
  refine ⟨by norm_num, Or.inr ?_⟩
  intro h
  have : (((4 : Nat) : Nat) : ZMod bnP) = 0 := by push_cast; linear_combination h
  rw [ZMod.natCast_eq_zero_iff] at this
  exact absurd (Nat.le_of_dvd (by norm_num) this) (by decide +kernel)

/-- The generator `(1, 2)`. -/
noncomputable def g1 : G1P := .some 1 2 g1_ns

theorem g1_rep : CRep (a := (0 : Fq)) (b := 3) (one 1 2) g1 := ⟨one_ne_zero, by simp [one], by simp [one], by simp [one]⟩

/-- The curve code multiplies the generator by `r`: the result is zero. -/
theorem g1_run : ((nafMulByScalar zero (dbl (0 : Fq)) (add 0) (sub 0) (one 1 2) (bytesLE 32 bnR)).map isZero) = some true := by
  decide +kernel

theorem bytesLE_length (k n : Nat) : (bytesLE k n).length = k := by
  induction k generalizing n with
  | zero => rfl
  | succ k ih => simp [bytesLE, ih]

theorem valLE_bnR : valLE (bytesLE 32 bnR) = bnR := by
  rw [valLE_bytesLE]; decide +kernel

theorem g1_order : bnR • g1 = 0 := by
  obtain ⟨v, e, hv⟩ := nafMulByScalar_spec (zero := zero) (dbl := dbl (0 : Fq)) (add := add 0) (sub := sub 0) (D := CRep (a := 0) (b := 3))
    zero_rep.1 (fun _ _ h => (dbl_rep h).1) (fun _ _ h' => (add_rep h' g1_rep).1)
    (fun _ _ h' => by rw [sub_eq_add_neg]; exact (add_rep h' (neg_rep g1_rep).1).1) (bytesLE 32 bnR) (List.cons_ne_nil _ _) (by rw [bytesLE_length]; norm_num)
  have h := g1_run
  rw [e, Option.map_some, Option.some_inj] at h
  rw [valLE_bnR] at hv
  generalize bnR • g1 = X at hv ⊢
  exact (isZero_iff hv).mp h

theorem g1_ne_zero : g1 ≠ 0 := by intro h; cases h

theorem g1_addOrderOf : addOrderOf g1 = bnR := addOrderOf_eq_prime g1_order g1_ne_zero

/-- -3 is no cube. -/
theorem neg3_noncube (x : Fq) : x ^ 3 ≠ -3 := by
  intro h
  have hx : x ≠ 0 := by rintro rfl; exact three_ne_zero (by linear_combination h)
  have h1 := ZMod.pow_card_sub_one_eq_one hx
  have h2 : (-3 : Fq) ^ ((bnP - 1) / 3) = 1 := by
    rw [← h, ← pow_mul]
    have e : 3 * ((bnP - 1) / 3) = bnP - 1 := by decide +kernel
    rw [e, h1]
  have e3 : (-3 : Fq) = ((bnP - 3 : Nat) : Fq) := by
    rw [Nat.cast_sub (by decide +kernel), CharP.cast_eq_zero]; norm_num
  have hne : powMod bnP (bnP - 3) ((bnP - 1) / 3) ≠ 1 := by decide +kernel
  rw [e3] at h2
  exact hne ((powMod_eq (by decide +kernel) _ _ 1 (by decide +kernel)).2 (by rw [h2]; simp))

/-- A point is its `x` and which half `y` is in. -/
def halfOf : G1P → Option (Fq × Bool)
  | .zero => none
  | .some x y _ => some (x, decide (2 * y.val < bnP))

theorem halfOf_inj : Function.Injective halfOf := by
  intro P Q h
  rcases P with _ | ⟨x1, y1, h1⟩ <;> rcases Q with _ | ⟨x2, y2, h2⟩
  · rfl
  · cases h
  · cases h
  · simp only [halfOf, Option.some_inj, Prod.mk.injEq, decide_eq_decide] at h
    obtain ⟨rfl, h⟩ := h
    have e1 := (nonsingular_iff''.mp h1).1
    have e2 := (nonsingular_iff''.mp h2).1
    have e : y1 ^ 2 = y2 ^ 2 := e1.trans e2.symm
    have hy : y1 = y2 := by
      rcases sq_eq_sq_iff_eq_or_eq_neg.mp e with e | e
      · exact e
      · by_cases hz : y2 = 0
        · rw [e, hz, neg_zero]
        · exfalso
          have hz' : NeZero y2 := ⟨hz⟩
          have hv : y1.val = bnP - y2.val := by rw [e, ZMod.val_neg_of_ne_zero]
          have hl := ZMod.val_lt y2
          have hodd : bnP % 2 = 1 := Fact.out
          have hpos : y2.val ≠ 0 := fun h0 => hz ((ZMod.val_eq_zero y2).mp h0)
          rw [hv] at h
          omega
    subst hy; rfl

instance : Finite G1P := Finite.of_injective halfOf halfOf_inj

theorem g1_card_le : Nat.card G1P ≤ 2 * bnP + 1 := by
  have := Nat.card_le_card_of_injective halfOf halfOf_inj
  have e : Nat.card (Option (Fq × Bool)) = Nat.card Fq * 2 + 1 := by
    rw [Finite.card_option, Nat.card_prod, Nat.card_eq_fintype_card (α := Bool), Fintype.card_bool]
  have e2 : Nat.card Fq = bnP := Nat.card_zmod bnP
  rw [e, e2] at this
  omega

/-- The group has exactly `r` elements. -/
theorem g1_card : Nat.card G1P = bnR := by
  have hd : bnR ∣ Nat.card G1P := by rw [← g1_addOrderOf]; exact addOrderOf_dvd_natCard g1
  obtain ⟨k, hk⟩ := hd
  have hle := g1_card_le
  have h3 : 2 * bnP + 1 < 3 * bnR := by decide +kernel
  have hpos : 0 < Nat.card G1P := Nat.card_pos
  have hk3 : k < 3 := by
    by_contra hc
    have : bnR * 3 ≤ bnR * k := Nat.mul_le_mul_left _ (by omega)
    omega
  have hk0 : k ≠ 0 := by rintro rfl; omega
  by_cases h1 : k = 1
  · rw [hk, h1, Nat.mul_one]
  · exfalso
    have h2 : k = 2 := by omega
    have : Fintype G1P := Fintype.ofFinite G1P
    obtain ⟨P, hP⟩ := exists_prime_addOrderOf_dvd_card (G := G1P) 2 (by
      rw [← Nat.card_eq_fintype_card, hk, h2]; exact Nat.dvd_mul_left 2 bnR)
    have hP2 : 2 • P = 0 := by rw [← hP]; exact addOrderOf_nsmul_eq_zero P
    have hP0 : P ≠ 0 := by rintro rfl; rw [addOrderOf_zero] at hP; omega
    rw [two_nsmul, add_eq_zero_iff_eq_neg] at hP2
    rcases P with _ | ⟨x, y, h⟩
    · exact hP0 rfl
    · rw [WeierstrassCurve.Affine.Point.neg_some] at hP2
      have hy := (WeierstrassCurve.Affine.Point.some.injEq ..).mp hP2
      have hy2 : y = -y := by have := hy.2; rwa [negY_eq] at this
      have hy0 : y = 0 := by
        have : (2 : Fq) * y = 0 := by linear_combination hy2
        rcases mul_eq_zero.mp this with h | h
        · exact absurd h (NeZero.ne (2 : Fq))
        · exact h
      have e := (nonsingular_iff''.mp h).1
      rw [hy0] at e
      exact neg3_noncube x (by linear_combination -e)

theorem g1_torsion (P : G1P) : bnR • P = 0 := by
  rw [← g1_card]
  exact card_nsmul_eq_zero'

end FF
