import Verif.ArmMulChk2

/-!
# The code of the AArch64 product by a word, optimised variant, is the virtual one
-/

namespace FF.Arm

/-- The check for width `n`. -/
def mul1OptChk (n : Nat) : Bool :=
  okBody n [] (mulVars n).saved (mul1Body n true true) (vMul1 n true true) (.v (20 * (n - 1) + 22))

set_option maxRecDepth 100000 in
theorem mul1Opt_1_8 : (List.range' 1 8).all mul1OptChk = true := by decide +kernel

set_option maxRecDepth 100000 in
theorem mul1Opt_9 : mul1OptChk 9 = true := by decide +kernel

set_option maxRecDepth 100000 in
theorem mul1Opt_10 : mul1OptChk 10 = true := by decide +kernel

set_option maxRecDepth 100000 in
theorem mul1Opt_11 : mul1OptChk 11 = true := by decide +kernel

set_option maxRecDepth 100000 in
theorem mul1Opt_12 : mul1OptChk 12 = true := by decide +kernel

theorem mul1Opt_ok {n : Nat} (h1 : 1 ≤ n) (h2 : n ≤ 12) : mul1OptChk n = true := by
  by_cases h : n ≤ 8
  · exact List.all_eq_true.mp mul1Opt_1_8 n (by simp [List.mem_range'_1]; omega)
  · obtain rfl | rfl | rfl | rfl : n = 9 ∨ n = 10 ∨ n = 11 ∨ n = 12 := by omega
    exacts [mul1Opt_9, mul1Opt_10, mul1Opt_11, mul1Opt_12]

end FF.Arm
