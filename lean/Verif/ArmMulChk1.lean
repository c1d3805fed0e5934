import Verif.ArmMul3

/-!
# The code of the AArch64 Montgomery product, optimised variant, is the virtual one
-/

namespace FF.Arm

/-- The check for width `n`. -/
def mulOptChk (n : Nat) : Bool :=
  okBody n [] (mulVars n).saved (mulBody n true) (vMMul n true) (.v (20 * (n - 1) + 22))

set_option maxRecDepth 100000 in
theorem mulOpt_1_8 : (List.range' 1 8).all mulOptChk = true := by decide +kernel

set_option maxRecDepth 100000 in
theorem mulOpt_9 : mulOptChk 9 = true := by decide +kernel

set_option maxRecDepth 100000 in
theorem mulOpt_10 : mulOptChk 10 = true := by decide +kernel

set_option maxRecDepth 100000 in
theorem mulOpt_11 : mulOptChk 11 = true := by decide +kernel

set_option maxRecDepth 100000 in
theorem mulOpt_12 : mulOptChk 12 = true := by decide +kernel

theorem mulOpt_ok {n : Nat} (h1 : 1 ≤ n) (h2 : n ≤ 12) : mulOptChk n = true := by
  by_cases h : n ≤ 8
  · exact List.all_eq_true.mp mulOpt_1_8 n (by simp [List.mem_range'_1]; omega)
  · obtain rfl | rfl | rfl | rfl : n = 9 ∨ n = 10 ∨ n = 11 ∨ n = 12 := by omega
    exacts [mulOpt_9, mulOpt_10, mulOpt_11, mulOpt_12]

end FF.Arm
