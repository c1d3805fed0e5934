import Verif.ArmMulChk1

/-!
# The code of the AArch64 Montgomery product, plain variant, is the virtual one
-/

namespace FF.Arm

/-- The check for width `n`. -/
def mulNonChk (n : Nat) : Bool :=
  okBody n [] (mulVars n).saved (mulBody n false) (vMMul n false) (.v (20 * (n - 1) + 22))

set_option maxRecDepth 100000 in
theorem mulNon_1_8 : (List.range' 1 8).all mulNonChk = true := by decide +kernel

set_option maxRecDepth 100000 in
theorem mulNon_9 : mulNonChk 9 = true := by decide +kernel

set_option maxRecDepth 100000 in
theorem mulNon_10 : mulNonChk 10 = true := by decide +kernel

set_option maxRecDepth 100000 in
theorem mulNon_11 : mulNonChk 11 = true := by decide +kernel

set_option maxRecDepth 100000 in
theorem mulNon_12 : mulNonChk 12 = true := by decide +kernel

theorem mulNon_ok {n : Nat} (h1 : 1 ≤ n) (h2 : n ≤ 12) : mulNonChk n = true := by
  by_cases h : n ≤ 8
  · exact List.all_eq_true.mp mulNon_1_8 n (by simp [List.mem_range'_1]; omega)
  · obtain rfl | rfl | rfl | rfl : n = 9 ∨ n = 10 ∨ n = 11 ∨ n = 12 := by omega
    exacts [mulNon_9, mulNon_10, mulNon_11, mulNon_12]

end FF.Arm
