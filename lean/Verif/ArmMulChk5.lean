import Verif.ArmMulChk4

/-!
# The code of the AArch64 `rawFromMontgomery`, optimised variant, is the virtual one
-/

namespace FF.Arm

/-- The check for width `n`. -/
def fromMOptChk (n : Nat) : Bool :=
  okBody n [] (mulVars n).saved (mul1Body n false true) (vMul1 n false true) (.v (20 * (n - 1) + 22))

set_option maxRecDepth 100000 in
theorem fromMOpt_1_8 : (List.range' 1 8).all fromMOptChk = true := by decide +kernel

set_option maxRecDepth 100000 in
theorem fromMOpt_9 : fromMOptChk 9 = true := by decide +kernel

set_option maxRecDepth 100000 in
theorem fromMOpt_10 : fromMOptChk 10 = true := by decide +kernel

set_option maxRecDepth 100000 in
theorem fromMOpt_11 : fromMOptChk 11 = true := by decide +kernel

set_option maxRecDepth 100000 in
theorem fromMOpt_12 : fromMOptChk 12 = true := by decide +kernel

theorem fromMOpt_ok {n : Nat} (h1 : 1 ≤ n) (h2 : n ≤ 12) : fromMOptChk n = true := by
  by_cases h : n ≤ 8
  · exact List.all_eq_true.mp fromMOpt_1_8 n (by simp [List.mem_range'_1]; omega)
  · obtain rfl | rfl | rfl | rfl : n = 9 ∨ n = 10 ∨ n = 11 ∨ n = 12 := by omega
    exacts [fromMOpt_9, fromMOpt_10, fromMOpt_11, fromMOpt_12]

end FF.Arm
