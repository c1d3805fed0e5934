import Verif.ArmMulChk5

/-!
# The code of the AArch64 `rawFromMontgomery`, plain variant, is the virtual one
-/

namespace FF.Arm

/-- The check for width `n`. -/
def fromMNonChk (n : Nat) : Bool :=
  okBody n [] (mulVars n).saved (mul1Body n false false) (vMul1 n false false) (.v (20 * (n - 1) + 22))

set_option maxRecDepth 100000 in
theorem fromMNon_1_8 : (List.range' 1 8).all fromMNonChk = true := by decide +kernel

set_option maxRecDepth 100000 in
theorem fromMNon_9 : fromMNonChk 9 = true := by decide +kernel

set_option maxRecDepth 100000 in
theorem fromMNon_10 : fromMNonChk 10 = true := by decide +kernel

set_option maxRecDepth 100000 in
theorem fromMNon_11 : fromMNonChk 11 = true := by decide +kernel

set_option maxRecDepth 100000 in
theorem fromMNon_12 : fromMNonChk 12 = true := by decide +kernel

theorem fromMNon_ok {n : Nat} (h1 : 1 ≤ n) (h2 : n ≤ 12) : fromMNonChk n = true := by
  by_cases h : n ≤ 8
  · exact List.all_eq_true.mp fromMNon_1_8 n (by simp [List.mem_range'_1]; omega)
  · obtain rfl | rfl | rfl | rfl : n = 9 ∨ n = 10 ∨ n = 11 ∨ n = 12 := by omega
    exacts [fromMNon_9, fromMNon_10, fromMNon_11, fromMNon_12]

end FF.Arm
