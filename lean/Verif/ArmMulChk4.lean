import Verif.ArmMulChk3

/-!
# The code of the AArch64 product by a word, plain variant, is the virtual one
-/

namespace FF.Arm

/-- The check for width `n`. -/
def mul1NonChk (n : Nat) : Bool :=
  okBody n [] (mulVars n).saved (mul1Body n true false) (vMul1 n true false) (.v (20 * (n - 1) + 22))

set_option maxRecDepth 100000 in
theorem mul1Non_1_8 : (List.range' 1 8).all mul1NonChk = true := by decide +kernel

set_option maxRecDepth 100000 in
theorem mul1Non_9 : mul1NonChk 9 = true := by decide +kernel

set_option maxRecDepth 100000 in
theorem mul1Non_10 : mul1NonChk 10 = true := by decide +kernel

set_option maxRecDepth 100000 in
theorem mul1Non_11 : mul1NonChk 11 = true := by decide +kernel

set_option maxRecDepth 100000 in
theorem mul1Non_12 : mul1NonChk 12 = true := by decide +kernel

theorem mul1Non_ok {n : Nat} (h1 : 1 ≤ n) (h2 : n ≤ 12) : mul1NonChk n = true := by
  by_cases h : n ≤ 8
  · exact List.all_eq_true.mp mul1Non_1_8 n (by simp [List.mem_range'_1]; omega)
  · obtain rfl | rfl | rfl | rfl : n = 9 ∨ n = 10 ∨ n = 11 ∨ n = 12 := by omega
    exacts [mul1Non_9, mul1Non_10, mul1Non_11, mul1Non_12]

end FF.Arm
