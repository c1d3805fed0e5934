import Verif.Spec

/-!
# Concrete moduli used in the non-vacuity examples

The three moduli the project generates libraries for in its tests and tools (`tasksfile.js`, `benchmark/*.cpp`).
-/

namespace FF

/-- The scalar field of BN254 (`Fr`). -/
def bnR : Nat := 21888242871839275222246405745257275088548364400416034343698204186575808495617
/-- The base field of BN254 (`Fq`). -/
def bnP : Nat := 21888242871839275222246405745257275088696311157297823662689037894645226208583
/-- The Goldilocks prime. -/
def gl : Nat := 18446744069414584321

theorem bnR_modulus : Modulus bnR := ⟨by decide +kernel, by decide +kernel, by decide +kernel⟩
theorem bnP_modulus : Modulus bnP := ⟨by decide +kernel, by decide +kernel, by decide +kernel⟩
theorem gl_modulus : Modulus gl := ⟨by decide +kernel, by decide +kernel, by decide +kernel⟩

theorem n64_bnR : n64 bnR = 4 := by decide +kernel
theorem n64_gl : n64 gl = 1 := by decide +kernel
theorem canOpt_bnR : canOpt bnR = true := by decide +kernel
theorem canOpt_gl : canOpt gl = false := by decide +kernel

end FF
