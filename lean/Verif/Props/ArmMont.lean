import Verif.ArmMulRun
import Verif.Props.Arm

/-!
# Property C70: the Montgomery routines of the generated AArch64 code

`opt` selects the shorter code the generator prints when the top limb of the modulus leaves a spare bit (`canOpt`,
`armbuilder.js:1671`); the theorems cover the plain code for every modulus and the shorter one for the moduli it is printed for.
-/

namespace FF.Props

open FF FF.Arm
open FF.X86 (cell rd rd_length upd)

/-- C70, the Montgomery product: for any first operand, reduced or not, and a reduced second one, the result array is the one of the
portable code, and its value is the only `r < q` with `r·2^(64n) ≡ a·b`. -/
theorem C70_mmul {q : Nat} {s : State} {opt : Bool} (hq : q % 2 = 1) (h : ArmReady q s) (hopt : opt = true → canOpt q = true)
    (ha : ArmClear s (s.reg 1) (n64 q)) (hb : ArmClear s (s.reg 2) (n64 q)) (hbq : val (rd s.mem (s.reg 2) (n64 q)) < q) :
    ∃ s', run (Arm.rawMMul (n64 q) opt) s = some s' ∧
      ArmReturns (n64 q) s s' (FF.rawMMul q (rd s.mem (s.reg 1) (n64 q)) (rd s.mem (s.reg 2) (n64 q))) ∧
      val (rd s'.mem (s.reg 0) (n64 q)) < q ∧
      val (rd s'.mem (s.reg 0) (n64 q)) * 2 ^ (64 * n64 q) ≡ val (rd s.mem (s.reg 1) (n64 q)) * val (rd s.mem (s.reg 2) (n64 q)) [MOD q] := by
  obtain ⟨s', h1, h2⟩ := rawMMul_run hq h.ctx ha hb hbq hopt
  refine ⟨s', h1, .of h2, ?_⟩
  rw [h2.out]
  exact ((C01_mmul hq (rd_length _ _ _) (rd_length _ _ _) hbq _).mp rfl).2

/-- C70, the product by a single word, in `x2`. -/
theorem C70_mmul1 {q : Nat} {s : State} {opt : Bool} (hq : q % 2 = 1) (h : ArmReady q s) (hopt : opt = true → canOpt q = true)
    (ha : ArmClear s (s.reg 1) (n64 q)) (haq : val (rd s.mem (s.reg 1) (n64 q)) < q) :
    ∃ s', run (Arm.rawMul1 (n64 q) true opt) s = some s' ∧
      ArmReturns (n64 q) s s' (FF.rawMMul1 q (rd s.mem (s.reg 1) (n64 q)) (s.reg 2)) ∧
      val (rd s'.mem (s.reg 0) (n64 q)) < q ∧
      val (rd s'.mem (s.reg 0) (n64 q)) * 2 ^ (64 * n64 q) ≡ val (rd s.mem (s.reg 1) (n64 q)) * (s.reg 2).toNat [MOD q] := by
  obtain ⟨s', h1, h2⟩ := rawMMul1_run hq h.ctx ha haq hopt
  refine ⟨s', h1, .of h2, ?_⟩
  rw [h2.out]
  exact ((C02_mmul1 hq _ (rd_length _ _ _) haq _).mp rfl).2

/-- C70, out of Montgomery form: for any array, reduced or not. -/
theorem C70_fromMontgomery {q : Nat} {s : State} {opt : Bool} (hq : q % 2 = 1) (h : ArmReady q s) (hopt : opt = true → canOpt q = true)
    (ha : ArmClear s (s.reg 1) (n64 q)) :
    ∃ s', run (Arm.rawMul1 (n64 q) false opt) s = some s' ∧
      ArmReturns (n64 q) s s' (FF.rawFromMontgomery q (rd s.mem (s.reg 1) (n64 q))) ∧
      val (rd s'.mem (s.reg 0) (n64 q)) < q ∧
      val (rd s'.mem (s.reg 0) (n64 q)) * 2 ^ (64 * n64 q) ≡ val (rd s.mem (s.reg 1) (n64 q)) [MOD q] := by
  obtain ⟨s', h1, h2⟩ := rawFromMontgomery_run hq h.ctx ha hopt
  refine ⟨s', h1, .of h2, ?_⟩
  rw [h2.out]
  exact (C03_fromMontgomery hq (rd_length _ _ _)).2

/-- Both variants on the demo machine, for the operands `q - 1` and `q - 2`. -/
example (opt : Bool) : ∃ s', run (Arm.rawMMul (n64 bnR) opt) (armDemo (bnR - 1) (bnR - 2)) = some s' ∧
    val (rd s'.mem 192 (n64 bnR)) * 2 ^ (64 * n64 bnR) ≡ 2 [MOD bnR] := by
  have e1 : val (rd (armDemo (bnR - 1) (bnR - 2)).mem ((armDemo (bnR - 1) (bnR - 2)).reg 1) (n64 bnR)) = bnR - 1 := by
    show val (rd _ 64 _) = _
    rw [n64_bnR]; decide +kernel
  have e2 : val (rd (armDemo (bnR - 1) (bnR - 2)).mem ((armDemo (bnR - 1) (bnR - 2)).reg 2) (n64 bnR)) = bnR - 2 := by
    show val (rd _ 128 _) = _
    rw [n64_bnR]; decide +kernel
  obtain ⟨s', h1, -, -, h4⟩ := C70_mmul (opt := opt) (by decide +kernel) (armDemo_ready (bnR - 1) (bnR - 2)) (fun _ => by decide +kernel)
    (armDemo_ops _ _).1 (armDemo_ops _ _).2 (by rw [e2]; decide +kernel)
  refine ⟨s', h1, h4.trans ?_⟩
  rw [e1, e2]
  show _ % _ = _ % _
  decide +kernel

example (opt : Bool) : ∃ s', run (Arm.rawMul1 (n64 bnR) true opt) (armDemo 3 0) = some s' ∧
    val (rd s'.mem 192 (n64 bnR)) * 2 ^ (64 * n64 bnR) ≡ 3 * 128 [MOD bnR] := by
  have e1 : val (rd (armDemo 3 0).mem ((armDemo 3 0).reg 1) (n64 bnR)) = 3 := by
    show val (rd _ 64 _) = _
    rw [n64_bnR]; decide +kernel
  obtain ⟨s', h1, -, -, h4⟩ := C70_mmul1 (opt := opt) (by decide +kernel) (armDemo_ready 3 0) (fun _ => by decide +kernel)
    (armDemo_ops _ _).1 (by rw [e1]; decide +kernel)
  refine ⟨s', h1, h4.trans ?_⟩
  rw [e1]
  rfl

/-- An operand that is not reduced. -/
example (opt : Bool) : ∃ s', run (Arm.rawMul1 (n64 bnR) false opt) (armDemo (2 ^ 256 - 1) 0) = some s' ∧
    val (rd s'.mem 192 (n64 bnR)) * 2 ^ (64 * n64 bnR) ≡ 2 ^ 256 - 1 [MOD bnR] := by
  have e1 : val (rd (armDemo (2 ^ 256 - 1) 0).mem ((armDemo (2 ^ 256 - 1) 0).reg 1) (n64 bnR)) = 2 ^ 256 - 1 := by
    show val (rd _ 64 _) = _
    rw [n64_bnR]; decide +kernel
  obtain ⟨s', h1, -, -, h4⟩ := C70_fromMontgomery (opt := opt) (by decide +kernel) (armDemo_ready (2 ^ 256 - 1) 0) (fun _ => by decide +kernel)
    (armDemo_ops _ _).1
  refine ⟨s', h1, h4.trans ?_⟩
  rw [e1]

end FF.Props
