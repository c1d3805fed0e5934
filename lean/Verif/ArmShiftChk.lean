import Verif.ArmShift

/-!
# The AArch64 shifts: checks of the generated code for every number of limbs and words
-/

namespace FF.Arm

theorem head_ok : (List.range' 1 12).all (fun n => [shrVars n, shlVars n].all fun v =>
    okReg n (loadVar n v.r1 1 ++ calcShift) (vHead 0) v.saved 2 (.base (.arg 2))) = true := by decide +kernel

theorem shr_ok : (List.range' 1 12).all (fun n => (List.range n).all fun ws => decide (n = 1) ||
    okJump n (shrVars n).saved (loadVar n (shrVars n).r1 1 ++ calcShift ++ tabIns n) (vHead n) (shrBits n ws ++ shrStore n ws)
      (vShr n ws) (shrOut n ws)) = true := by
  decide +kernel

theorem shl_ok : (List.range' 1 12).all (fun n => (List.range n).all fun ws => decide (n = 1) ||
    okJump n (shlVars n).saved (loadVar n (shlVars n).r1 1 ++ calcShift ++ tabIns n) (vHead n) (shlBits n ws ++ shlTail n)
      (vShl n ws ++ vSubSel n (binX n)) (.v 4)) = true := by
  decide +kernel

end FF.Arm
