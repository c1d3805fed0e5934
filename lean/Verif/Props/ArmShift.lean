import Verif.ArmShiftRun
import Verif.Props.Arm

/-!
# Property C71: the shifts of the generated AArch64 code

The count is in `x2`.  The result array may be the operand, overlap it or not meet it.
-/

namespace FF.Props

open FF FF.Arm
open FF.X86 (cell rd rd_length upd upd_ne)

/-- C71, `rawShr`: for every count below the width of the array the result is that of the portable code, the quotient by `2^count`. -/
theorem C71_shr {q : Nat} {s : State} (h : ArmReady q s) (ha : ArmClear s (s.reg 1) (n64 q)) (hc : (s.reg 2).toNat < 64 * n64 q) :
    ∃ s', run (Arm.rawShr (n64 q)) s = some s' ∧
      ArmReturns (n64 q) s s' (FF.rawShr q (rd s.mem (s.reg 1) (n64 q)) (s.reg 2).toNat) ∧
      val (rd s'.mem (s.reg 0) (n64 q)) = val (rd s.mem (s.reg 1) (n64 q)) / 2 ^ (s.reg 2).toNat := by
  obtain ⟨s', h1, h2⟩ := rawShr_run h.ctx ha hc
  refine ⟨s', h1, .of h2, ?_⟩
  rw [h2.out]
  exact (rawShr_val (rd_length _ _ _) hc).1

/-- C71, partial: `rawShl` for more than one limb: the result of the portable code, the product by `2^count` cut to the bits of the
modulus and reduced.  Missing: one limb (`C71_shl_one_violation`). -/
theorem C71_shl_partial {q : Nat} (hq : 0 < q) {s : State} (h : ArmReady q s) (ha : ArmClear s (s.reg 1) (n64 q)) (h1 : n64 q ≠ 1)
    (hc : (s.reg 2).toNat < 64 * n64 q) :
    ∃ s', run (Arm.rawShl (n64 q)) s = some s' ∧
      ArmReturns (n64 q) s s' (FF.rawShl q (rd s.mem (s.reg 1) (n64 q)) (s.reg 2).toNat) ∧
      val (rd s'.mem (s.reg 0) (n64 q)) = val (rd s.mem (s.reg 1) (n64 q)) * 2 ^ (s.reg 2).toNat % 2 ^ bitLen q % q := by
  obtain ⟨s', h3, h4⟩ := rawShl_run h.ctx ha h1 hc
  refine ⟨s', h3, .of h4, ?_⟩
  rw [h4.out]
  exact (rawShl_val hq (rd_length _ _ _) hc).1

/-- C71, `rawShl` for one limb: the product cut to 64 bits, neither cut to the bits of the modulus nor reduced. -/
theorem C71_shl_one {s : State} (ho : ArmClear s (s.reg 0) 1) (hc : (s.reg 2).toNat < 64) :
    ∃ s', run (Arm.rawShl 1) s = some s' ∧ (∃ out, ArmReturns 1 s s' out) ∧
      val (rd s'.mem (s.reg 0) 1) = val (rd s.mem (s.reg 1) 1) * 2 ^ (s.reg 2).toNat % 2 ^ 64 := by
  obtain ⟨s', h1, h2⟩ := rawShl_one_run ho hc
  refine ⟨s', h1, ⟨_, .of h2⟩, ?_⟩
  rw [h2.out, rd_map]
  show (s.mem (cell (s.reg 1) 0) <<< (s.reg 2).toNat).toNat + W * 0 = ((s.mem (cell (s.reg 1) 0)).toNat + W * 0) * _ % _
  rw [BitVec.toNat_shiftLeft, Nat.shiftLeft_eq]
  rfl

/-- C71, violated: for one limb, whenever the shifted number still fits 64 bits and is not below the modulus, the result is not
reduced, and differs from the portable one. -/
theorem C71_shl_one_violation {q : Nat} {s : State} (hn : n64 q = 1) (hq : 0 < q) (ho : ArmClear s (s.reg 0) 1)
    (hc : (s.reg 2).toNat < 64) (hf : val (rd s.mem (s.reg 1) 1) * 2 ^ (s.reg 2).toNat < 2 ^ 64)
    (hb : q ≤ val (rd s.mem (s.reg 1) 1) * 2 ^ (s.reg 2).toNat) :
    ∃ s', run (Arm.rawShl 1) s = some s' ∧ q ≤ val (rd s'.mem (s.reg 0) 1) ∧
      rd s'.mem (s.reg 0) 1 ≠ FF.rawShl q (rd s.mem (s.reg 1) 1) (s.reg 2).toNat := by
  obtain ⟨s', h1, -, h3⟩ := C71_shl_one ho hc
  rw [Nat.mod_eq_of_lt hf] at h3
  refine ⟨s', h1, by rw [h3]; exact hb, fun e => ?_⟩
  have h4 := (rawShl_val hq (a := rd s.mem (s.reg 1) 1) (b := (s.reg 2).toNat) (by rw [rd_length, hn]) (by omega)).1
  have h5 := Nat.mod_lt (val (rd s.mem (s.reg 1) 1) * 2 ^ (s.reg 2).toNat % 2 ^ bitLen q) hq
  rw [← h4, ← e, h3] at h5
  omega

/-- C71, counts outside: with more than two limbs, a count of `64 n` or more selects an entry behind the end of the jump table, for
both routines.  (The tagged operations never pass such a count.) -/
theorem C71_outside {n : Nat} {s : State} (h3 : 2 < n) (hw : n ≤ 12) (hc : 64 * n ≤ (s.reg 2).toNat) :
    run (Arm.rawShr n) s = none ∧ run (Arm.rawShl n) s = none := by
  have key : ∀ (S t : State) (P : List Line), t.reg 2 = S.reg 2 → S.reg = s.reg → run (calcJump n ++ P) t = none := by
    intro S t P h1 h2
    unfold calcJump
    rw [if_pos h3, List.cons_append, List.cons_append, List.nil_append, run, run]
    have e : (((Ins.alu .lsr 2 (.reg 2) (.imm 6)).exec t).reg 2).toNat = (t.reg 2).toNat / 64 := by
      rw [← lsr6 (t.reg 2)]
      exact congrArg BitVec.toNat (FF.X86.upd_same t.reg 2 _)
    have e' : ((List.range n).map wordLabel)[(((Ins.alu .lsr 2 (.reg 2) (.imm 6)).exec t).reg 2).toNat]? = none := by
      rw [e, h1, h2]
      exact List.getElem?_eq_none (by simp; omega)
    rw [e']
  obtain ⟨hs1, hs2⟩ := shiftSaved (by omega : 1 ≤ n) hw
  constructor
  · rw [rawShr_code (by omega), run_lines, run_lines]
    exact key _ _ _ (head_run (.inl rfl) (by omega) hw _) (pushed hs1 s).1
  · rw [rawShl_code (by omega), run_lines, run_lines]
    exact key _ _ _ (head_run (.inr rfl) (by omega) hw _) (pushed hs2 s).1

/-! ## The hypotheses are met -/

/-- The demo machine with a count in `x2`. -/
def armCount (x : Nat) (c : BitVec 64) : State := { armDemo x 0 with reg := upd (armDemo x 0).reg 2 c }

theorem armCount_ready (x : Nat) (c : BitVec 64) : ArmReady bnR (armCount x c) where
  width := (armDemo_ready x 0).width
  table := (armDemo_ready x 0).table
  np := (armDemo_ready x 0).np
  mask := (armDemo_ready x 0).mask
  out := (armDemo_ready x 0).out
  tableOff := (armDemo_ready x 0).tableOff
  npOff := (armDemo_ready x 0).npOff
  maskOff := (armDemo_ready x 0).maskOff

example : ∃ s', run (Arm.rawShr (n64 bnR)) (armCount (bnR - 3) 70) = some s' ∧ val (rd s'.mem 192 (n64 bnR)) = (bnR - 3) / 2 ^ 70 := by
  obtain ⟨s', h1, -, h3⟩ := C71_shr (armCount_ready (bnR - 3) 70) (armDemo_ops (bnR - 3) 0).1 (by rw [n64_bnR]; decide)
  have e1 : val (rd (armCount (bnR - 3) 70).mem ((armCount (bnR - 3) 70).reg 1) (n64 bnR)) = bnR - 3 := by
    show val (rd _ 64 _) = _
    rw [n64_bnR]; decide +kernel
  rw [e1] at h3
  exact ⟨s', h1, h3⟩

example : ∃ s', run (Arm.rawShl (n64 bnR)) (armCount (bnR - 3) 70) = some s' ∧
    val (rd s'.mem 192 (n64 bnR)) = (bnR - 3) * 2 ^ 70 % 2 ^ 254 % bnR := by
  obtain ⟨s', h1, -, h3⟩ := C71_shl_partial (by decide +kernel) (armCount_ready (bnR - 3) 70) (armDemo_ops (bnR - 3) 0).1 (by rw [n64_bnR]; decide)
    (by rw [n64_bnR]; decide)
  have e1 : val (rd (armCount (bnR - 3) 70).mem ((armCount (bnR - 3) 70).reg 1) (n64 bnR)) = bnR - 3 := by
    show val (rd _ 64 _) = _
    rw [n64_bnR]; decide +kernel
  rw [e1] at h3
  exact ⟨s', h1, h3.trans (by decide +kernel)⟩

/-- `7 * 2` modulo 13 comes out as 14. -/
example : ∃ s', run (Arm.rawShl 1) (armCount 7 1) = some s' ∧ 13 ≤ val (rd s'.mem 192 1) ∧
    rd s'.mem 192 1 ≠ FF.rawShl 13 (rd (armCount 7 1).mem 64 1) 1 :=
  C71_shl_one_violation (q := 13) (s := armCount 7 1) (by decide +kernel) (by decide)
    (fun i hi => armDemo_clear 7 0 (a := 192) (by decide +kernel) i (by omega)) (by decide) (by decide +kernel) (by decide +kernel)

example : run (Arm.rawShr 4) (armCount 7 256) = none := (C71_outside (by decide) (by decide) (by decide)).1

end FF.Props
