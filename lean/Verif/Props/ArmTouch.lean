import Verif.ArmTouchChk

/-!
# C84: the AArch64 routines access nothing but their operands

For every width the generator prints (1 to 12 limbs), every state of the machine and every path through the code: the cells read are those of
the operands, of the tables of the modulus and of the routine's stack frame; the cells written are those of the result and of the frame.
The conversion out of Montgomery form reads one word behind its operand when the width is odd (`C84_from_violated`).

`touched` lists the accesses along the execution that `run` describes; `C84_reads` and `C84_writes` tie it to that execution.
-/

namespace FF.Props

open FF FF.Arm
open FF.X86 (cell stk Access Only Within InArr within_cons within_nil)

/-- What a routine computes depends only on the cells it reads: with other contents elsewhere (the cells `D`), it ends with the same registers
and flags, and with the same memory outside `D`, after the same accesses. -/
theorem C84_reads {D : BitVec 64 → Prop} {p : List Line} {s t : State} (m : BitVec 64 → BitVec 64) (hm : ∀ a, ¬ D a → m a = s.mem a)
    (hD : ∀ a, Access.read a ∈ touched p s → ¬ D a) (ht : run p s = some t) :
    ∃ t', run p { s with mem := m } = some t' ∧ t'.reg = t.reg ∧ t'.sp = t.sp ∧ t'.fl = t.fl ∧ (∀ a, ¬ D a → t'.mem a = t.mem a) ∧
      touched p { s with mem := m } = touched p s := by
  obtain ⟨⟨t', h1, h2⟩, h3⟩ := run_like (D := D) p (s := s) (s' := { s with mem := m }) ⟨rfl, rfl, rfl, rfl, rfl, hm⟩ hD ht
  exact ⟨t', h1, h2.reg, h2.sp, h2.fl, h2.mem, h3⟩

/-- A routine changes only the cells it writes. -/
theorem C84_writes {p : List Line} {s t : State} (ht : run p s = some t) (a : BitVec 64) (ha : Access.write a ∉ touched p s) : t.mem a = s.mem a :=
  run_off p a ht ha

/-- The stack frame: sixteen cells below the stack pointer. -/
abbrev armFrame (s : State) : BitVec 64 × Nat := (stk s.sp 16, 16)

/-- An empty region. -/
theorem only_drop {R W : List (BitVec 64 × Nat)} {a b : BitVec 64} {l : List Access} (h : Only (Within (R ++ [(a, 0)])) (Within (W ++ [(b, 0)])) l) :
    Only (Within R) (Within W) l := by
  have : ∀ {L : List (BitVec 64 × Nat)} {c x : BitVec 64}, Within (L ++ [(c, 0)]) x → Within L x := by
    rintro L c x ⟨y, hy, i, hi, e⟩
    rcases List.mem_append.1 hy with hy | hy
    · exact ⟨y, hy, i, hi, e⟩
    · rw [List.mem_singleton] at hy; subst hy; exact absurd hi (Nat.not_lt_zero _)
  exact h.mono (fun _ => this) (fun _ => this)

section
variable {n : Nat} (h0 : 0 < n) (h1 : n ≤ 12) (s : State)
include h0 h1

/-- `rawIsZero`. -/
theorem C84_rawIsZero : Only (Within [(s.reg 0, n)]) (Within []) (touched (Arm.rawIsZero n) s) :=
  only_drop (ck_only (upTo isZero_ck h0 h1) s)

/-- `rawIsEq`. -/
theorem C84_rawIsEq : Only (Within [(s.reg 0, n), (s.reg 1, n)]) (Within []) (touched (Arm.rawIsEq n) s) :=
  only_drop (R := [(s.reg 0, n), (s.reg 1, n)]) (ck_only (upTo isEq_ck h0 h1) s)

/-- `rawCmp`. -/
theorem C84_rawCmp : Only (Within [(s.reg 0, n), (s.reg 1, n)]) (Within []) (touched (Arm.rawCmp n) s) :=
  only_drop (R := [(s.reg 0, n), (s.reg 1, n)]) (ck_only (upTo rcmp_ck h0 h1) s)

/-- `rawSwap`. -/
theorem C84_rawSwap : Only (Within [(s.reg 0, n), (s.reg 1, n)]) (Within [(s.reg 0, n), (s.reg 1, n)]) (touched (Arm.rawSwap n) s) :=
  only_drop (R := [(s.reg 0, n), (s.reg 1, n)]) (ck_only (upTo swap_ck h0 h1) s)

/-- `rawCopy`. -/
theorem C84_rawCopy : Only (Within [(s.reg 1, n)]) (Within [(s.reg 0, n)]) (touched (Arm.rawCopy n) s) :=
  only_drop (R := [(s.reg 1, n)]) (ck_only (upTo copy_ck h0 h1) s)

/-- `rawCopyS2L`; the operand is a number. -/
theorem C84_rawCopyS2L : Only (Within [(s.sym .q, n)]) (Within [(s.reg 0, n)]) (touched (Arm.rawCopyS2L n) s) :=
  only_drop (R := [(s.sym .q, n)]) (ck_only (upTo s2l_ck h0 h1) s)

/-- `rawSubRegular`. -/
theorem C84_rawSubRegular : Only (Within [(s.reg 1, n), (s.reg 2, n)]) (Within [(s.reg 0, n)]) (touched (Arm.rawSubRegular n) s) :=
  only_drop (R := [(s.reg 1, n), (s.reg 2, n)]) (ck_only (upTo subReg_ck h0 h1) s)

/-- `rawAnd`, `rawOr`, `rawXor`. -/
theorem C84_bitwise {o : Alu} (ho : o = .and ∨ o = .orr ∨ o = .eor) :
    Only (Within [(s.reg 1, n), (s.reg 2, n), (s.sym .q, n), (s.sym .lboMask, 1), armFrame s]) (Within [(s.reg 0, n), armFrame s])
      (touched (rawBinOp n o) s) := by
  rcases ho with rfl | rfl | rfl
  · exact ck_only (upTo and_ck h0 h1) s
  · exact ck_only (upTo orr_ck h0 h1) s
  · exact ck_only (upTo eor_ck h0 h1) s

/-- `rawNot`. -/
theorem C84_rawNot : Only (Within [(s.reg 1, n), (s.sym .q, n), (s.sym .lboMask, 1), armFrame s]) (Within [(s.reg 0, n), armFrame s])
    (touched (rawBinOp n .mvn) s) := ck_only (upTo mvn_ck h0 h1) s

/-- `rawAdd`. -/
theorem C84_rawAdd : Only (Within [(s.reg 1, n), (s.reg 2, n), (s.sym .q, n), armFrame s]) (Within [(s.reg 0, n), armFrame s])
    (touched (Arm.rawAdd n false) s) := ck_only (upTo addLL_ck h0 h1) s

/-- `rawAddLS`; the second operand is a number. -/
theorem C84_rawAddLS : Only (Within [(s.reg 1, n), (s.sym .q, n), armFrame s]) (Within [(s.reg 0, n), armFrame s])
    (touched (Arm.rawAdd n true) s) := ck_only (upTo addLS_ck h0 h1) s

/-- `rawSub`. -/
theorem C84_rawSub : Only (Within [(s.reg 1, n), (s.reg 2, n), (s.sym .q, n), armFrame s]) (Within [(s.reg 0, n), armFrame s])
    (touched (Arm.rawSub n .LL) s) := ck_only (upTo subLL_ck h0 h1) s

/-- `rawSubLS`; the second operand is a number. -/
theorem C84_rawSubLS : Only (Within [(s.reg 1, n), (s.sym .q, n), armFrame s]) (Within [(s.reg 0, n), armFrame s])
    (touched (Arm.rawSub n .LS) s) := ck_only (upTo subLS_ck h0 h1) s

/-- `rawSubSL`; the first operand is a number. -/
theorem C84_rawSubSL : Only (Within [(s.reg 2, n), (s.sym .q, n), armFrame s]) (Within [(s.reg 0, n), armFrame s])
    (touched (Arm.rawSub n .SL) s) := ck_only (upTo subSL_ck h0 h1) s

/-- `rawNeg`. -/
theorem C84_rawNeg : Only (Within [(s.reg 1, n), (s.sym .q, n), armFrame s]) (Within [(s.reg 0, n), armFrame s])
    (touched (Arm.rawNeg n) s) := ck_only (upTo neg_ck h0 h1) s

/-- `rawNegLS`; the second operand is a number. -/
theorem C84_rawNegLS : Only (Within [(s.reg 1, n), (s.sym .q, n), armFrame s]) (Within [(s.reg 0, n), armFrame s])
    (touched (Arm.rawNegLS n) s) := ck_only (upTo negLS_ck h0 h1) s

/-- `rawShr`, for any count (counts outside the jump table stop the run, C71). -/
theorem C84_rawShr : Only (Within [(s.reg 1, n), armFrame s]) (Within [(s.reg 0, n), armFrame s]) (touched (Arm.rawShr n) s) :=
  ck_only (upTo shr_ck h0 h1) s

/-- `rawShl`, for any count. -/
theorem C84_rawShl : Only (Within [(s.reg 1, n), (s.sym .q, n), (s.sym .lboMask, 1), armFrame s]) (Within [(s.reg 0, n), armFrame s])
    (touched (Arm.rawShl n) s) := ck_only (upTo shl_ck h0 h1) s

/-- `rawMMul`, both variants. -/
theorem C84_mul (opt : Bool) : Only (Within [(s.reg 1, n), (s.reg 2, n), (s.sym .q, n), (s.sym .np, 1), armFrame s])
    (Within [(s.reg 0, n), armFrame s]) (touched (Arm.rawMMul n opt) s) := ck_only (upTo mul_ck h0 h1 opt) s

/-- `rawMMul1`, both variants; the second operand is a number. -/
theorem C84_mul1 (opt : Bool) : Only (Within [(s.reg 1, n), (s.sym .q, n), (s.sym .np, 1), armFrame s])
    (Within [(s.reg 0, n), armFrame s]) (touched (rawMul1 n true opt) s) := ck_only (upTo mul1_ck h0 h1 opt) s

/-- `rawFromMontgomery`, both variants, for even widths.  For odd widths it is false: `C84_from_violated`. -/
theorem C84_from_partial (he : n % 2 = 0) (opt : Bool) : Only (Within [(s.reg 1, n), (s.sym .q, n), (s.sym .np, 1), armFrame s])
    (Within [(s.reg 0, n), armFrame s]) (touched (rawMul1 n false opt) s) := ck_only (upTo from_ck h0 h1 he opt) s

/-- `rawFromMontgomery` for odd widths always reads the word behind its operand. -/
theorem C84_from_violated (ho : n % 2 = 1) (opt : Bool) : Access.read (cell (s.reg 1) n) ∈ touched (rawMul1 n false opt) s :=
  hits_sound (s0 := s) _ (Nat.zero_le _) (args_rep s) (upTo from_hits h0 h1 ho opt)

/-- So a caller whose operand ends where its memory ends (no other region holds that word) sees an access outside. -/
theorem C84_from_outside (ho : n % 2 = 1) (opt : Bool)
    (hx : ¬ Within [(s.reg 1, n), (s.sym .q, n), (s.sym .np, 1), armFrame s] (cell (s.reg 1) n)) :
    ¬ Only (Within [(s.reg 1, n), (s.sym .q, n), (s.sym .np, 1), armFrame s]) (Within [(s.reg 0, n), armFrame s]) (touched (rawMul1 n false opt) s) :=
  fun h => hx (h _ (C84_from_violated h0 h1 s ho opt))

/-- It reads no further than that word, and writes what it should. -/
theorem C84_from_bound (opt : Bool) : Only (Within [(s.reg 1, n + 1), (s.sym .q, n), (s.sym .np, 1), armFrame s])
    (Within [(s.reg 0, n), armFrame s]) (touched (rawMul1 n false opt) s) := ckFrom_only (upTo from_odd_ck h0 h1 opt) s

end

/-! ## Examples -/

/-- The accesses of a copy of three limbs, one by one. -/
example (s : State) : touched (Arm.rawCopy 3) s = [.read (s.reg 1 + 0), .read (s.reg 1 + 8), .write (s.reg 0 + 0), .write (s.reg 0 + 8),
    .read (s.reg 1 + 16), .write (s.reg 0 + 16)] := by
  have : Arm.rawCopy 3 = [.ins (.ldp 2 3 1 0), .ins (.stp (.reg 2) (.reg 3) 0 0), .ins (.ldr 4 1 16), .ins (.str (.reg 4) 0 16), .ret] := rfl
  rw [this]
  simp [touched, Ins.acc, Ins.exec, X86.upd]

/-- The word behind the operand of a conversion of three limbs, in a state in which it is outside of everything. -/
example : ∃ s : State, ¬ Within [(s.reg 1, 3), (s.sym .q, 3), (s.sym .np, 1), armFrame s] (cell (s.reg 1) 3) := by
  refine ⟨⟨fun r => if r = 1 then 4096 else 0, 65536, ⟨false, false, false, false⟩, fun _ => 0, fun _ => 8192, fun _ => 0⟩, ?_⟩
  simp only [within_cons, within_nil, or_false, InArr, not_or, not_exists, not_and]
  refine ⟨?_, ?_, ?_, ?_⟩ <;> decide

end FF.Props
