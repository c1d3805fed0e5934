import Verif.AsmCmpMain

/-!
# Logical operations in the generated assembly

The listings of `src/logicalops.asm.ejs` for `n` limbs, and the proof that they compute what the portable routines compute.
-/

namespace FF.X86

/-! ## Listings -/

/-- `isTrue(resReg, srcPtrReg)`, `src/logicalops.asm.ejs:3-32`; the four labels are fresh at each use. -/
def isTrueL (n : Nat) (res src : Reg) (long zero one done : String) : List Line :=
  [op .mov rax (.mem src 0), .misc (.bt .rax 63), .jump .carry long, .misc (.op32 .test .rax (.reg .rax)), .jump .zero zero,
    .jump .always one, .label long] ++
  ((List.range n).flatMap fun i => [op .mov rax (.mem src (8 + 8 * i)), op .test rax rax, .jump .nzero one]) ++
  [.label zero, op .mov (.reg res) (.imm 0), .jump .always done, .label one, op .mov (.reg res) (.imm 1), .label done]

/-- `logicalOp`, `src/logicalops.asm.ejs:37-55`. -/
def logicalOp (n : Nat) (o : Op2) : List Line :=
  isTrueL n .r8 .rsi "long1" "retZero1" "retOne1" "done1" ++ isTrueL n .rcx .rdx "long2" "retZero2" "retOne2" "done2" ++
    [op o rcx r8, op .mov (.mem .rdi 0) rcx, .ret]

/-- `<name>_land`, `src/logicalops.asm.ejs:57`. -/
def landCode (n : Nat) : List Line := logicalOp n .and
/-- `<name>_lor`, `src/logicalops.asm.ejs:58`. -/
def lorCode (n : Nat) : List Line := logicalOp n .or

/-- `<name>_lnot`, `src/logicalops.asm.ejs:70-80`. -/
def lnotCode (n : Nat) : List Line :=
  isTrueL n .rcx .rsi "long1" "retZero1" "retOne1" "done1" ++
    [op .test rcx rcx, .jump .zero "lnot_retOne", .label "lnot_retZero", op .mov (.mem .rdi 0) (.imm 0), .ret,
     .label "lnot_retOne", op .mov (.mem .rdi 0) (.imm 1), .ret]

/-- `<name>_isTrue`, `src/logicalops.asm.ejs:92-94`. -/
def isTrueCode (n : Nat) : List Line := isTrueL n .rax .rdi "long1" "retZero1" "retOne1" "done1" ++ [.ret]

section logic

variable {q F n : Nat} {ra : BitVec 64} {s t : State} {env : String → Option (State → Option State)}

/-- Scans the limbs for one that is not zero. -/
theorem anyLimb_run {src : Reg} (hsrc : src ≠ .rax) (one : String) (j : Nat) : ∀ (i : Nat) (t : State), ∃ t', Agree notRax t t' ∧ ∀ p,
    run env ra (((List.range' i j).flatMap fun i => [op .mov rax (.mem src (8 + 8 * i)), op .test rax rax, .jump .nzero one]) ++ p) t =
      run env ra (if (Src.arr (cell (t.reg src) 1)).lims t.mem i j = List.replicate j 0 then p else dropTo one p) t' := by
  induction j with
  | zero => intro i t; exact ⟨t, ⟨rfl, rfl, fun _ _ => rfl⟩, fun p => by simp [Src.lims]⟩
  | succ j ih =>
    intro i t
    obtain ⟨t1, ht1⟩ : ∃ t1, t1 = exes [op .mov rax (.mem src (8 + 8 * i)), op .test rax rax] t := ⟨_, rfl⟩
    have hA : Agree notRax t t1 := by rw [ht1]; exact ⟨rfl, rfl, fun r hr => upd_ne _ _ hr⟩
    have hz : t1.fl.zf = decide (t.mem (cell (cell (t.reg src) 1) i) = 0) := by
      rw [← cell_tail, ← BitVec.and_self (x := t.mem (t.reg src + BitVec.ofNat 64 (8 + 8 * i))), ht1]; rfl
    have el : ∀ P : List Line, [op .mov rax (.mem src (8 + 8 * i)), op .test rax rax, .jump .nzero one] ++ P =
      [op .mov rax (.mem src (8 + 8 * i)), op .test rax rax] ++ .jump .nzero one :: P := fun _ => rfl
    have e0 : ∀ p, run env ra (((List.range' i (j + 1)).flatMap fun i => [op .mov rax (.mem src (8 + 8 * i)), op .test rax rax, .jump .nzero one]) ++ p) t =
        if (!decide (t.mem (cell (cell (t.reg src) 1) i) = 0)) = true then run env ra (dropTo one p) t1 else
          run env ra (((List.range' (i + 1) j).flatMap fun i => [op .mov rax (.mem src (8 + 8 * i)), op .test rax rax, .jump .nzero one]) ++ p) t1 := by
      intro p
      rw [List.range'_succ, List.flatMap_cons, List.append_assoc, el, run_exes _ rfl, ← ht1, run_jump, Cond.holds, hz, dropTo_flat _ _ (fun _ _ => rfl)]
    simp only [e0, rd_cons, List.replicate_succ]
    by_cases h : t.mem (cell (cell (t.reg src) 1) i) = 0
    · obtain ⟨t', hA', hr⟩ := ih (i + 1) t1
      refine ⟨t', hA.trans hA', fun p => ?_⟩
      simp only [h, decide_true, Bool.not_true, Bool.false_eq_true, if_false, List.cons.injEq, true_and]
      rw [hr, hA.mem, hA.regs src hsrc]
    · refine ⟨t1, hA, fun p => ?_⟩
      simp only [h, decide_false, Bool.not_false, if_true, List.cons.injEq, false_and, if_false]

/-- `isTrue`. -/
theorem isTrueL_run {res src : Reg} (hsrc : src ≠ .rax) {long zero one done : String} (h1 : long ≠ zero) (h2 : long ≠ one)
    (h3 : zero ≠ one) (h4 : one ≠ done) (n : Nat) (t : State) :
    ∃ t', (∀ p, run env ra (isTrueL n res src long zero one done ++ p) t = run env ra p t') ∧ t'.mem = t.mem ∧ t'.sym = t.sym ∧
      Regs [.rax, res] t t' ∧ t'.reg res = if isTrueInline (elemAt n t.mem (t.reg src)) then 1 else 0 := by
  obtain ⟨t1, ht1⟩ : ∃ t1, t1 = exes [op .mov rax (.mem src 0), .misc (.bt .rax 63)] t := ⟨_, rfl⟩
  have a1 : Agree notRax t t1 := by rw [ht1]; exact ⟨rfl, rfl, fun r hr => upd_ne _ _ hr⟩
  have k1 : t1.reg .rax = t.mem (t.reg src) := by asm ht1
  have f1 : t1.fl.cf = (elemAt n t.mem (t.reg src)).long := by asm ht1; rfl
  set L : List Line := (List.range n).flatMap fun i => [op .mov rax (.mem src (8 + 8 * i)), op .test rax rax, .jump .nzero one] with hL
  have dL : ∀ l p, dropTo l (L ++ p) = dropTo l p := fun l p => dropTo_flat _ _ (fun _ _ => rfl) _ _
  -- the end
  have hend : ∀ (v : Bool) (t2 : State), Agree notRax t t2 → ∃ t', (∀ p, run env ra ((if v then dropTo one else id)
      (op .mov (.reg res) (.imm 0) :: .jump .always done :: .label one :: op .mov (.reg res) (.imm 1) :: .label done :: p)) t2 = run env ra p t') ∧
      t'.mem = t.mem ∧ t'.sym = t.sym ∧ Regs [.rax, res] t t' ∧ t'.reg res = if v then 1 else 0 := by
    intro v t2 a2
    refine ⟨exes [op .mov (.reg res) (.imm (if v then 1 else 0))] t2, fun p => ?_, a2.mem, a2.sym, fun r hr => ?_, upd_same _ _ _⟩
    · cases v
      · show run env ra ([op .mov (.reg res) (.imm 0)] ++ .jump .always done :: .label one :: op .mov (.reg res) (.imm 1) :: .label done :: p) t2 = _
        rw [run_exes _ rfl, run_always, dropTo_label, if_neg h4]
        show run env ra (dropTo done (.label done :: p)) _ = _
        rw [dropTo_self]; rfl
      · show run env ra (dropTo one (.label one :: op .mov (.reg res) (.imm 1) :: .label done :: p)) t2 = _
        rw [dropTo_self]
        show run env ra ([op .mov (.reg res) (.imm 1)] ++ .label done :: p) t2 = _
        rw [run_exes _ rfl, run_label]; rfl
    · simp only [List.mem_cons, List.not_mem_nil, or_false, not_or] at hr
      rw [← a2.regs r hr.1]
      exact upd_ne _ _ hr.2
  have e0 : ∀ p, isTrueL n res src long zero one done ++ p = [op .mov rax (.mem src 0), .misc (.bt .rax 63)] ++ .jump .carry long ::
      ([.misc (.op32 .test .rax (.reg .rax))] ++ .jump .zero zero :: .jump .always one :: .label long :: (L ++ .label zero ::
        (op .mov (.reg res) (.imm 0) :: .jump .always done :: .label one :: op .mov (.reg res) (.imm 1) :: .label done :: p))) := by
    intro p
    rw [isTrueL]; simp only [List.append_assoc, List.cons_append, List.nil_append]; rw [hL]
  cases hl : (elemAt n t.mem (t.reg src)).long
  · obtain ⟨t2, ht2⟩ : ∃ t2, t2 = exes [.misc (.op32 .test .rax (.reg .rax))] t1 := ⟨_, rfl⟩
    have a2 : Agree notRax t t2 := a1.trans (by rw [ht2]; exact ⟨rfl, rfl, fun r hr => rfl⟩)
    have f2 : t2.fl.zf = decide ((elemAt n t.mem (t.reg src)).shortVal = 0) := by
      have : (t1.reg .rax).setWidth 32 = (elemAt n t.mem (t.reg src)).shortVal := by rw [k1]; rfl
      rw [← this, ← BitVec.and_self (x := (t1.reg .rax).setWidth 32), ht2]; rfl
    obtain ⟨t', h5, h6⟩ := hend (isTrueInline (elemAt n t.mem (t.reg src))) t2 a2
    refine ⟨t', fun p => ?_, h6⟩
    rw [e0, run_exes _ rfl, ← ht1, run_jump, Cond.holds, f1, hl, if_neg (by decide), run_exes _ rfl, ← ht2, run_jump, Cond.holds, f2, ← h5]
    have ei : isTrueInline (elemAt n t.mem (t.reg src)) = !decide ((elemAt n t.mem (t.reg src)).shortVal = 0) := by
      rw [isTrueInline, hl, if_neg (by decide)]; rfl
    rw [ei]
    by_cases hz : (elemAt n t.mem (t.reg src)).shortVal = 0
    · simp only [hz, decide_true, if_true]
      rw [dropTo_jump, dropTo_label, if_neg h1, dL, dropTo_self]
      rfl
    · simp only [hz, decide_false, Bool.false_eq_true, if_false]
      rw [run_always, dropTo_label, if_neg h2, dL, dropTo_label, if_neg h3]
      rfl
  · obtain ⟨t2, a2, e2⟩ := anyLimb_run (env := env) (ra := ra) hsrc one n 0 t1
    have hz : ((Src.arr (cell (t1.reg src) 1)).lims t1.mem 0 n = List.replicate n 0) ↔ isTrueInline (elemAt n t.mem (t.reg src)) = false := by
      rw [isTrueInline, hl, if_pos rfl, a1.regs src hsrc, a1.mem, Bool.not_eq_false', FF.rawIsZero, mpn_zero_p, List.all_eq_true, List.eq_replicate_iff, ← rd_eq_lims]
      show _ ↔ ∀ x ∈ rd t.mem (cell (t.reg src) 1) n, _
      simp [rd_length]
    obtain ⟨t', h5, h6⟩ := hend (isTrueInline (elemAt n t.mem (t.reg src))) t2 (a1.trans a2)
    refine ⟨t', fun p => ?_, h6⟩
    rw [e0, run_exes _ rfl, ← ht1, run_jump, Cond.holds, f1, hl, if_pos rfl]
    show run env ra (dropTo long (.label long :: (L ++ _))) t1 = _
    rw [dropTo_self, hL, List.range_eq_range', e2, ← h5]
    simp only [hz]
    cases isTrueInline (elemAt n t.mem (t.reg src))
    · rw [if_pos rfl, run_label]; rfl
    · rw [if_neg (by decide), dropTo_label, if_neg h3]; rfl

theorem Move.ofRegs {res : Reg} {t' : State} (hm : t'.mem = t.mem) (hs : t'.sym = t.sym) (hr : Regs [.rax, res] t t')
    (h1 : res ≠ .rsp) (h2 : res ∉ Props.calleeSaved) : Move t t' :=
  .of hm hs hr fun r h => by
    simp only [List.mem_cons, List.not_mem_nil, or_false] at h
    rcases h with rfl | rfl
    · decide
    · exact ⟨h1, h2⟩

theorem refl_called (p : BitVec 64) (k : Nat) (t : State) : Called F p k t t := ⟨fun _ _ _ => rfl, fun _ _ => rfl, rfl, rfl, rfl⟩

/-- `0` or `1` in a register written to the tag of the result. -/
theorem put01_reg {v : Bool} {o : Opd} (h : TArgs q F s) (hm : Move s t) (hd : t.reg .rdi = s.reg .rdi)
    (hv : o.get t = if v then 1 else 0) (p : List Line) :
    ∃ s', run env ra (op .mov (.mem .rdi 0) o :: .ret :: p) t = some s' ∧
      TRet q F s s' (storeBool (absMem (n64 q) s.mem) (s.reg .rdi).toNat v (s.reg .rdi).toNat) := by
  obtain ⟨t1, ht1⟩ : ∃ t1, t1 = exes [op .mov (.mem .rdi 0) o] t := ⟨_, rfl⟩
  obtain ⟨c3, o3⟩ := store_tag (v := o.get t) (h.move hm hd) (t' := t1) (by asm ht1) (by asm ht1) (by asm ht1)
  show ∃ s', run env ra ([op .mov (.mem .rdi 0) o] ++ .ret :: p) t = _ ∧ _
  rw [run_exes _ rfl, ← ht1]
  rw [hd] at c3 o3
  refine ret_of (.move hm c3 hd) ?_
  obtain ⟨z1, z2, z3⟩ := store01 v
  rw [o3, hv, z1, z2, z3, hm.mem, storeBool_elem, absMem_at]

theorem logicalOp_run {o : Op2} {f : Bool → Bool → Bool} (ho : o = .and ∧ f = and ∨ o = .or ∧ f = or) (h : TArgs q F s) :
    ∃ s', run env ra (logicalOp (n64 q) o) s = some s' ∧ TRet q F s s' (storeBool (absMem (n64 q) s.mem) (s.reg .rdi).toNat
      (f (isTrueInline (absMem (n64 q) s.mem (s.reg .rsi).toNat)) (isTrueInline (absMem (n64 q) s.mem (s.reg .rdx).toNat))) (s.reg .rdi).toNat) := by
  obtain ⟨t1, e1, m1, y1, r1, v1⟩ := isTrueL_run (env := env) (ra := ra) (res := .r8) (src := .rsi) (long := "long1") (zero := "retZero1")
    (one := "retOne1") (done := "done1") (by decide) (by decide) (by decide) (by decide) (by decide) (n64 q) s
  obtain ⟨t2, e2, m2, y2, r2, v2⟩ := isTrueL_run (env := env) (ra := ra) (res := .rcx) (src := .rdx) (long := "long2") (zero := "retZero2")
    (one := "retOne2") (done := "done2") (by decide) (by decide) (by decide) (by decide) (by decide) (n64 q) t1
  obtain ⟨t3, ht3⟩ : ∃ t3, t3 = exes [op o rcx r8] t2 := ⟨_, rfl⟩
  have mv : Move s t2 := (Move.ofRegs m1 y1 r1 (by decide) (by decide)).trans (Move.ofRegs m2 y2 r2 (by decide) (by decide))
  have d2 : t2.reg .rdi = s.reg .rdi := by rw [r2 _ (by decide), r1 _ (by decide)]
  have v8 : t2.reg .r8 = if isTrueInline (absMem (n64 q) s.mem (s.reg .rsi).toNat) then 1 else 0 := by
    rw [r2 _ (by decide), v1, absMem_at]
  have vc : t2.reg .rcx = if isTrueInline (absMem (n64 q) s.mem (s.reg .rdx).toNat) then 1 else 0 := by
    rw [v2, m1, r1 _ (by decide), absMem_at]
  have m3 : Move t2 t3 := by
    rcases ho with ⟨rfl, _⟩ | ⟨rfl, _⟩ <;> exact ht3 ▸ exes_move rfl
  have d3 : t3.reg .rdi = s.reg .rdi := by
    rw [← d2]; rcases ho with ⟨rfl, _⟩ | ⟨rfl, _⟩ <;> asm ht3
  have v3 : Opd.get rcx t3 = if f (isTrueInline (absMem (n64 q) s.mem (s.reg .rsi).toNat)) (isTrueInline (absMem (n64 q) s.mem (s.reg .rdx).toNat)) then 1 else 0 := by
    rcases ho with ⟨rfl, rfl⟩ | ⟨rfl, rfl⟩
    · have : Opd.get rcx t3 = t2.reg .rcx &&& t2.reg .r8 := by asm ht3
      rw [this, v8, vc]
      cases isTrueInline (absMem (n64 q) s.mem (s.reg .rsi).toNat) <;> cases isTrueInline (absMem (n64 q) s.mem (s.reg .rdx).toNat) <;> rfl
    · have : Opd.get rcx t3 = t2.reg .rcx ||| t2.reg .r8 := by asm ht3
      rw [this, v8, vc]
      cases isTrueInline (absMem (n64 q) s.mem (s.reg .rsi).toNat) <;> cases isTrueInline (absMem (n64 q) s.mem (s.reg .rdx).toNat) <;> rfl
  rw [logicalOp, List.append_assoc, e1, e2]
  show ∃ s', run env ra ([op o rcx r8] ++ op .mov (.mem .rdi 0) rcx :: .ret :: []) t2 = some s' ∧ _
  rw [run_exes _ (by rcases ho with ⟨rfl, _⟩ | ⟨rfl, _⟩ <;> rfl), ← ht3]
  exact put01_reg h (mv.trans m3) d3 v3 []

/-- The assembly `land` computes exactly what the portable one computes. -/
theorem landCode_run (h : TArgs q F s) :
    ∃ s', run env ra (landCode (n64 q)) s = some s' ∧ TRet q F s s'
      (Fr_land (absMem (n64 q) s.mem) (s.reg .rdi).toNat (s.reg .rsi).toNat (s.reg .rdx).toNat (s.reg .rdi).toNat) :=
  logicalOp_run (.inl ⟨rfl, rfl⟩) h

/-- The assembly `lor` computes exactly what the portable one computes. -/
theorem lorCode_run (h : TArgs q F s) :
    ∃ s', run env ra (lorCode (n64 q)) s = some s' ∧ TRet q F s s'
      (Fr_lor (absMem (n64 q) s.mem) (s.reg .rdi).toNat (s.reg .rsi).toNat (s.reg .rdx).toNat (s.reg .rdi).toNat) :=
  logicalOp_run (.inr ⟨rfl, rfl⟩) h

/-- The assembly `lnot` computes exactly what the portable one computes. -/
theorem lnotCode_run (h : TArgs q F s) :
    ∃ s', run env ra (lnotCode (n64 q)) s = some s' ∧ TRet q F s s'
      (Fr_lnot (absMem (n64 q) s.mem) (s.reg .rdi).toNat (s.reg .rsi).toNat (s.reg .rdi).toNat) := by
  obtain ⟨t1, e1, m1, y1, r1, v1⟩ := isTrueL_run (env := env) (ra := ra) (res := .rcx) (src := .rsi) (long := "long1") (zero := "retZero1")
    (one := "retOne1") (done := "done1") (by decide) (by decide) (by decide) (by decide) (by decide) (n64 q) s
  obtain ⟨t2, ht2⟩ : ∃ t2, t2 = exes [op .test rcx rcx] t1 := ⟨_, rfl⟩
  have mv : Move s t2 := (Move.ofRegs m1 y1 r1 (by decide) (by decide)).trans (ht2 ▸ exes_move rfl)
  have d2 : t2.reg .rdi = s.reg .rdi := by rw [← r1 .rdi (by decide)]; asm ht2
  have z2 : t2.fl.zf = !isTrueInline (absMem (n64 q) s.mem (s.reg .rsi).toNat) := by
    have : t2.fl.zf = decide (t1.reg .rcx &&& t1.reg .rcx = 0) := by rw [ht2]; rfl
    rw [this, BitVec.and_self, v1, absMem_at]
    cases isTrueInline (elemAt (n64 q) s.mem (s.reg .rsi)) <;> decide
  have ev : (if (absMem (n64 q) s.mem (s.reg .rsi).toNat).long then FF.rawIsZero (absMem (n64 q) s.mem (s.reg .rsi).toNat).longVal else
      (absMem (n64 q) s.mem (s.reg .rsi).toNat).shortVal == 0) = !isTrueInline (absMem (n64 q) s.mem (s.reg .rsi).toNat) := by
    rw [isTrueInline]
    split
    · simp
    · simp [bne]
  rw [Fr_lnot, ev, lnotCode, e1]
  show ∃ s', run env ra ([op .test rcx rcx] ++ .jump .zero "lnot_retOne" :: .label "lnot_retZero" :: op .mov (.mem .rdi 0) (.imm 0) :: .ret ::
     .label "lnot_retOne" :: op .mov (.mem .rdi 0) (.imm 1) :: .ret :: []) t1 = some s' ∧ _
  rw [run_exes _ rfl, ← ht2, run_jump, Cond.holds, z2]
  cases (!isTrueInline (absMem (n64 q) s.mem (s.reg .rsi).toNat))
  · rw [if_neg (by decide), run_label]
    exact put01_reg h mv d2 rfl _
  · rw [if_pos rfl]
    exact put01_reg h mv d2 rfl _

/-- The assembly `isTrue` computes what the portable one computes; its argument is in `rdi`. -/
theorem isTrueCode_run : ∃ s', run env ra (isTrueCode n) s = some s' ∧ s'.mem = s.mem ∧ (∀ r ∈ Props.calleeSaved, s'.reg r = s.reg r) ∧
    s'.reg .rsp = s.reg .rsp + 8 ∧ s'.reg .rax = if isTrueInline (elemAt n s.mem (s.reg .rdi)) then 1 else 0 := by
  obtain ⟨t1, e1, m1, y1, r1, v1⟩ := isTrueL_run (env := env) (ra := ra) (res := .rax) (src := .rdi) (long := "long1") (zero := "retZero1")
    (one := "retOne1") (done := "done1") (by decide) (by decide) (by decide) (by decide) (by decide) n s
  have mv : Move s t1 := Move.ofRegs m1 y1 r1 (by decide) (by decide)
  rw [isTrueCode, e1]
  refine ⟨_, run_ret _ _ _ _, m1, fun r hr => ?_, ?_, ?_⟩
  · rw [← mv.saved r hr]
    show upd t1.reg .rsp _ r = _
    rw [upd_ne]
    rintro rfl; exact absurd hr (by decide)
  · simp [upd_apply, mv.rsp]
  · rw [← v1]
    simp [upd_apply]

end logic

end FF.X86
