import Verif.AsmLogic
import Verif.TaggedShift

/-!
# `toInt` in the generated assembly

The listing of `src/copy.asm.ejs:141-213` for `n` limbs, and what it computes.
-/

namespace FF.X86

/-- `fromMont_r`, `src/utils.asm.ejs:72-82`.  The temporary starts at the cell the saved `rsi` was pushed to. -/
def fromMontR (n : Nat) : List Line :=
  [op .sub rsp (.imm (BitVec.ofNat 64 (8 * (n + 1)))), .push .rsi, op .mov rsi rdi, op .mov rdi rsp, .call "toNormal", .pop .rsi]

/-- The limbs from the second on are compared with zero, `src/copy.asm.ejs:172-176`. -/
def toIntZeros (n : Nat) : List Line :=
  (List.range' 1 (n - 1)).flatMap fun i => [op .mov rcx (.mem .rdi (8 + 8 * i)), op .test rcx rcx, .jump .nzero "longNeg"]

/-- The modulus is subtracted, `src/copy.asm.ejs:187-191`. -/
def toIntSubs (n : Nat) : List Line :=
  (List.range' 1 (n - 1)).flatMap fun i => [op .mov rcx (.mem .rdi (8 + 8 * i)), op .sbb rcx (.sym .q (8 * i)), .jump .ncarry "longErr"]

/-- What follows a return of `fail`, `src/copy.asm.ejs:206-211`. -/
def toIntAfter : List Line := .pop .rdi :: leave

/-- `<name>_longErr`, `src/copy.asm.ejs:202-211`. -/
def toIntErr : List Line := [.label "longErr", .push .rdi, op .mov rdi (.imm 0), .call "fail"] ++ toIntAfter

/-- `<name>_longNeg`, `src/copy.asm.ejs:183-200`. -/
def toIntNeg (n : Nat) : List Line :=
  [.label "longNeg", op .mov rax (.mem .rdi 8), op .sub rax (.sym .q 0), .jump .ncarry "longErr"] ++ toIntSubs n ++
  [op .mov rcx rax, .misc (.sar .rcx 31), op .add rcx (.imm 1), .jump .nzero "longErr"] ++ leave ++ toIntErr

/-- `<name>_longNormal`, `src/copy.asm.ejs:167-181`. -/
def toIntNormal (n : Nat) : List Line :=
  [.label "longNormal", op .mov rax (.mem .rdi 8), op .mov rcx rax, .misc (.shr .rcx 31), .jump .nzero "longNeg"] ++ toIntZeros n ++
  leave ++ toIntNeg n

/-- `<name>_toInt`, `src/copy.asm.ejs:149-211`.  Argument in `rdi`, result in `rax`; the declared type of the result is `int`
(`src/fr.hpp.ejs`), so callers read the low half. -/
def toIntCode (n : Nat) : List Line :=
  [op .mov rax (.mem .rdi 0), .misc (.bt .rax 63), .jump .carry "long", .misc (.movsx .rax .rax), .ret, .label "long"] ++ enter ++
  [.misc (.bt .rax 62), .jump .ncarry "longNormal", .label "longMontgomery"] ++ fromMontR n ++ toIntNormal n

/-- `<name>_fail`, `src/fr.cpp.ejs:165-167`, is whatever `g` says. -/
def libFail (q : Nat) (ra : BitVec 64) (g : State → Option State) : String → Option (State → Option State) := fun f =>
  if f = "fail" then some g else lib q ra f

/-! ## What it computes -/

/-- Every subtraction of the chain borrows. -/
def borrowsAll : Limbs → Limbs → Bool
  | x :: xs, y :: ys => decide (x.toNat < y.toNat) && decide (List.Forall₂ (fun a b => BitVec.toNat a ≤ BitVec.toNat b) xs ys)
  | _, _ => false

/-- The negative branch on the limbs; `none` is the call of `fail`. -/
def asmLongNeg (q : Nat) (l : Limbs) : Option (BitVec 32) :=
  if borrowsAll l (rawq q) then
    let r := limbAt l 0 - limbAt (rawq q) 0
    if r.sshiftRight 31 + 1 = 0 then some (r.setWidth 32) else none
  else none

/-- The branch of the long elements. -/
def asmLongInt (q : Nat) (l : Limbs) : Option (BitVec 32) :=
  if limbAt l 0 >>> 31 ≠ 0 then asmLongNeg q l
  else if ∀ x ∈ l.tail, x = 0#64 then some ((limbAt l 0).setWidth 32)
  else asmLongNeg q l

/-- The whole function. -/
def asmToInt (q : Nat) (u e : Elem) : Option (BitVec 32) :=
  if e.long then
    if e.mont then asmLongInt q (toNormalInto q u e).longVal else asmLongInt q e.longVal
  else some e.shortVal

/-! ## Running it -/

def notRcx (r : Reg) : Prop := r ≠ .rcx

section run

variable {q F n k : Nat} {ra : BitVec 64} {s t : State} {env : String → Option (State → Option State)}

theorem zerosI_run (p : List Line) (m : Nat) : ∀ (i : Nat) (t : State), ∃ t', Agree notRcx t t' ∧
    run env ra (((List.range' i m).flatMap fun i => [op .mov rcx (.mem .rdi (8 + 8 * i)), op .test rcx rcx, .jump .nzero "longNeg"]) ++ p) t =
      if ∀ x ∈ (Src.arr (cell (t.reg .rdi) 1)).lims t.mem i m, x = 0#64 then run env ra p t' else run env ra (dropTo "longNeg" p) t' := by
  induction m with
  | zero => intro i t; exact ⟨t, ⟨rfl, rfl, fun _ _ => rfl⟩, by simp [Src.lims]⟩
  | succ m ih =>
    intro i t
    obtain ⟨t1, ht1⟩ : ∃ t1, t1 = exes [op .mov rcx (.mem .rdi (8 + 8 * i)), op .test rcx rcx] t := ⟨_, rfl⟩
    have hA : Agree notRcx t t1 := by rw [ht1]; exact ⟨rfl, rfl, fun r hr => upd_ne _ _ hr⟩
    have hz : t1.fl.zf = decide (t.mem (cell (cell (t.reg .rdi) 1) i) = 0#64) := by
      rw [← cell_tail, ← BitVec.and_self (x := t.mem (t.reg .rdi + BitVec.ofNat 64 (8 + 8 * i))), ht1]; rfl
    rw [List.range'_succ, List.flatMap_cons, List.append_assoc]
    rw [show ∀ P : List Line, [op .mov rcx (.mem .rdi (8 + 8 * i)), op .test rcx rcx, .jump .nzero "longNeg"] ++ P =
      [op .mov rcx (.mem .rdi (8 + 8 * i)), op .test rcx rcx] ++ .jump .nzero "longNeg" :: P from fun _ => rfl]
    rw [run_exes _ rfl, ← ht1, run_jump, Cond.holds, hz, rd_cons]
    simp only [List.forall_mem_cons]
    by_cases h : t.mem (cell (cell (t.reg .rdi) 1) i) = 0#64
    · obtain ⟨t', hA', hr⟩ := ih (i + 1) t1
      rw [hA.regs _ (show notRcx .rdi by unfold notRcx; decide), hA.mem] at hr
      refine ⟨t', hA.trans hA', ?_⟩
      rw [decide_eq_true h, Bool.not_true, if_neg Bool.false_ne_true, hr]
      simp only [h, true_and]
    · refine ⟨t1, hA, ?_⟩
      rw [decide_eq_false h, Bool.not_false, if_pos rfl, if_neg (fun h' => h h'.1), dropTo_flat _ _ (fun _ _ => rfl)]

theorem subsI_run (p : List Line) (m : Nat) : ∀ (i : Nat) (t : State), t.fl.cf = true → ∃ t', Agree notRcx t t' ∧
    run env ra (((List.range' i m).flatMap fun i => [op .mov rcx (.mem .rdi (8 + 8 * i)), op .sbb rcx (.sym .q (8 * i)), .jump .ncarry "longErr"]) ++ p) t =
      if List.Forall₂ (fun a b => BitVec.toNat a ≤ BitVec.toNat b) ((Src.arr (cell (t.reg .rdi) 1)).lims t.mem i m) ((Src.arr (t.sym .q)).lims t.mem i m)
      then run env ra p t' else run env ra (dropTo "longErr" p) t' := by
  induction m with
  | zero => intro i t _; exact ⟨t, ⟨rfl, rfl, fun _ _ => rfl⟩, by simp [Src.lims]⟩
  | succ m ih =>
    intro i t hc
    obtain ⟨t1, ht1⟩ : ∃ t1, t1 = exes [op .mov rcx (.mem .rdi (8 + 8 * i)), op .sbb rcx (.sym .q (8 * i))] t := ⟨_, rfl⟩
    have hA : Agree notRcx t t1 := by
      refine ⟨by rw [ht1]; rfl, by rw [ht1]; rfl, fun r hr => ?_⟩
      rw [ht1]
      show upd (upd t.reg .rcx _) .rcx _ r = _
      rw [upd_ne _ _ hr, upd_ne _ _ hr]
    set x := t.mem (cell (cell (t.reg .rdi) 1) i) with hx
    set y := t.mem (cell (t.sym .q) i) with hy
    have c1 : t1.fl.cf = decide (x.toNat ≤ y.toNat) := by
      have : t1.fl.cf = decide ((t.mem (t.reg .rdi + BitVec.ofNat 64 (8 + 8 * i))).toNat < (t.mem (cell (t.sym .q) i)).toNat + b2n t.fl.cf) := by rw [ht1]; rfl
      rw [this, cell_tail, hc]
      exact decide_eq_decide.2 Nat.lt_succ_iff
    rw [List.range'_succ, List.flatMap_cons, List.append_assoc]
    rw [show ∀ P : List Line, [op .mov rcx (.mem .rdi (8 + 8 * i)), op .sbb rcx (.sym .q (8 * i)), .jump .ncarry "longErr"] ++ P =
      [op .mov rcx (.mem .rdi (8 + 8 * i)), op .sbb rcx (.sym .q (8 * i))] ++ .jump .ncarry "longErr" :: P from fun _ => rfl]
    rw [run_exes _ rfl, ← ht1, run_jump, Cond.holds, c1, rd_cons, rd_cons, ← hx, ← hy]
    simp only [List.forall₂_cons]
    by_cases h : x.toNat ≤ y.toNat
    · obtain ⟨t', hA', hr⟩ := ih (i + 1) t1 (by rw [c1, decide_eq_true h])
      rw [hA.regs _ (show notRcx .rdi by unfold notRcx; decide), hA.mem, hA.sym] at hr
      refine ⟨t', hA.trans hA', ?_⟩
      rw [decide_eq_true h, Bool.not_true, if_neg Bool.false_ne_true, hr]
      simp only [h, true_and]
    · refine ⟨t1, hA, ?_⟩
      rw [decide_eq_false h, Bool.not_false, if_pos rfl, if_neg (fun h' => h h'.1), dropTo_flat _ _ (fun _ _ => rfl)]

/-- Inside the routine, entered in state `s`. -/
structure InI (F : Nat) (s t : State) : Prop where
  rbp : t.reg .rbp = stk (s.reg .rsp) 3
  old : t.mem (stk (s.reg .rsp) 1) = s.reg .rbp
  frame : ∀ a, ¬ InStk (s.reg .rsp) F a → t.mem a = s.mem a
  saved : ∀ r ∈ Props.calleeSaved, r ≠ .rbp → t.reg r = s.reg r
  sym : t.sym = s.sym

/-- The routine has returned `v`; only stack cells have changed. -/
structure IntRet (F : Nat) (s s' : State) (v : BitVec 32) : Prop where
  rax : (s'.reg .rax).setWidth 32 = v
  frame : ∀ a, ¬ InStk (s.reg .rsp) F a → s'.mem a = s.mem a
  saved : ∀ r ∈ Props.calleeSaved, s'.reg r = s.reg r
  rsp : s'.reg .rsp = s.reg .rsp + 8
  sym : s'.sym = s.sym

theorem InI.agree {t' : State} (hi : InI F s t) (h : Agree notRcx t t') : InI F s t' :=
  ⟨by rw [h.regs _ (by unfold notRcx; decide), hi.rbp], by rw [h.mem, hi.old], by rw [h.mem]; exact hi.frame,
    fun r hr hb => by rw [h.regs r (by rintro rfl; exact absurd hr (by decide)), hi.saved r hr hb], by rw [h.sym, hi.sym]⟩

theorem InI.move {t' : State} (hi : InI F s t) (h : Move t t') : InI F s t' :=
  ⟨by rw [h.saved _ (by decide), hi.rbp], by rw [h.mem, hi.old], by rw [h.mem]; exact hi.frame,
    fun r hr hb => by rw [h.saved r hr, hi.saved r hr hb], by rw [h.sym, hi.sym]⟩

theorem leaveI_run (hi : InI F s t) (p : List Line) :
    ∃ s', run env ra (leave ++ p) t = some s' ∧ IntRet F s s' ((t.reg .rax).setWidth 32) := by
  obtain ⟨t1, ht1⟩ : ∃ t1, t1 = exes [op .mov rsp rbp, .pop .rdx, .pop .rsi, .pop .rbp] t := ⟨_, rfl⟩
  have hm : t1.mem = t.mem := by rw [ht1]; rfl
  have hsp : t1.reg .rsp = s.reg .rsp := by
    have : t1.reg .rsp = t.reg .rbp + 8 + 8 + 8 := by rw [ht1]; rfl
    rw [this, hi.rbp, stk_pop, stk_pop, show (1 : Nat) = 0 + 1 from rfl, stk_pop, stk_zero]
  have hbp : t1.reg .rbp = s.reg .rbp := by
    have : t1.reg .rbp = t.mem (t.reg .rbp + 8 + 8) := by rw [ht1]; rfl
    rw [this, hi.rbp, stk_pop, stk_pop, hi.old]
  have hs : ∀ r ∈ Props.calleeSaved, t1.reg r = s.reg r := by
    intro r hr
    by_cases hb : r = .rbp
    · rw [hb]; exact hbp
    · rw [← hi.saved r hr hb, ht1]
      simp [Props.calleeSaved, hb] at hr
      rcases hr with rfl | rfl | rfl | rfl | rfl <;> rfl
  have hax : t1.reg .rax = t.reg .rax := by rw [ht1]; rfl
  refine ⟨{ t1 with reg := upd t1.reg .rsp (t1.reg .rsp + 8) }, ?_, ?_⟩
  · show run env ra ([op .mov rsp rbp, .pop .rdx, .pop .rsi, .pop .rbp] ++ .ret :: p) t = _
    rw [run_exes _ rfl, ← ht1, run_ret]
  · refine ⟨by rw [← hax]; rfl, fun a ha => by rw [← hi.frame a ha, ← hm], fun r hr => ?_, ?_, ?_⟩
    · rw [← hs r hr]
      exact upd_ne _ _ (by rintro rfl; exact absurd hr (by decide))
    · rw [← hsp]; exact upd_same t1.reg .rsp _
    · rw [← hi.sym, ht1]; rfl

/-- How the routine ends: it returns, or it calls `fail`. -/
structure Ends (env : String → Option (State → Option State)) (ra : BitVec 64) (F : Nat) (s : State) (o : Option State) (v : Option (BitVec 32)) : Prop where
  ret : ∀ w, v = some w → ∃ s', o = some s' ∧ IntRet F s s' w
  err : v = none → ∀ g, env "fail" = some g → ∃ t, t.reg .rdi = 0 ∧ o = (g t).bind (run env ra toIntAfter)

theorem Ends.of_ret {o : Option State} {w : BitVec 32} (h : ∃ s', o = some s' ∧ IntRet F s s' w) : Ends env ra F s o (some w) :=
  ⟨fun _ e => Option.some.inj e ▸ h, fun e => by simp at e⟩

theorem err_run (t : State) : Ends env ra F s (run env ra (dropTo "longErr" toIntErr) t) none := by
  refine ⟨fun _ e => by simp at e, fun _ g hg => ?_⟩
  refine ⟨pushVal ra (exes [.push .rdi, op .mov rdi (.imm 0)] t), by rw [push_reg _ _ (by decide)]; rfl, ?_⟩
  show run env ra (dropTo "longErr" (.label "longErr" :: ([.push .rdi, op .mov rdi (.imm 0)] ++ .call "fail" :: toIntAfter))) t = _
  rw [dropTo_self, run_exes _ rfl, run, hg]
  simp only
  cases g (pushVal ra (exes [.push .rdi, op .mov rdi (.imm 0)] t)) <;> rfl

/-- The limbs of the argument and the table of the modulus. -/
structure Lims (q : Nat) (t : State) (l : Limbs) : Prop where
  arg : rd t.mem (cell (t.reg .rdi) 1) (n64 q) = l
  mod : rd t.mem (t.sym .q) (n64 q) = rawq q

theorem Lims.agree {t' : State} {l : Limbs} (h : Lims q t l) (hA : Agree notRcx t t') : Lims q t' l :=
  ⟨by rw [hA.mem, hA.regs _ (show notRcx .rdi by unfold notRcx; decide)]; exact h.arg, by rw [hA.mem, hA.sym]; exact h.mod⟩

theorem Lims.cons {l : Limbs} (h : Lims q t l) :
    l = t.mem (t.reg .rdi + 8) :: (Src.arr (cell (t.reg .rdi) 1)).lims t.mem 1 (n64 q - 1) ∧
    rawq q = t.mem (t.sym .q) :: (Src.arr (t.sym .q)).lims t.mem 1 (n64 q - 1) := by
  obtain ⟨m, hm⟩ := Nat.exists_eq_succ_of_ne_zero (n64_pos q).ne'
  have e1 := h.arg
  have e2 := h.mod
  rw [hm, rd_eq_lims, rd_cons] at e1 e2
  rw [hm, ← e1, ← e2, cell_zero, cell_zero]
  exact ⟨rfl, rfl⟩

theorem neg_run {l : Limbs} (hi : InI F s t) (hl : Lims q t l) :
    Ends env ra F s (run env ra (dropTo "longNeg" (toIntNeg (n64 q))) t) (asmLongNeg q l) := by
  obtain ⟨h1, h2⟩ := hl.cons
  set x := t.mem (t.reg .rdi + 8) with hx
  set y := t.mem (t.sym .q) with hy
  obtain ⟨t1, ht1⟩ : ∃ t1, t1 = exes [op .mov rax (.mem .rdi 8), op .sub rax (.sym .q 0)] t := ⟨_, rfl⟩
  have m1 : Move t t1 := ht1 ▸ exes_move rfl
  have d1 : t1.reg .rdi = t.reg .rdi := by asm ht1
  have y0 : t.mem (t.sym .q + BitVec.ofNat 64 0) = y := by rw [hy]; simp
  have v1 : t1.reg .rax = x - y := by
    have : t1.reg .rax = t.mem (t.reg .rdi + 8) - t.mem (t.sym .q + BitVec.ofNat 64 0) := by rw [ht1]; rfl
    rw [this, y0]
  have c1 : t1.fl.cf = decide (x.toNat < y.toNat) := by
    have : t1.fl.cf = decide ((t.mem (t.reg .rdi + 8)).toNat < (t.mem (t.sym .q + BitVec.ofNat 64 0)).toNat + 0) := by rw [ht1]; rfl
    rw [this, y0]; rfl
  have e0 : dropTo "longNeg" (toIntNeg (n64 q)) = [op .mov rax (.mem .rdi 8), op .sub rax (.sym .q 0)] ++ (.jump .ncarry "longErr" ::
      (toIntSubs (n64 q) ++ ([op .mov rcx rax, .misc (.sar .rcx 31), op .add rcx (.imm 1)] ++ (.jump .nzero "longErr" :: (leave ++ toIntErr))))) := by
    rw [toIntNeg]; simp only [List.append_assoc, List.cons_append, List.nil_append]; exact dropTo_self _ _
  rw [e0, run_exes _ rfl, ← ht1, run_jump, Cond.holds, c1, asmLongNeg, h1, h2, borrowsAll]
  by_cases hb : x.toNat < y.toNat
  · obtain ⟨t2, a2, e2⟩ := subsI_run (env := env) (ra := ra) ([op .mov rcx rax, .misc (.sar .rcx 31), op .add rcx (.imm 1)] ++
      (.jump .nzero "longErr" :: (leave ++ toIntErr))) (n64 q - 1) 1 t1 (by rw [c1, decide_eq_true hb])
    rw [m1.mem, m1.sym, d1] at e2
    rw [decide_eq_true hb, Bool.not_true, if_neg Bool.false_ne_true, Bool.true_and, toIntSubs, e2]
    by_cases hf : List.Forall₂ (fun a b => BitVec.toNat a ≤ BitVec.toNat b) ((Src.arr (cell (t.reg .rdi) 1)).lims t.mem 1 (n64 q - 1))
        ((Src.arr (t.sym .q)).lims t.mem 1 (n64 q - 1))
    · rw [if_pos hf, decide_eq_true hf, if_pos rfl]
      obtain ⟨t3, ht3⟩ : ∃ t3, t3 = exes [op .mov rcx rax, .misc (.sar .rcx 31), op .add rcx (.imm 1)] t2 := ⟨_, rfl⟩
      have m3 : Move t2 t3 := ht3 ▸ exes_move rfl
      have v2 : t2.reg .rax = x - y := by rw [a2.regs _ (by unfold notRcx; decide), v1]
      have v3 : t3.reg .rax = x - y := by rw [← v2, ht3]; rfl
      have z3 : t3.fl.zf = decide ((x - y).sshiftRight 31 + 1 = 0) := by rw [← v2, ht3]; rfl
      rw [run_exes _ rfl, ← ht3, run_jump, Cond.holds, z3]
      show Ends _ _ _ _ _ (if (x - y).sshiftRight 31 + 1 = 0 then some ((x - y).setWidth 32) else none)
      by_cases hz : (x - y).sshiftRight 31 + 1 = 0
      · rw [decide_eq_true hz, Bool.not_true, if_neg Bool.false_ne_true, if_pos hz, ← v3]
        exact .of_ret <| leaveI_run (((hi.move m1).agree a2).move m3) _
      · rw [decide_eq_false hz, Bool.not_false, if_pos rfl, if_neg hz, dropTo_leave]
        exact err_run t3
    · rw [if_neg hf, decide_eq_false hf, if_neg Bool.false_ne_true]
      exact err_run t2
  · rw [decide_eq_false hb, Bool.not_false, if_pos rfl, Bool.false_and, if_neg Bool.false_ne_true, toIntSubs, dropTo_flat _ _ (fun _ _ => rfl)]
    exact err_run t1

theorem normal_run {l : Limbs} (hi : InI F s t) (hl : Lims q t l) :
    Ends env ra F s (run env ra (dropTo "longNormal" (toIntNormal (n64 q))) t) (asmLongInt q l) := by
  obtain ⟨h1, -⟩ := hl.cons
  set x := t.mem (t.reg .rdi + 8) with hx
  obtain ⟨t1, ht1⟩ : ∃ t1, t1 = exes [op .mov rax (.mem .rdi 8), op .mov rcx rax, .misc (.shr .rcx 31)] t := ⟨_, rfl⟩
  have m1 : Move t t1 := ht1 ▸ exes_move rfl
  have d1 : t1.reg .rdi = t.reg .rdi := by asm ht1
  have v1 : t1.reg .rax = x := by rw [ht1]; rfl
  have z1 : t1.fl.zf = decide (x >>> 31 = 0) := by rw [ht1]; rfl
  have l1 : Lims q t1 l := ⟨by rw [m1.mem, d1]; exact hl.arg, by rw [m1.mem, m1.sym]; exact hl.mod⟩
  have e0 : dropTo "longNormal" (toIntNormal (n64 q)) = [op .mov rax (.mem .rdi 8), op .mov rcx rax, .misc (.shr .rcx 31)] ++
      (.jump .nzero "longNeg" :: (toIntZeros (n64 q) ++ (leave ++ toIntNeg (n64 q)))) := by
    rw [toIntNormal]; simp only [List.append_assoc, List.cons_append, List.nil_append]; exact dropTo_self _ _
  have l0 : limbAt l 0 = x := by rw [h1]; rfl
  have tl : l.tail = (Src.arr (cell (t.reg .rdi) 1)).lims t.mem 1 (n64 q - 1) := by rw [h1]; rfl
  rw [e0, run_exes _ rfl, ← ht1, run_jump, Cond.holds, z1, asmLongInt, l0, tl]
  by_cases hs : x >>> 31 = 0
  · obtain ⟨t2, a2, e2⟩ := zerosI_run (env := env) (ra := ra) (leave ++ toIntNeg (n64 q)) (n64 q - 1) 1 t1
    rw [m1.mem, d1] at e2
    rw [decide_eq_true hs, Bool.not_true, if_neg Bool.false_ne_true, if_neg (not_not.2 hs), toIntZeros, e2]
    by_cases hz : ∀ w ∈ (Src.arr (cell (t.reg .rdi) 1)).lims t.mem 1 (n64 q - 1), w = 0#64
    · rw [if_pos hz, if_pos hz]
      obtain ⟨s', r1, r2⟩ := leaveI_run (env := env) (ra := ra) ((hi.move m1).agree a2) (toIntNeg (n64 q))
      rw [a2.regs _ (by unfold notRcx; decide), v1] at r2
      exact .of_ret ⟨s', r1, r2⟩
    · rw [if_neg hz, if_neg hz, dropTo_leave]
      exact neg_run ((hi.move m1).agree a2) (l1.agree a2)
  · rw [decide_eq_false hs, Bool.not_false, if_pos rfl, if_pos hs, toIntZeros, dropTo_flat _ _ (fun _ _ => rfl), dropTo_leave]
    exact neg_run (hi.move m1) l1

theorem enterI_run (h : TArgs q F s) (hF : 3 ≤ F) :
    ∃ t, (∀ p, run env ra (enter ++ p) s = run env ra p t) ∧ InI F s t ∧ t.reg .rsp = stk (s.reg .rsp) 3 ∧
      t.reg .rdi = s.reg .rdi ∧ t.reg .rax = s.reg .rax := by
  have e1 : ∀ k, k ≤ 3 → 8 * k < 2 ^ 64 := fun k hk => by have := h.small; omega
  have hm : (exes enter s).mem = upd (upd (upd s.mem (s.reg .rsp - 8) (s.reg .rbp)) (s.reg .rsp - 8 - 8) (s.reg .rsi))
      (s.reg .rsp - 8 - 8 - 8) (s.reg .rdx) := rfl
  rw [stk_one, stk_push, stk_push] at hm
  have hf : ∀ a, ¬ InStk (s.reg .rsp) F a → (exes enter s).mem a = s.mem a := by
    intro a ha
    rw [hm, upd_ne _ _ fun e => ha ⟨2, by omega, e⟩, upd_ne _ _ fun e => ha ⟨1, by omega, e⟩,
      upd_ne _ _ fun e => ha ⟨0, by omega, e⟩]
  have hsp : (exes enter s).reg .rsp = stk (s.reg .rsp) 3 := by
    show s.reg .rsp - 8 - 8 - 8 = _
    rw [stk_one (s.reg .rsp), stk_push, stk_push]
  refine ⟨exes enter s, fun p => run_exes _ rfl p s, ⟨hsp, ?_, hf, ?_, rfl⟩, hsp, rfl, rfl⟩
  · rw [hm, upd_ne _ _ fun e => ?_, upd_ne _ _ fun e => ?_, upd_same]
    · have := stk_inj (e1 _ (by decide)) (e1 _ (by decide)) e; omega
    · have := stk_inj (e1 _ (by decide)) (e1 _ (by decide)) e; omega
  · intro r hr hb
    simp [Props.calleeSaved, hb] at hr
    rcases hr with rfl | rfl | rfl | rfl | rfl <;> rfl

/-- The conversion of the argument. -/
theorem fromMontR_run {F' : Nat} {f : Elem → Elem → Prop} {P : Elem → Prop} (hf : ConvSpec q F' ra env "toNormal" f P)
    (hP : P (elemAt (n64 q) s.mem (s.reg .rdi))) (h : TArgs q F s) (hi : InI F s t)
    (hk : t.reg .rsp = stk (s.reg .rsp) 3) (hd : t.reg .rdi = s.reg .rdi) (hF : n64 q + 5 + F' ≤ F) (hb : callCells q ≤ F') :
    ∃ t', (∀ p, run env ra (fromMontR (n64 q) ++ p) t = run env ra p t') ∧ InI F s t' ∧
      ∃ e, f (elemAt (n64 q) s.mem (s.reg .rdi)) e ∧ rd t'.mem (cell (t'.reg .rdi) 1) (n64 q) = e.longVal := by
  have hfit := h.ok.fits
  set S := s.reg .rsp with hS
  have hne : ∀ i j, i ≤ F → j ≤ F → i ≠ j → stk S i ≠ stk S j := fun i j h1 h2 h3 e => h3 (stk_inj (by omega) (by omega) e)
  have hin : ∀ j, 1 ≤ j → j ≤ F → InStk S F (stk S j) := fun j h1 h2 => ⟨j - 1, by omega, by rw [Nat.sub_add_cancel h1]⟩
  obtain ⟨t1, ht1⟩ : ∃ t1, t1 = exes [op .sub rsp (.imm (BitVec.ofNat 64 (8 * (n64 q + 1)))), .push .rsi, op .mov rsi rdi, op .mov rdi rsp] t := ⟨_, rfl⟩
  have hn : t.reg .rsp - BitVec.ofNat 64 (8 * (n64 q + 1)) - 8 = stk S (n64 q + 5) := by
    rw [hk, stk_sub, stk_push]; congr 1; omega
  have hm : t1.mem = upd t.mem (stk S (n64 q + 5)) (t.reg .rsi) := by rw [← hn, ht1]; rfl
  have sp1 : t1.reg .rsp = stk S (n64 q + 5) := by rw [← hn, ht1]; rfl
  have d1 : t1.reg .rdi = stk S (n64 q + 5) := by rw [← hn, ht1]; rfl
  have s1 : t1.reg .rsi = s.reg .rdi := by rw [← hd, ht1]; rfl
  have i1 : InI F s t1 := by
    refine ⟨by rw [← hi.rbp, ht1]; rfl, ?_, fun a ha => ?_, fun r hr hb => ?_, by rw [← hi.sym, ht1]; rfl⟩
    · rw [hm, upd_ne _ _ (hne _ _ (by omega) (by omega) (by omega)), hi.old]
    · rw [hm, upd_ne _ _ (fun e => ha (by rw [e]; exact hin _ (by omega) (by omega))), hi.frame a ha]
    · rw [← hi.saved r hr hb, ht1]
      simp [Props.calleeSaved, hb] at hr
      rcases hr with rfl | rfl | rfl | rfl | rfl <;> rfl
  have harr : ∀ a, InArr (t1.reg .rdi) (n64 q + 1) a → ∃ j, 5 ≤ j ∧ j ≤ n64 q + 5 ∧ a = stk S j := by
    rintro a ⟨i, hi, rfl⟩
    rw [d1, cell_stk _ (by omega)]
    exact ⟨_, by omega, by omega, rfl⟩
  have hdeep : ∀ a, InStk (t1.reg .rsp) F' a → InStk S F a := fun a ha => by rw [sp1] at ha; exact ha.deep (by omega)
  have a1 : TArgs q F' t1 := by
    refine ⟨⟨by omega, h.ok.data.congr i1.sym fun a ha => i1.frame a (h.ok.off a ha), fun a ha h' => ?_⟩, hb, ⟨fun a ha h' => ?_, fun a ha h' => ?_⟩⟩
    · rw [i1.sym] at ha
      exact h.ok.off a ha (hdeep a h')
    · obtain ⟨j, h1, h2, rfl⟩ := harr a ha
      obtain ⟨l, h3, e⟩ := h'
      rw [sp1, stk_stk] at e
      exact hne _ _ (by omega) (by omega) (by omega) e
    · obtain ⟨j, h1, h2, rfl⟩ := harr a ha
      rw [i1.sym] at h'
      exact h.ok.off _ h' (hin _ (by omega) (by omega))
  have o1 : TOpnd q F' t1 (t1.reg .rsi) := by
    rw [s1]
    refine ⟨.inr fun i j hi hj e => ?_, fun a ha h' => h.dst.off a ha (hdeep a h')⟩
    obtain ⟨l, h1, h2, e'⟩ := harr _ ⟨j, hj, rfl⟩
    exact h.dst.off _ ⟨i, hi, rfl⟩ (by rw [e, e']; exact hin _ (by omega) (by omega))
  obtain ⟨t2, e2, c2, r2⟩ := hf t1 a1 o1 (by rw [s1, elemAt_congr fun a ha => i1.frame a (h.dst.off a ha)]; exact hP)
  have i2 : InI F s t2 := by
    refine ⟨by rw [c2.saved _ (by decide), i1.rbp], ?_, fun a ha => ?_, fun r hr hb => by rw [c2.saved r hr, i1.saved r hr hb], by rw [c2.sym, i1.sym]⟩
    · rw [c2.frame, i1.old]
      · rintro ⟨l, h3, e⟩
        rw [sp1, stk_stk] at e
        exact hne _ _ (by omega) (by omega) (by omega) e
      · intro h'
        obtain ⟨j, h1, h2, e⟩ := harr _ h'
        exact hne _ _ (by omega) (by omega) (by omega) e
    · rw [c2.frame, i1.frame a ha]
      · exact fun h' => ha (hdeep a h')
      · intro h'
        obtain ⟨j, h1, h2, e⟩ := harr _ h'
        exact ha (by rw [e]; exact hin _ (by omega) (by omega))
  obtain ⟨t3, ht3⟩ : ∃ t3, t3 = exes [.pop .rsi] t2 := ⟨_, rfl⟩
  have m3 : t3.mem = t2.mem := by rw [ht3]; rfl
  have d3 : t3.reg .rdi = t2.reg .rdi := by rw [ht3]; rfl
  refine ⟨t3, fun p => ?_, ⟨by rw [← i2.rbp, ht3]; rfl, by rw [m3, i2.old], by rw [m3]; exact i2.frame, fun r hr hb => ?_, by rw [← i2.sym, ht3]; rfl⟩,
    elemAt (n64 q) t2.mem (t1.reg .rdi), ?_, ?_⟩
  · show run env ra ([op .sub rsp (.imm (BitVec.ofNat 64 (8 * (n64 q + 1)))), .push .rsi, op .mov rsi rdi, op .mov rdi rsp] ++
      .call "toNormal" :: ([.pop .rsi] ++ p)) t = _
    rw [run_exes _ rfl, ← ht1, e2, run_exes _ rfl, ← ht3]
  · rw [← i2.saved r hr hb, ht3]
    simp [Props.calleeSaved, hb] at hr
    rcases hr with rfl | rfl | rfl | rfl | rfl <;> rfl
  · rwa [s1, elemAt_congr fun a ha => i1.frame a (h.dst.off a ha)] at r2
  · rw [m3, d3, c2.rdi]; rfl

theorem toNormal_specF {g : State → Option State} (hq : q % 2 = 1) (hb : callCells q ≤ F) : ConvSpec q (F + 1) ra (libFail q ra g) "toNormal" (fun a e => ∃ r, e = toNormalInto q r a) (FromOk q) := by
  intro t h ha hP
  have e : elemAt (n64 q) (pushVal ra t).mem ((pushVal ra t).reg .rsi) = elemAt (n64 q) t.mem (t.reg .rsi) := by
    rw [push_reg _ _ (by decide), elemAt_congr fun a h' => push_mem ra t (off_one (ha.off a h') (Nat.succ_pos _))]
  obtain ⟨s', h1, h2⟩ := toNormal_run (ra := ra) hq (by rw [e]; exact hP) (h.push hb ra)
    (by rw [push_reg _ _ (by decide)]; exact ha.push ra)
  obtain ⟨c1, c2, c3⟩ := called_of (env := libFail q ra g) (f := "toNormal") rfl h1 h2
  rw [e] at c3
  exact ⟨s', c1, c2, _, c3⟩

/-- The whole routine. -/
theorem toIntCode_run {g : State → Option State} (hq : q % 2 = 1) (h7' : FromOk q (elemAt (n64 q) s.mem (s.reg .rdi))) (h : TArgs q F s)
    (hF : n64 q + 6 + callCells q ≤ F) (u : Elem) :
    Ends (libFail q ra g) ra F s (run (libFail q ra g) ra (toIntCode (n64 q)) s) (asmToInt q u (elemAt (n64 q) s.mem (s.reg .rdi))) := by
  obtain ⟨t1, ht1⟩ : ∃ t1, t1 = exes [op .mov rax (.mem .rdi 0), .misc (.bt .rax 63)] s := ⟨_, rfl⟩
  have m1 : Move s t1 := ht1 ▸ exes_move rfl
  have d1 : t1.reg .rdi = s.reg .rdi := by asm ht1
  have v1 : t1.reg .rax = s.mem (s.reg .rdi) := by asm ht1
  have f1 : t1.fl.cf = (elemAt (n64 q) s.mem (s.reg .rdi)).long := by asm ht1; rfl
  set e := elemAt (n64 q) s.mem (s.reg .rdi) with he
  have e0 : toIntCode (n64 q) = [op .mov rax (.mem .rdi 0), .misc (.bt .rax 63)] ++ (.jump .carry "long" :: ([.misc (.movsx .rax .rax)] ++
      (.ret :: .label "long" :: (enter ++ (.misc (.bt .rax 62) :: .jump .ncarry "longNormal" :: .label "longMontgomery" ::
        (fromMontR (n64 q) ++ toIntNormal (n64 q))))))) := by
    rw [toIntCode]; simp only [List.append_assoc, List.cons_append, List.nil_append]
  rw [e0, run_exes _ rfl, ← ht1, run_jump, Cond.holds, f1, asmToInt]
  cases hl : e.long
  · rw [if_neg Bool.false_ne_true, if_neg Bool.false_ne_true, run_exes _ rfl, run_ret]
    refine .of_ret ⟨_, rfl, ?_, fun a _ => ?_, fun r hr => ?_, ?_, ?_⟩
    · show ((((t1.reg .rax).setWidth 32).signExtend 64).setWidth 32) = e.shortVal
      rw [v1, he]
      show _ = BitVec.setWidth 32 (s.mem (s.reg .rdi))
      ext i hi
      simp [BitVec.getElem_setWidth, BitVec.getLsbD_signExtend, hi]
      omega
    · show t1.mem a = _; rw [m1.mem]
    · rw [← m1.saved r hr]
      show upd (upd t1.reg .rax _) .rsp _ r = _
      rw [upd_ne _ _ (by rintro rfl; exact absurd hr (by decide)), upd_ne _ _ (by rintro rfl; exact absurd hr (by decide))]
    · rw [← m1.rsp]
      exact upd_same (Misc.exec (.movsx .rax .rax) t1).reg .rsp _
    · show t1.sym = _; rw [m1.sym]
  · rw [if_pos rfl, if_pos rfl]
    rw [show ∀ P : List Line, dropTo "long" ([.misc (.movsx .rax .rax)] ++ (.ret :: .label "long" :: P)) = P from fun P => dropTo_self "long" P]
    obtain ⟨t2, e2, i2, sp2, d2, a2⟩ := enterI_run (env := libFail q ra g) (ra := ra) (h.move m1 d1) (by omega)
    have i2' : InI F s t2 := by
      obtain ⟨x1, x2, x3, x4, x5⟩ := i2
      rw [m1.rsp] at x1 x2 x3
      exact ⟨x1, by rw [x2, m1.saved _ (by decide)], fun a ha => by rw [x3 a ha, m1.mem], fun r hr hb => by rw [x4 r hr hb, m1.saved r hr], by rw [x5, m1.sym]⟩
    rw [m1.rsp] at sp2
    rw [d1] at d2
    rw [v1] at a2
    have hmod : ∀ t, InI F s t → rd t.mem (t.sym .q) (n64 q) = rawq q := fun t hi =>
      (h.ok.data.congr hi.sym fun a ha => hi.frame a (h.ok.off a ha)).mod
    have bm : (Misc.exec (.bt .rax 62) t2).fl.cf = e.mont := by
      show (t2.reg .rax).getLsbD 62 = _
      rw [a2]; rfl
    rw [e2, run_misc, run_jump, Cond.holds, bm]
    cases hM : e.mont
    · rw [Bool.not_false, if_pos rfl, if_neg Bool.false_ne_true]
      show Ends _ _ _ _ (run _ ra (dropTo "longNormal" (toIntNormal (n64 q))) _) _
      refine normal_run (i2'.move ⟨rfl, rfl, rfl, fun _ _ => rfl⟩) ⟨?_, hmod _ (i2'.move ⟨rfl, rfl, rfl, fun _ _ => rfl⟩)⟩
      show rd t2.mem (cell (t2.reg .rdi) 1) (n64 q) = _
      rw [d2, he, elemAt]
      exact rd_off fun a ha => i2'.frame a (h.dst.off a (ha.shift (by omega)))
    · rw [Bool.not_true, if_neg Bool.false_ne_true, if_pos rfl, run_label]
      obtain ⟨t3, e3, i3, e', ⟨r, hr⟩, l3⟩ := fromMontR_run (F' := callCells q + 1) (t := Misc.exec (.bt .rax 62) t2) (toNormal_specF (g := g) hq le_rfl) h7' h
        (i2'.move ⟨rfl, rfl, rfl, fun _ _ => rfl⟩) sp2 d2 (by omega) (by omega)
      rw [e3]
      have ed : run (libFail q ra g) ra (toIntNormal (n64 q)) t3 = run (libFail q ra g) ra (dropTo "longNormal" (toIntNormal (n64 q))) t3 := by
        show run _ ra (.label "longNormal" :: _) t3 = run _ ra (dropTo "longNormal" (.label "longNormal" :: _)) t3
        rw [run_label, dropTo_self]
      have er : (toNormalInto q u e).longVal = (toNormalInto q r e).longVal := by rw [toNormalInto, toNormalInto, hl, hM]; rfl
      rw [ed, er, ← hr]
      exact normal_run i3 ⟨l3, hmod _ i3⟩

end run

/-! ## Against the portable function -/

section portable

variable {q : Nat} {x : ZMod q}

theorem rawq_cons (q : Nat) : ∃ y ys, rawq q = y :: ys ∧ ys.length + 1 = n64 q := by
  have h : (rawq q).length = n64 q := by simp
  have := n64_pos q
  match rawq q, h with
  | [], h => simp at h; omega
  | y :: ys, h => exact ⟨y, ys, rfl, by simpa using h⟩

theorem asmLongNeg_eq {e : Elem} (h : LRep q e.longVal x) :
    asmLongNeg q e.longVal = if borrowsAll e.longVal (rawq q) then Fr_longNeg q e else none := by
  have c := cmpGe_iff e.longVal (rawq q) (by simp [h.1])
  rw [rawq_val] at c
  have hf : cmpGe e.longVal (rawq q) = false := by
    rw [← Bool.not_eq_true, c]; have := h.2.1; omega
  rw [asmLongNeg]
  congr 1
  rw [Fr_longNeg, hf, if_neg Bool.false_ne_true]
  by_cases hz : (limbAt e.longVal 0 - limbAt (rawq q) 0).sshiftRight 31 + 1 = 0
  · rw [if_pos hz, if_neg (by simpa using hz)]
  · rw [if_neg hz, if_pos (by simpa using hz)]

/-- It returns what the portable function returns, or it fails. -/
theorem asmLongInt_eq {e : Elem} (h : LRep q e.longVal x) :
    asmLongInt q e.longVal = if x.val < 2147483648 ∨ borrowsAll e.longVal (rawq q) = true then Fr_longNormal q e else none := by
  have hv := h.val_eq
  obtain ⟨w, ws, el⟩ : ∃ w ws, e.longVal = w :: ws := by
    have h1 := h.1
    have := n64_pos q
    match e.longVal, h1 with
    | [], h => simp at h; omega
    | w :: ws, _ => exact ⟨w, ws, rfl⟩
  have hneg := asmLongNeg_eq h
  have l0 : limbAt e.longVal 0 = w := by rw [el]; rfl
  have tl : e.longVal.tail = ws := by rw [el]; rfl
  have hw : w.toNat < 2 ^ 64 := w.isLt
  have hW : W = 2 ^ 64 := W_eq.symm
  rw [el, val_cons, hW] at hv
  have sh : w >>> 31 = 0 ↔ w.toNat < 2147483648 := by
    rw [← BitVec.toNat_inj, BitVec.toNat_ushiftRight, Nat.shiftRight_eq_div_pow]
    show w.toNat / 2147483648 = 0 ↔ _
    omega
  have hp : Fr_longNormal q e = if w >>> 31 = 0 ∧ ∀ x ∈ ws, x = 0#64 then some (w.setWidth 32) else Fr_longNeg q e := by
    unfold Fr_longNormal
    rw [l0, tl]
    by_cases h1 : w >>> 31 = 0
    · rw [if_neg (by simp [h1])]
      by_cases h2 : ∀ x ∈ ws, x = 0#64
      · rw [if_neg (by simpa using h2), if_pos ⟨h1, h2⟩]
      · rw [if_pos (by simpa using h2), if_neg (fun hh => h2 hh.2)]
    · rw [if_pos (by simpa using h1), if_neg (fun hh => h1 hh.1)]
  have ha : asmLongInt q e.longVal = if w >>> 31 = 0 ∧ ∀ x ∈ ws, x = 0#64 then some (w.setWidth 32) else asmLongNeg q e.longVal := by
    rw [asmLongInt, l0, tl]
    by_cases h1 : w >>> 31 = 0
    · rw [if_neg (not_not.2 h1)]
      by_cases h2 : ∀ x ∈ ws, x = 0#64
      · rw [if_pos h2, if_pos ⟨h1, h2⟩]
      · rw [if_neg h2, if_neg (fun hh => h2 hh.2)]
    · rw [if_pos h1, if_neg (fun hh => h1 hh.1)]
  rw [ha, hp, hneg]
  have hc : (w >>> 31 = 0 ∧ ∀ x ∈ ws, x = 0#64) ↔ x.val < 2147483648 := by
    rw [sh]
    constructor
    · rintro ⟨h1, h2⟩
      have : val ws = 0 := by rw [List.eq_replicate_of_mem h2]; exact FF.val_replicate_zero _
      rw [this] at hv; omega
    · intro hlt
      have h0 : val ws = 0 := by
        by_contra hne
        have : 1 ≤ val ws := Nat.pos_of_ne_zero hne
        have : 2 ^ 64 * 1 ≤ 2 ^ 64 * val ws := Nat.mul_le_mul_left _ this
        omega
      refine ⟨by omega, ?_⟩
      have := tail_any (ws := ws)
      intro y hy
      by_contra hne
      have h3 : ws.any (· != 0) = true := List.any_eq_true.2 ⟨y, hy, by simpa using hne⟩
      exact this.1 h3 h0
  by_cases hx : x.val < 2147483648
  · rw [if_pos (hc.2 hx), if_pos (.inl hx), if_pos (hc.2 hx)]
  · rw [if_neg (fun hh => hx (hc.1 hh)), if_neg (fun hh => hx (hc.1 hh))]
    simp only [hx, false_or]

end portable

end FF.X86
