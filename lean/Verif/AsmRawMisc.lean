import Verif.AsmRawShort

/-!
# Results of the raw listings: copies, comparisons and negation
-/

namespace FF.X86

/-- A store of the first source. -/
def movF (x _y : BitVec 64) (c : Bool) : BitVec 64 × Bool := (x, c)

theorem pass_movF : ∀ (xs ys : Limbs) (c : Bool), xs.length = ys.length → (pass movF xs ys c).1 = xs
  | [], [], _, _ => rfl
  | x :: xs, y :: ys, c, h => by
    simp only [pass, movF]
    rw [pass_movF xs ys _ (by simpa using h)]

/-- The zero source. -/
def zeroSrc : Src := .cst fun _ => 0

theorem zeroSrc_lims (m : BitVec 64 → BitVec 64) (k n : Nat) : zeroSrc.lims m k n = List.replicate n 0 := by
  rw [List.eq_replicate_iff]
  refine ⟨lims_length _ _ _ _, ?_⟩
  intro b hb
  rw [Src.lims, List.mem_map] at hb
  obtain ⟨i, _, rfl⟩ := hb
  rfl

section
variable (env : String → Option (State → Option State)) (ra : BitVec 64) (s : State)

/-- Not `rax` and not the stack pointer. -/
def keepAx (r : Reg) : Prop := r ≠ .rax ∧ r ≠ .rsp

theorem copyLoop_run (n : Nat) (hn : 8 * n ≤ 2 ^ 64) (ha : Alias (s.reg .rsi) (s.reg .rdi) n) :
    LoopPost movF (.arr (s.reg .rsi)) zeroSrc (s.reg .rdi) none notRax 0 n s.fl.cf s
      (steps ((List.range n).flatMap fun i => [i2 .mov rax (.mem .rsi (8 * i)), i2 .mov (.mem .rdi (8 * i)) rax]) s) := by
  have := loop_run (F := movF) (x := .arr (s.reg .rsi)) (y := zeroSrc) (d := s.reg .rdi) (w := none) (K := notRax)
    (reg₀ := s.reg) (sym₀ := s.sym)
    (body := fun i => [i2 .mov rax (.mem .rsi (8 * i)), i2 .mov (.mem .rdi (8 * i)) rax])
    (fst := fun _ => false) n 0 (by omega) (fun i _ _ => ?_) (fun _ _ => rfl) (ha.ok hn 0 n (by omega)) trivial s
    (fun _ _ => rfl) rfl (fun _ => rfl)
  · simpa only [List.range_eq_range', Bool.false_eq_true, if_false] using this
  · intro t hr hs'
    have hdi : t.reg .rdi = s.reg .rdi := hr _ (by simp [notRax])
    have hsi : t.reg .rsi = s.reg .rsi := hr _ (by simp [notRax])
    simp only [steps, List.foldl_cons, List.foldl_nil]
    rw [step_mov, step_mov]
    simp only [Opd.get, Opd.set, upd_same, addr_eq, upd_ne _ _ (show Reg.rdi ≠ Reg.rax by decide), hdi, hsi, Src.at, movF,
      Bool.false_eq_true, if_false]
    exact ⟨trivial, trivial, fun r hr => upd_ne _ _ hr, trivial, by simp⟩

theorem copy_post {n : Nat} {d : BitVec 64} {x : Src} {K : Reg → Prop} {c : Bool} {s1 : State}
    (hd : d = s.reg .rdi)
    (L : LoopPost movF x zeroSrc d none K 0 n c s s1) (hK : K .rsp) :
    RawPost n (fun r => K r ∧ r ≠ .rsp) s { s1 with reg := upd s1.reg .rsp (s1.reg .rsp + 8) } (x.lims s.mem 0 n) := by
  subst hd
  refine ⟨?_, ?_, ?_, ?_⟩
  · rw [rd_eq_lims]; exact L.out.trans (pass_movF _ _ _ (by rw [lims_length, lims_length]))
  · intro a ha; exact L.frame a (fun i _ h => ha i (by omega))
  · intro r hr; simp only [upd_ne _ _ hr.2]; exact L.regs r hr.1
  · simp only [upd_same]; rw [L.regs _ hK]

theorem rawCopy_run (n : Nat) (hn : 8 * n ≤ 2 ^ 64) (ha : Alias (s.reg .rsi) (s.reg .rdi) n) :
    ∃ s', run env ra (rawCopy n) s = some s' ∧ RawPost n keepAx s s' (rd s.mem (s.reg .rsi) n) := by
  refine ⟨_, by rw [rawCopy, run_code, run_ret], ?_⟩
  have := copy_post s rfl (copyLoop_run s n hn ha) (by simp [notRax])
  exact ⟨this.out, this.frame, fun r hr => this.regs r hr, this.rsp⟩

theorem copy_run (n : Nat) (hn : 8 * (n + 1) ≤ 2 ^ 64) (ha : Alias (s.reg .rsi) (s.reg .rdi) (n + 1)) :
    ∃ s', run env ra (copy n) s = some s' ∧ RawPost (n + 1) keepAx s s' (rd s.mem (s.reg .rsi) (n + 1)) := by
  refine ⟨_, by rw [copy, run_code, run_ret], ?_⟩
  have := copy_post s rfl (copyLoop_run s (n + 1) hn ha) (by simp [notRax])
  exact ⟨this.out, this.frame, fun r hr => this.regs r hr, this.rsp⟩

/-- Storing `rax = 0` in all cells. -/
theorem zeroLoop_run (n k : Nat) (hn : 8 * (k + n) ≤ 2 ^ 64) (o : Nat) (h0 : s.reg .rax = 0) :
    LoopPost movF zeroSrc zeroSrc (cell (s.reg .rdi) o) none (fun _ => True) k n s.fl.cf s
      (steps ((List.range' k n).flatMap fun i => [i2 .mov (.mem .rdi (8 * (o + i))) rax]) s) := by
  have := loop_run (F := movF) (x := zeroSrc) (y := zeroSrc) (d := cell (s.reg .rdi) o) (w := none) (K := fun _ => True)
    (reg₀ := s.reg) (sym₀ := s.sym)
    (body := fun i => [i2 .mov (.mem .rdi (8 * (o + i))) rax])
    (fst := fun _ => false) n k (by omega) (fun i _ _ => ?_) (fun _ _ => rfl) trivial trivial s
    (fun _ _ => rfl) rfl (fun _ => rfl)
  · simpa only [Bool.false_eq_true, if_false] using this
  · intro t hr hs'
    have hdi : t.reg .rdi = s.reg .rdi := hr _ trivial
    have hax : t.reg .rax = 0 := (hr _ trivial).trans h0
    simp only [steps, List.foldl_cons, List.foldl_nil]
    rw [step_mov]
    simp only [Opd.get, Opd.set, addr_eq, hdi, hax, Src.at, movF, Bool.false_eq_true, if_false, cell_add]
    exact ⟨rfl, trivial, fun _ _ => trivial, trivial, by simp⟩

theorem zeroLoop_run0 (n : Nat) (hn : 8 * n ≤ 2 ^ 64) (h0 : s.reg .rax = 0) :
    LoopPost movF zeroSrc zeroSrc (s.reg .rdi) none (fun _ => True) 0 n s.fl.cf s
      (steps ((List.range n).flatMap fun i => [i2 .mov (.mem .rdi (8 * i)) rax]) s) := by
  have := zeroLoop_run s n 0 (by omega) 0 h0
  simpa only [cell_zero, Nat.zero_add, List.range_eq_range'] using this

theorem xor_rax : (step (i2 .xor rax rax) s).reg .rax = 0 ∧ (step (i2 .xor rax rax) s).mem = s.mem ∧
    (step (i2 .xor rax rax) s).sym = s.sym ∧ ∀ r, r ≠ .rax → (step (i2 .xor rax rax) s).reg r = s.reg r := by
  rw [step_op2 _ _ _ _ rfl]
  refine ⟨?_, rfl, rfl, fun r hr => upd_ne _ _ hr⟩
  simp [Opd.set, Opd.get, Op2.eval, upd]

theorem rawZero_run (n : Nat) (hn : 8 * n ≤ 2 ^ 64) :
    ∃ s', run env ra (rawZero n) s = some s' ∧ RawPost n keepAx s s' (List.replicate n 0) := by
  refine ⟨_, by rw [rawZero, run_code, run_ret, steps_append], ?_⟩
  obtain ⟨h1, h2, h3, h4⟩ := xor_rax s
  have e : steps [i2 .xor rax rax] s = step (i2 .xor rax rax) s := rfl
  rw [e]
  have hdi := h4 .rdi (by decide)
  have hsp := h4 .rsp (by decide)
  have := copy_post _ rfl (zeroLoop_run0 (step (i2 .xor rax rax) s) n hn h1) trivial
  rw [zeroSrc_lims] at this
  refine ⟨by rw [← hdi]; exact this.out, ?_, ?_, ?_⟩
  · intro a ha; rw [this.frame a (by rwa [hdi]), h2]
  · intro r hr; rw [this.regs r ⟨trivial, hr.2⟩, h4 r hr.1]
  · rw [this.rsp, hsp]

/-! ## Comparisons -/

/-- The comparisons change only `rax` and the stack pointer. -/
structure CmpPost (s s' : State) (b : Bool) : Prop where
  rax : s'.reg .rax = if b then 1 else 0
  mem : s'.mem = s.mem
  regs : ∀ r, r ≠ .rax → r ≠ .rsp → s'.reg r = s.reg r
  rsp : s'.reg .rsp = s.reg .rsp + 8

/-- The two ends of the comparisons. -/
def cmpEnd : List Line := code [i2 .mov rax (.imm 1)] ++ [.ret, .label "ret0"] ++ code [i2 .xor rax rax] ++ [.ret]

theorem cmpEnd_run (s1 : State) (b : Bool) (h : Agree notRax s s1) :
    ∃ s', run env ra (if b then cmpEnd else dropTo "ret0" cmpEnd) s1 = some s' ∧ CmpPost s s' b := by
  cases b with
  | true =>
    refine ⟨_, by rw [if_pos rfl, cmpEnd, List.append_assoc, List.append_assoc, run_code, List.cons_append, run_ret], ?_⟩
    refine ⟨?_, ?_, ?_, ?_⟩
    · simp [steps, step_mov, Opd.set, Opd.get, upd]
    · simp [steps, step_mov, Opd.set, Opd.get, h.mem]
    · intro r h1 h2
      simp [steps, step_mov, Opd.set, Opd.get, upd, h1, h2, h.regs r h1]
    · simp [steps, step_mov, Opd.set, Opd.get, upd, h.regs .rsp (by simp [notRax])]
  | false =>
    have e : dropTo "ret0" cmpEnd = code [i2 .xor rax rax] ++ [.ret] := rfl
    refine ⟨_, by rw [if_neg (by simp), e, run_code, run_ret], ?_⟩
    obtain ⟨h1, h2, h3, h4⟩ := xor_rax s1
    have e : steps [i2 .xor rax rax] s1 = step (i2 .xor rax rax) s1 := rfl
    rw [e]
    refine ⟨?_, ?_, ?_, ?_⟩
    · simpa [upd] using h1
    · rw [h2, h.mem]
    · intro r h1 h2
      simp only [upd_ne _ _ h2]; rw [h4 r h1, h.regs r h1]
    · simp only [upd_same]; rw [h4 _ (by decide), h.regs .rsp (by simp [notRax])]

theorem rd_cons (m : BitVec 64 → BitVec 64) (a : BitVec 64) (k n : Nat) :
    (Src.arr a).lims m k (n + 1) = m (cell a k) :: (Src.arr a).lims m (k + 1) n := lims_cons _ _ _ _

theorem dropTo_flat (l : String) (f : Nat → List Line) (hf : ∀ i p, dropTo l (f i ++ p) = dropTo l p) (p : List Line) :
    ∀ is : List Nat, dropTo l (is.flatMap f ++ p) = dropTo l p
  | [] => rfl
  | i :: is => by rw [List.flatMap_cons, List.append_assoc, hf, dropTo_flat l f hf p is]

theorem eqScan_run (p : List Line) (m : Nat) : ∀ (k : Nat) (s : State), ∃ s', Agree notRax s s' ∧
    run env ra (((List.range' k m).flatMap fun i =>
      [.ins (i2 .mov rax (.mem .rsi (8 * i))), .ins (i2 .cmp (.mem .rdi (8 * i)) rax), .jump .nzero "ret0"]) ++ p) s
      = run env ra (if (Src.arr (s.reg .rdi)).lims s.mem k m = (Src.arr (s.reg .rsi)).lims s.mem k m then p
          else dropTo "ret0" p) s' := by
  induction m with
  | zero => intro k s; exact ⟨s, ⟨rfl, rfl, fun _ _ => rfl⟩, by simp [Src.lims]⟩
  | succ m ih =>
    intro k s
    rw [List.range'_succ, List.flatMap_cons, List.append_assoc, List.cons_append, run_ins, List.cons_append, run_ins,
      List.cons_append, run_jump, List.nil_append]
    rw [dropTo_flat _ _ (fun _ _ => by simp [dropTo])]
    generalize hs1 : step (i2 .cmp (.mem .rdi (8 * k)) rax) (step (i2 .mov rax (.mem .rsi (8 * k))) s) = s1
    have hA : Agree notRax s s1 := by
      subst hs1
      exact ⟨rfl, rfl, fun r hr => upd_ne _ _ hr⟩
    have hzf : s1.fl.zf = decide (s.mem (cell (s.reg .rdi) k) = s.mem (cell (s.reg .rsi) k)) := by
      subst hs1
      show decide (s.mem (cell (s.reg .rdi) k) - s.mem (cell (s.reg .rsi) k) = 0) = _
      simp only [sub_eq_zero_iff]
    rw [Cond.holds, hzf, rd_cons, rd_cons]
    by_cases h : s.mem (cell (s.reg .rdi) k) = s.mem (cell (s.reg .rsi) k)
    · obtain ⟨s', hA', hr⟩ := ih (k + 1) s1
      refine ⟨s', hA.trans hA', ?_⟩
      simp only [h, decide_true, Bool.not_true, Bool.false_eq_true, if_false, List.cons.injEq, true_and]
      rw [hr, hA.mem, hA.regs .rdi (by simp [notRax]), hA.regs .rsi (by simp [notRax])]
    · exact ⟨s1, hA, by simp [h]⟩

theorem rawIsEq_iff_eq {a b : Limbs} (hl : a.length = b.length) : FF.rawIsEq a b = decide (a = b) := by
  rw [Bool.eq_iff_iff, FF.rawIsEq, mpn_cmp_eq a b hl]
  simp only [beq_iff_eq, compare_eq_iff_eq, decide_eq_true_eq]
  exact ⟨val_inj hl, fun h => by rw [h]⟩

theorem rawIsEq_run (n : Nat) : ∃ s', run env ra (rawIsEq n) s = some s' ∧
    CmpPost s s' (FF.rawIsEq (rd s.mem (s.reg .rdi) n) (rd s.mem (s.reg .rsi) n)) := by
  obtain ⟨s1, hA, hr⟩ := eqScan_run env ra cmpEnd n 0 s
  obtain ⟨s', h1, h2⟩ := cmpEnd_run env ra s s1 (FF.rawIsEq (rd s.mem (s.reg .rdi) n) (rd s.mem (s.reg .rsi) n)) hA
  refine ⟨s', ?_, h2⟩
  rw [← h1]
  have e : rawIsEq n = ((List.range' 0 n).flatMap fun i =>
      [.ins (i2 .mov rax (.mem .rsi (8 * i))), .ins (i2 .cmp (.mem .rdi (8 * i)) rax), .jump .nzero "ret0"]) ++ cmpEnd := by
    rw [rawIsEq, cmpEnd, List.range_eq_range']; simp only [List.append_assoc]
  rw [e, hr, rawIsEq_iff_eq (by rw [rd_length, rd_length])]
  simp only [decide_eq_true_eq]
  rfl

/-- Scans an array for a limb that is not zero; `o` is the operand for zero. -/
theorem zeroScan_run (l : String) (b : Reg) (o : Opd) (p : List Line) (m : Nat) : ∀ (k : Nat) (s : State), o.get s = 0 →
    (∀ t : State, Agree (fun _ => True) s t → o.get t = 0) →
    ∃ s', Agree (fun _ => True) s s' ∧
    run env ra (((List.range' k m).flatMap fun i =>
      [.ins (i2 .cmp (.mem b (8 * i)) o), .jump .nzero l]) ++ p) s
      = run env ra (if (Src.arr (s.reg b)).lims s.mem k m = List.replicate m 0 then p else dropTo l p) s' := by
  induction m with
  | zero => intro k s _ _; exact ⟨s, ⟨rfl, rfl, fun _ _ => rfl⟩, by simp [Src.lims]⟩
  | succ m ih =>
    intro k s ho hall
    rw [List.range'_succ, List.flatMap_cons, List.append_assoc, List.cons_append, run_ins, List.cons_append, run_jump,
      List.nil_append]
    rw [dropTo_flat _ _ (fun _ _ => by simp [dropTo])]
    generalize hs1 : step (i2 .cmp (.mem b (8 * k)) o) s = s1
    have hA : Agree (fun _ => True) s s1 := by
      subst hs1
      exact ⟨rfl, rfl, fun r hr => rfl⟩
    have hzf : s1.fl.zf = decide (s.mem (cell (s.reg b) k) = 0) := by
      subst hs1
      show decide (s.mem (cell (s.reg b) k) - o.get s = 0) = _
      simp only [sub_eq_zero_iff, ho]
    rw [Cond.holds, hzf, rd_cons, List.replicate_succ]
    by_cases h : s.mem (cell (s.reg b) k) = 0
    · obtain ⟨s', hA', hr⟩ := ih (k + 1) s1 (hall _ hA) (fun t ht => hall t (hA.trans ht))
      refine ⟨s', hA.trans hA', ?_⟩
      simp only [h, decide_true, Bool.not_true, Bool.false_eq_true, if_false, List.cons.injEq, true_and]
      rw [hr, hA.mem, hA.regs b trivial]
    · exact ⟨s1, hA, by simp only [h, decide_false, Bool.not_false, if_true, List.cons.injEq, false_and, if_false]⟩

theorem rawIsZero_run (n : Nat) : ∃ s', run env ra (rawIsZero n) s = some s' ∧
    CmpPost s s' (FF.rawIsZero (rd s.mem (s.reg .rdi) n)) := by
  obtain ⟨s1, hA, hr⟩ := zeroScan_run env ra "ret0" .rdi (.imm 0) cmpEnd n 0 s rfl (fun _ _ => rfl)
  obtain ⟨s', h1, h2⟩ := cmpEnd_run env ra s s1 (FF.rawIsZero (rd s.mem (s.reg .rdi) n))
    ⟨hA.mem, hA.sym, fun r _ => hA.regs r trivial⟩
  refine ⟨s', ?_, h2⟩
  rw [← h1]
  have e : rawIsZero n = ((List.range' 0 n).flatMap fun i =>
      [.ins (i2 .cmp (.mem .rdi (8 * i)) (.imm 0)), .jump .nzero "ret0"]) ++ cmpEnd := by
    rw [rawIsZero, cmpEnd, List.range_eq_range']; simp only [List.append_assoc]
  rw [e, hr]
  have hz : ((Src.arr (s.reg .rdi)).lims s.mem 0 n = List.replicate n 0) ↔ FF.rawIsZero (rd s.mem (s.reg .rdi) n) = true := by
    rw [FF.rawIsZero, mpn_zero_p, List.all_eq_true, List.eq_replicate_iff, ← rd_eq_lims]
    simp [rd_length]
  simp only [hz]

end

/-! ## Negation -/

theorem loopN_iter (x : Opd) (ox : Src) (y : Opd) (oy : Src) (s₀ : State) (i : Nat)
    (hx : ∀ t : State, (∀ r, notRax r → t.reg r = s₀.reg r) → t.sym = s₀.sym → x.get t = ox.at t.mem i)
    (hy : ∀ t : State, (∀ r, notRax r → t.reg r = s₀.reg r) → t.sym = s₀.sym → y.get t = oy.at t.mem i) :
    Iter subF ox oy (s₀.reg .rdi) none notRax s₀.reg s₀.sym
      [i2 .mov rax x, i2 (if i = 0 then .sub else .sbb) rax y, i2 .mov (.mem .rdi (8 * i)) rax] i (decide (i = 0)) := by
  intro s hr hs
  obtain ⟨e1, e2, e3⟩ := arith_sub.sel i (ox.at s.mem i) (oy.at s.mem i) s.fl
  have hdi : s.reg .rdi = s₀.reg .rdi := hr _ (by simp [notRax])
  have hy' := hy (Opd.set rax (x.get s) s) (fun r h => by
    simp only [Opd.set]; rw [upd_ne _ _ h, hr r h]) hs
  have hm : (Opd.set rax (x.get s) s).mem = s.mem := rfl
  rw [hm] at hy'
  simp only [steps, List.foldl_cons, List.foldl_nil]
  rw [step_mov, step_op2 _ _ _ _ e3, step_mov, hy', hx s hr hs]
  simp only [Opd.get, Opd.set, upd_same, addr_eq, upd_ne _ _ (show Reg.rdi ≠ Reg.rax by decide), hdi]
  refine ⟨by rw [e1], e2, fun r hr => ?_, trivial, by simp⟩
  rw [upd_ne _ _ hr, upd_ne _ _ hr]

section
variable (env : String → Option (State → Option State)) (ra : BitVec 64) {q : Nat} (s : State)

theorem run_code_ret (l : List (Ins Opd)) (p : List Line) :
    run env ra (code l ++ .ret :: p) s
      = some { steps l s with reg := upd (steps l s).reg .rsp ((steps l s).reg .rsp + 8) } := by
  rw [run_code, run_ret]

theorem rawNegL_run (hn : 8 * n64 q ≤ 2 ^ 64) (hQ : QLabel q s) (hs : Sep (s.sym .q) (s.reg .rdi) (n64 q))
    (ha : Alias (s.reg .rsi) (s.reg .rdi) (n64 q)) :
    ∃ s', run env ra (rawNegL (n64 q)) s = some s' ∧ RawPost (n64 q) keepAx s s'
      (rawNeg q (rd s.mem (s.reg .rsi) (n64 q))) := by
  set n := n64 q with hq
  obtain ⟨h1, h2, h3, h4⟩ := xor_rax s
  generalize hx : step (i2 .xor rax rax) s = sx at h1 h2 h3 h4
  have e : rawNegL n = .ins (i2 .xor rax rax) :: (((List.range' 0 n).flatMap fun i =>
      [.ins (i2 .cmp (.mem .rsi (8 * i)) rax), .jump .nzero "doNegate"]) ++
      (code ((List.range n).flatMap fun i => [i2 .mov (.mem .rdi (8 * i)) rax]) ++ (.ret :: .label "doNegate" ::
      (code ((List.range n).flatMap fun i =>
        [i2 .mov rax (.sym .q (8 * i)), i2 (if i = 0 then .sub else .sbb) rax (.mem .rsi (8 * i)),
          i2 .mov (.mem .rdi (8 * i)) rax]) ++ .ret :: [])))) := by
    simp [rawNegL, code, List.range_eq_range']
  rw [e, run_ins, hx]
  obtain ⟨s1, hA, hr⟩ := zeroScan_run env ra "doNegate" .rsi rax _ n 0 sx h1
    (fun t ht => by rw [Opd.get, ht.regs _ trivial, h1])
  rw [hr]
  have hdi1 : s1.reg .rdi = s.reg .rdi := by rw [hA.regs _ trivial, h4 _ (by decide)]
  have hsi1 : s1.reg .rsi = s.reg .rsi := by rw [hA.regs _ trivial, h4 _ (by decide)]
  have hm1 : s1.mem = s.mem := by rw [hA.mem, h2]
  have hsy1 : s1.sym = s.sym := by rw [hA.sym, h3]
  have hr1 : ∀ r, r ≠ .rax → s1.reg r = s.reg r := fun r hr => by rw [hA.regs _ trivial, h4 _ hr]
  have hcond : ((Src.arr (sx.reg .rsi)).lims sx.mem 0 n = List.replicate n 0)
      ↔ ¬ ((mpn_cmp (rd s.mem (s.reg .rsi) n) (FF.rawZero q) != .eq) = true) := by
    rw [mpn_cmp_eq _ _ (by rw [rd_length, FF.rawZero, List.length_replicate])]
    simp only [bne_iff_ne, ne_eq, not_not, compare_eq_iff_eq]
    rw [h2, h4 .rsi (by decide), ← rd_eq_lims]
    constructor
    · intro h; rw [h, FF.rawZero]
    · intro h; exact val_inj (by simp [rd_length]) h
  rw [rawNeg]
  by_cases hz : (mpn_cmp (rd s.mem (s.reg .rsi) n) (FF.rawZero q) != .eq) = true
  · rw [if_neg (by rw [hcond]; exact fun h => h hz), if_pos hz, dropTo_code]
    simp only [dropTo, if_true]
    have L := loop_run (F := subF) (x := .arr (s1.sym .q)) (y := .arr (s1.reg .rsi)) (d := s1.reg .rdi)
      (fst := fun i => decide (i = 0)) n 0 (by omega)
      (fun i _ _ => loopN_iter (.sym .q (8 * i)) (.arr (s1.sym .q)) (.mem .rsi (8 * i)) (.arr (s1.reg .rsi)) s1 i
        (fun t hr hs => by simp only [Opd.get, hs]; rfl)
        (fun t hr hs => by simp only [Opd.get, hr .rsi (by simp [notRax])]; rfl))
      (fun i hi => by simp; omega) (Alias.ok hn (.inr (by rw [hsy1, hdi1]; exact hs)) 0 n (by omega))
      (Alias.ok hn (by rw [hsi1, hdi1]; exact ha) 0 n (by omega)) s1
      (fun _ _ => rfl) rfl (fun h => absurd h (by have := n64_pos q; omega))
    simp only [decide_true, if_true] at L
    rw [List.range_eq_range']
    refine ⟨_, by rw [run_code_ret], ?_, ?_, ?_, ?_⟩
    · rw [rd_eq_lims, ← hdi1]
      have := L.out
      rw [(pass_subF _ _ _ (by rw [lims_length, lims_length])).1, hsi1, hm1, hsy1] at this
      refine this.trans ?_
      rw [mpn_sub_n, ← hQ]; rfl
    · intro a ha
      rw [← hm1]
      exact L.frame a (fun i _ h => by rw [hdi1]; exact ha i (by omega))
    · intro r hr; simp only [upd_ne _ _ hr.2]; rw [L.regs r hr.1, hr1 r hr.1]
    · simp only [upd_same]; rw [L.regs _ (by simp [notRax]), hr1 _ (by decide)]
  · rw [if_pos (hcond.mpr hz), if_neg hz, run_code_ret]
    refine ⟨_, rfl, ?_⟩
    have P := copy_post s1 rfl (zeroLoop_run0 s1 n hn (by rw [hA.regs _ trivial, h1])) trivial
    rw [zeroSrc_lims] at P
    refine ⟨by rw [← hdi1]; exact P.out, ?_, ?_, ?_⟩
    · intro a ha; rw [P.frame a (by rwa [hdi1]), hm1]
    · intro r hr; rw [P.regs r ⟨trivial, hr.2⟩, hr1 r hr.1]
    · rw [P.rsp, hr1 _ (by decide)]

end

end FF.X86
