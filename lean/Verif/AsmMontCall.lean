import Verif.AsmMontRun

/-!
# Header and footer of a Montgomery routine, and the routine as its caller sees it
-/

namespace FF.X86

variable (env : String → Option (State → Option State)) (ra : BitVec 64)

theorem run_push (r : Reg) (p : List Line) (s : State) : run env ra (.push r :: p) s = run env ra p (pushVal (s.reg r) s) := by
  rw [run] <;> first | rfl | simp

theorem run_pop (r : Reg) (p : List Line) (s : State) : run env ra (.pop r :: p) s = run env ra p (popReg r s) := by
  rw [run] <;> first | rfl | simp

/-- The registers `M` have been pushed, the last one first. -/
structure Pushed (M : List Reg) (s s' : State) : Prop where
  rsp : s.reg .rsp = cell (s'.reg .rsp) M.length
  saved : ∀ j (hj : j < M.length), s'.mem (cell (s'.reg .rsp) j) = s.reg M[j]
  frame : ∀ a, (∀ j < M.length, a ≠ cell (s'.reg .rsp) j) → s'.mem a = s.mem a
  regs : ∀ r, r ≠ .rsp → s'.reg r = s.reg r
  sym : s'.sym = s.sym

theorem cell_sub (a : BitVec 64) (i : Nat) : cell (a - 8) (i + 1) = cell a i := by
  unfold cell
  rw [show 8 * (i + 1) = 8 + 8 * i by omega, BitVec.ofNat_add, ← BitVec.add_assoc]
  congr 1
  exact BitVec.sub_add_cancel a 8

theorem run_pushes (M : List Reg) : .rsp ∉ M → 8 * M.length < 2 ^ 64 → ∀ s : State,
    ∃ s', (∀ p, run env ra (M.reverse.map .push ++ p) s = run env ra p s') ∧ Pushed M s s' := by
  induction M with
  | nil =>
    intro _ _ s
    exact ⟨s, fun _ => rfl, by simp [cell_zero], fun j hj => by simp at hj, fun _ _ => rfl, fun _ _ => rfl, rfl⟩
  | cons m M ih =>
    intro hM hl s
    simp only [List.mem_cons, not_or] at hM
    simp only [List.length_cons] at hl
    obtain ⟨s1, e, P⟩ := ih hM.2 (by omega) s
    refine ⟨pushVal (s1.reg m) s1, fun p => ?_, ?_⟩
    · rw [List.reverse_cons, List.map_append, List.append_assoc]
      exact (e _).trans (run_push env ra m p s1)
    · have hr : (pushVal (s1.reg m) s1).reg .rsp = s1.reg .rsp - 8 := by simp [pushVal, upd_apply]
      have h0 : cell (s1.reg .rsp - 8) 0 = s1.reg .rsp - 8 := cell_zero _
      refine ⟨?_, fun j hj => ?_, fun a ha => ?_, fun r hr' => ?_, P.sym⟩
      · rw [hr, List.length_cons, cell_sub, P.rsp]
      · rw [hr]
        cases j with
        | zero =>
          simp only [pushVal, upd_apply, h0, if_true, List.getElem_cons_zero]
          exact P.regs m (fun h => hM.1 h.symm)
        | succ j =>
          simp only [List.length_cons] at hj
          simp only [pushVal, upd_apply, List.getElem_cons_succ]
          rw [if_neg, cell_sub]
          · exact P.saved j (by omega)
          · intro hc
            have := cell_inj (i := j + 1) (j := 0) (by omega) (by omega) (hc.trans h0.symm)
            omega
      · rw [hr] at ha
        have h1 := ha 0 (by simp)
        rw [h0] at h1
        simp only [pushVal, upd_apply, if_neg h1]
        refine P.frame a (fun j hj => ?_)
        rw [← cell_sub]
        exact ha (j + 1) (by simp only [List.length_cons]; omega)
      · simp only [pushVal, upd_apply, if_neg hr']
        exact P.regs r hr'

/-- The registers `M` have been popped, the first one first. -/
structure Popped (M : List Reg) (s s' : State) : Prop where
  rsp : s'.reg .rsp = cell (s.reg .rsp) M.length
  got : ∀ j (hj : j < M.length), s'.reg M[j] = s.mem (cell (s.reg .rsp) j)
  regs : ∀ r, r ∉ M → r ≠ .rsp → s'.reg r = s.reg r
  mem : s'.mem = s.mem
  sym : s'.sym = s.sym

theorem run_pops (M : List Reg) : .rsp ∉ M → M.Nodup → ∀ s : State,
    ∃ s', (∀ p, run env ra (M.map .pop ++ p) s = run env ra p s') ∧ Popped M s s' := by
  induction M with
  | nil =>
    intro _ _ s
    exact ⟨s, fun _ => rfl, by simp [cell_zero], fun j hj => by simp at hj, fun _ _ _ => rfl, rfl, rfl⟩
  | cons m M ih =>
    intro hM hnd s
    simp only [List.mem_cons, not_or] at hM
    rw [List.nodup_cons] at hnd
    obtain ⟨s', e, P⟩ := ih hM.2 hnd.2 (popReg m s)
    have hr : (popReg m s).reg .rsp = cell (s.reg .rsp) 1 := by
      simp only [popReg, upd_apply, if_neg hM.1, if_true]; rfl
    refine ⟨s', fun p => (run_pop env ra m _ s).trans (e p), ?_, fun j hj => ?_, fun r hr1 hr2 => ?_, P.mem, P.sym⟩
    · rw [P.rsp, hr, cell_add, List.length_cons, Nat.add_comm]
    · cases j with
      | zero =>
        rw [List.getElem_cons_zero, P.regs m hnd.1 (fun h => hM.1 h.symm), cell_zero]
        simp [popReg, upd_apply]
      | succ j =>
        simp only [List.length_cons] at hj
        rw [List.getElem_cons_succ, P.got j (by omega), hr, cell_add, Nat.add_comm]
        rfl
    · simp only [List.mem_cons, not_or] at hr1
      rw [P.regs r hr1.2 hr2]
      simp [popReg, upd_apply, hr1.1, hr2]

/-! ## The pushed registers -/

theorem pushed_sub (need : Nat) : (pushedRegs need).Sublist [.r12, .r13, .r14, .r15, .rbp, .rbx] := by
  unfold pushedRegs
  dsimp only
  split
  · exact List.Sublist.refl _
  · exact List.take_sublist _ _

theorem pushed_nodup (need : Nat) : (pushedRegs need).Nodup := (pushed_sub need).nodup (by decide)
theorem pushed_rsp (need : Nat) : .rsp ∉ pushedRegs need := fun h => absurd ((pushed_sub need).subset h) (by decide)
theorem pushed_len (need : Nat) : (pushedRegs need).length ≤ 6 := (pushed_sub need).length_le

/-- A callee-saved register the code may write has been pushed. -/
theorem alloc_pushed {g : Cfg} {n : Nat} {opt : Bool} (h : Shape g n opt) {r : Reg}
    (hr : r ∈ [Reg.r12, .r13, .r14, .r15, .rbp, .rbx]) (ha : g.Alloc r) : r ∈ pushedRegs g.need := by
  by_cases hs : 11 < g.need
  · simpa [pushedRegs, hs] using hr
  · have hN : g.N = g.need := by rw [h.used, nUsed, if_neg hs]
    have h6 : 5 < g.need := by have := h.need; have := h.pos; omega
    rcases ha with rfl | rfl | ⟨k, hk, hk', rfl⟩ | ⟨hlt, _⟩
    · simp at hr
    · simp at hr
    · generalize g.need = need at *
      clear h hN hk
      have : need ≤ 11 := by omega
      interval_cases need <;> interval_cases k <;> first | decide | (revert hr; decide)
    · omega

/-! ## The caller's view -/

/-- Number of stack cells a routine uses below the stack pointer. -/
def frameCells (n : Nat) (opt : Bool) : Nat :=
  needed n opt - nUsed (needed n opt) + (pushedRegs (needed n opt)).length

/-- The address is not among the `F` cells below the stack pointer. -/
def StackFree (F : Nat) (s : State) (a : BitVec 64) : Prop := ∀ k < F, a ≠ s.reg .rsp - BitVec.ofNat 64 (8 * (k + 1))

/-- The state after the header. -/
structure Hdr (F : Nat) (s s1 : State) : Prop where
  regs : ∀ r, r ≠ .rsp → s1.reg r = s.reg r
  mem : ∀ a, StackFree F s a → s1.mem a = s.mem a
  sym : s1.sym = s.sym

/-- What the caller sees. -/
structure CallPost (n F q : Nat) (P : ℤ) (s s' : State) : Prop where
  out : ∃ R K : ℤ, sumW (fun k => (s'.mem (cell (s.reg .rdi) k)).toNat) n = R ∧ R < q ∧ (W : ℤ) ^ n * R = P + q * K
  frame : ∀ a, StackFree F s a → (∀ k < n, a ≠ cell (s.reg .rdi) k) → s'.mem a = s.mem a
  saved : ∀ r ∈ [Reg.r12, .r13, .r14, .r15, .rbp, .rbx], s'.reg r = s.reg r
  rdi : s'.reg .rdi = s.reg .rdi
  rsi : s'.reg .rsi = s.reg .rsi
  rsp : s'.reg .rsp = s.reg .rsp + 8
  sym : s'.sym = s.sym

theorem cell_below {a : BitVec 64} {k F : Nat} (h : k ≤ F) : cell a k = cell a F - BitVec.ofNat 64 (8 * (F - k)) := by
  have : cell a k + BitVec.ofNat 64 (8 * (F - k)) = cell a F := by
    have := cell_add a k (F - k)
    rwa [Nat.add_sub_cancel' h] at this
  rw [← this, BitVec.add_sub_cancel]

theorem call_run {n : Nat} {opt : Bool} (hn0 : 0 < n) (hn : 8 * (n + 8) ≤ 2 ^ 64) {s : State} {q : Nat}
    (hq : ∀ j < n, StackFree (frameCells n opt) s (cell (s.sym .q) j)) (hnpo : StackFree (frameCells n opt) s (s.sym .np))
    (hd : ∀ j < n, StackFree (frameCells n opt) s (cell (s.reg .rdi) j))
    (hnp : s.mem (s.sym .np) = np q) (hQ : sumW (fun k => (s.mem (cell (s.sym .q) k)).toNat) n = q)
    {upper : Nat → List (Ins Arg)} {P : ℤ} (hP0 : 0 ≤ P) (hP : P < q * (W : ℤ) ^ n)
    (hup : ∀ (g : Cfg) (s1 : State), Shape g n opt → Hdr (frameCells n opt) s s1 →
      (∀ a, StackFree (frameCells n opt) s a → g.Off a) → (∀ j < n, HwOk g (entry s1) (.sym .q (8 * j))) →
      SimC g (entry s1) q (rounds upper n opt) ∧
      ∀ st, Ctx (entry s1) q st → Total n opt q (entry s1) P (vsteps (rounds upper n opt) st)) :
    ∃ p s', template n opt upper = some p ∧ run env ra p s = some s' ∧ CallPost n (frameCells n opt) q P s s' := by
  set need := needed n opt with hneed
  set N := nUsed need with hN
  set M := pushedRegs need with hM
  have hF : frameCells n opt = need - N + M.length := rfl
  have hlen : M.length ≤ 6 := pushed_len need
  have hneed' : need = 4 + n + 1 + ext opt := rfl
  have hext : ext opt ≤ 1 := by cases opt <;> simp [ext]
  have hN6 : 6 ≤ N := by rw [hN, nUsed]; split <;> omega
  have hNle : N ≤ need := by rw [hN, nUsed]; split <;> omega
  -- the header
  set sub : List Line :=
    if N < need then [.ins (.op2 .sub (.reg .rsp) (.imm (BitVec.ofNat 64 (8 * (need - N)))))] else [] with hsub
  set add : List Line :=
    if N < need then [.ins (.op2 .add (.reg .rsp) (.imm (BitVec.ofNat 64 (8 * (need - N)))))] else [] with hadd
  obtain ⟨sp, ep, Pp⟩ := run_pushes env ra M (pushed_rsp need) (by omega) s
  obtain ⟨s1, es1, hs1, hm1, hr1, hy1⟩ : ∃ s1, (∀ p, run env ra (sub ++ p) sp = run env ra p s1) ∧
      sp.reg .rsp = cell (s1.reg .rsp) (need - N) ∧ s1.mem = sp.mem ∧ (∀ r, r ≠ .rsp → s1.reg r = sp.reg r) ∧
      s1.sym = sp.sym := by
    by_cases hlt : N < need
    · refine ⟨step (.op2 .sub (.reg .rsp) (.imm (BitVec.ofNat 64 (8 * (need - N))))) sp, fun p => ?_, ?_, rfl,
        fun r hr => ?_, rfl⟩
      · rw [hsub, if_pos hlt]
        exact run_ins env ra _ p sp
      · simp only [step, Ins.exec, Op2.eval, Op2.writes, Opd.set, Opd.get, if_true, upd_apply, cell]
        rw [BitVec.sub_add_cancel]
      · simp [step, Ins.exec, Op2.eval, Op2.writes, Opd.set, Opd.get, upd_apply, hr]
    · refine ⟨sp, fun p => by rw [hsub, if_neg hlt]; rfl, ?_, rfl, fun _ _ => rfl, rfl⟩
      rw [show need - N = 0 by omega, cell_zero]
  have hrsp : s.reg .rsp = cell (s1.reg .rsp) (frameCells n opt) := by rw [Pp.rsp, hs1, cell_add]; rfl
  set F := frameCells n opt with hFdef
  -- cells below the stack pointer
  have hbelow : ∀ a, StackFree F s a → ∀ k < F, a ≠ cell (s1.reg .rsp) k := by
    intro a ha k hk
    rw [cell_below (show k ≤ F by omega), ← hrsp]
    have := ha (F - k - 1) (by omega)
    rwa [show F - k - 1 + 1 = F - k by omega] at this
  let g : Cfg := ⟨N, need, s1.reg .rsp, s1.reg⟩
  have hoff : ∀ a, StackFree F s a → g.Off a := fun a ha k hk => hbelow a ha k (by simp only [g] at hk; omega)
  have hmem1 : ∀ a, StackFree F s a → s1.mem a = s.mem a := by
    intro a ha
    rw [hm1]
    refine Pp.frame a (fun j hj => ?_)
    rw [hs1, cell_add]
    exact hbelow a ha _ (by omega)
  have hreg1 : ∀ r, r ≠ .rsp → s1.reg r = s.reg r := fun r hr => (hr1 r hr).trans (Pp.regs r hr)
  have hsym1 : s1.sym = s.sym := hy1.trans Pp.sym
  have hsh : Shape g n opt := by
    refine ⟨⟨?_, fun hlt => ?_, ?_, ?_⟩, hn0, hneed', rfl⟩
    · show N ≤ 11
      rw [hN, nUsed]; split <;> omega
    · change N < need at hlt
      show N = 10
      rw [hN, nUsed] at hlt ⊢
      split at hlt
      · rw [if_pos (by assumption)]
      · omega
    · show 8 * (need - N) ≤ 2 ^ 64
      omega
    · show 4 ≤ N
      rw [hN, nUsed]; split <;> omega
  obtain ⟨hsim, hval⟩ := hup g s1 hsh ⟨hreg1, hmem1, hsym1⟩ hoff (fun j hj => by
    show g.Off (s1.sym .q + _)
    rw [hsym1]
    exact hoff _ (hq j hj))
  have hdi : s1.reg .rdi = s.reg .rdi := hreg1 _ (by decide)
  obtain ⟨B, hB, hrunB⟩ := body_run (g := g) hsh (by omega) (s := s1) (q := q) rfl rfl
    (fun j hj => by rw [hsym1]; exact hoff _ (hq j hj)) (by rw [hsym1]; exact hoff _ hnpo)
    (fun j hj => by rw [hdi]; exact hoff _ (hd j hj)) (by rw [hsym1, hmem1 _ hnpo]; exact hnp)
    (by rw [← hQ]; exact sumW_congr (fun k hk => by rw [hsym1, hmem1 _ (hq k hk)])) hP0 hP hsim hval rfl env ra
  change template n opt upper = some (M.reverse.map .push ++ sub ++ B ++ add ++ M.map .pop ++ [.ret]) at hB
  obtain ⟨s2, e2, bp⟩ := hrunB (add ++ (M.map .pop ++ [.ret]))
  have hnal : ∀ r, r = .rsp ∨ r = .rdi ∨ r = .rsi → ¬ g.Alloc r := by
    rintro r hr (rfl | rfl | ⟨k, _, _, rfl⟩ | ⟨_, rfl⟩)
    · simp at hr
    · simp at hr
    · have := regOf_ne k; tauto
    · simp at hr
  -- the footer
  obtain ⟨s3, es3, hs3, hm3, hr3, hy3⟩ : ∃ s3, (∀ p, run env ra (add ++ p) s2 = run env ra p s3) ∧
      s3.reg .rsp = cell (s2.reg .rsp) (need - N) ∧ s3.mem = s2.mem ∧ (∀ r, r ≠ .rsp → s3.reg r = s2.reg r) ∧
      s3.sym = s2.sym := by
    by_cases hlt : N < need
    · refine ⟨step (.op2 .add (.reg .rsp) (.imm (BitVec.ofNat 64 (8 * (need - N))))) s2, fun p => ?_, ?_, rfl,
        fun r hr => ?_, rfl⟩
      · rw [hadd, if_pos hlt]
        exact run_ins env ra _ p s2
      · simp only [step, Ins.exec, Op2.eval, Op2.writes, Opd.set, Opd.get, if_true, upd_apply, cell]
      · simp [step, Ins.exec, Op2.eval, Op2.writes, Opd.set, Opd.get, upd_apply, hr]
    · refine ⟨s2, fun p => by rw [hadd, if_neg hlt]; rfl, ?_, rfl, fun _ _ => rfl, rfl⟩
      rw [show need - N = 0 by omega, cell_zero]
  obtain ⟨s4, e4, P4⟩ := run_pops env ra M (pushed_rsp need) (pushed_nodup need) s3
  have hrsp2 : s2.reg .rsp = s1.reg .rsp := bp.keep _ (hnal _ (Or.inl rfl))
  have hrsp3 : s3.reg .rsp = sp.reg .rsp := by rw [hs3, hrsp2, hs1]
  have hmem4 : s4.mem = s2.mem := P4.mem.trans hm3
  have hkeep : ∀ r, r ∉ M → r ≠ .rsp → ¬ g.Alloc r → s4.reg r = s.reg r := by
    intro r h1 h2 h3
    rw [P4.regs r h1 h2, hr3 r h2, bp.keep r h3, hreg1 r h2]
  refine ⟨_, { s4 with reg := upd s4.reg .rsp (s4.reg .rsp + 8) }, hB, ?_, ?_, ?_, ?_, ?_, ?_, ?_, ?_⟩
  · simp only [List.append_assoc]
    rw [ep, es1, e2, es3, e4, run_ret]
  · obtain ⟨R, K, h1, h2⟩ := bp.out
    refine ⟨R, K, ?_, h2⟩
    rw [← h1]
    refine sumW_congr (fun k _ => ?_)
    show (s4.mem _).toNat = _
    rw [hmem4, hdi]
  · intro a ha hk
    show s4.mem a = s.mem a
    rw [hmem4, bp.frame a (hoff a ha) (by rw [hdi]; exact hk), hmem1 a ha]
  · intro r hr
    have hne : r ≠ .rsp := by rintro rfl; simp at hr
    show upd s4.reg .rsp (s4.reg .rsp + 8) r = s.reg r
    rw [upd_ne _ _ hne]
    by_cases hm : r ∈ M
    · obtain ⟨j, hj, rfl⟩ := List.getElem_of_mem hm
      rw [P4.got j hj, hm3, hrsp3]
      have hcell : cell (sp.reg .rsp) j = cell (s1.reg .rsp) (need - N + j) := by rw [hs1, cell_add]
      rw [bp.frame, hm1, Pp.saved j hj]
      · intro k hk hc
        rw [hcell] at hc
        have := cell_inj (by omega) (by simp only [g] at hk; omega) hc
        simp only [g] at hk
        omega
      · intro k hk hc
        rw [hcell, hdi] at hc
        exact hbelow _ (hd k hk) (need - N + j) (by omega) hc.symm
    · exact hkeep r hm hne (fun ha => hm (alloc_pushed hsh hr ha))
  · show upd s4.reg .rsp (s4.reg .rsp + 8) .rdi = _
    rw [upd_ne _ _ (by decide)]
    exact hkeep _ (fun h => absurd ((pushed_sub need).subset h) (by decide)) (by decide) (hnal _ (by simp))
  · show upd s4.reg .rsp (s4.reg .rsp + 8) .rsi = _
    rw [upd_ne _ _ (by decide)]
    exact hkeep _ (fun h => absurd ((pushed_sub need).subset h) (by decide)) (by decide) (hnal _ (by simp))
  · show upd s4.reg .rsp (s4.reg .rsp + 8) .rsp = _
    rw [upd_same, P4.rsp, hrsp3, ← Pp.rsp]
  · show s4.sym = s.sym
    rw [P4.sym, hy3, bp.sym, hsym1]

end FF.X86
