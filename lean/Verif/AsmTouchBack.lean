import Verif.AsmTouchCall

/-!
# What the Montgomery routines return with

The header pushes registers, the footer pops them; in between only the stack slots and the result are written.  For every limb count.
-/

namespace FF.X86

section
variable {env : String → Option (State → Option State)} {ra : BitVec 64}

theorem pushes_mem (l : List Reg) (p : List Line) : ∀ s : State, Reg.rsp ∉ l → 8 * l.length < 2 ^ 64 →
    ∃ s' : State, run env ra (l.map .push ++ p) s = run env ra p s' ∧ (∀ r, r ≠ .rsp → s'.reg r = s.reg r) ∧ s'.sym = s.sym ∧
      s'.reg .rsp = stk (s.reg .rsp) l.length ∧ (∀ a, ¬ InStk (s.reg .rsp) l.length a → s'.mem a = s.mem a) ∧
      ∀ j (hj : j < l.length), s'.mem (stk (s.reg .rsp) (j + 1)) = s.reg l[j] := by
  induction l with
  | nil => intro s _ _; exact ⟨s, rfl, fun _ _ => rfl, rfl, by simp [stk], fun _ _ => rfl, fun j hj => absurd hj (Nat.not_lt_zero j)⟩
  | cons r l ih =>
    intro s hl hn
    rw [List.length_cons] at hn
    have hsp : ((Line.push r).exec s).reg .rsp = stk (s.reg .rsp) 1 := by simp [Line.exec, pushVal, upd, stk]
    have hrg : ∀ x, x ≠ .rsp → ((Line.push r).exec s).reg x = s.reg x := fun x hx => by simp [Line.exec, pushVal, upd, hx]
    have hmm : ((Line.push r).exec s).mem = upd s.mem (stk (s.reg .rsp) 1) (s.reg r) := rfl
    obtain ⟨s', h1, h2, h3, h4, h5, h6⟩ := ih ((Line.push r).exec s) (fun h => hl (List.mem_cons_of_mem _ h)) (by omega)
    rw [hsp] at h4 h5 h6
    refine ⟨s', ?_, fun x hx => (h2 x hx).trans (hrg x hx), h3.trans rfl, ?_, fun a ha => ?_, fun j hj => ?_⟩
    · rw [List.map_cons, List.cons_append, run_plain rfl, h1]
    · rw [h4, stk_stk, List.length_cons, Nat.add_comm]
    · rw [List.length_cons] at ha
      rw [h5 a fun h => ha (h.deep (by omega)), hmm, upd_ne _ _ fun e => ha ⟨0, by omega, e⟩]
    · cases j with
      | zero =>
        rw [h5, hmm, Nat.zero_add, upd_same]; rfl
        rintro ⟨j, hj', e⟩
        rw [stk_stk] at e
        have := stk_inj (by omega) (by omega) e
        omega
      | succ j =>
        have hj' : j < l.length := by rw [List.length_cons] at hj; omega
        have := h6 j hj'
        rw [stk_stk, Nat.add_comm 1, hrg _ fun e => hl (List.mem_cons_of_mem _ (e ▸ List.getElem_mem hj'))] at this
        exact this

theorem pops_mem (l : List Reg) : ∀ {s t : State}, Reg.rsp ∉ l → l.Nodup → run env ra (l.map .pop ++ [.ret]) s = some t →
    t.mem = s.mem ∧ (∀ r, r ≠ .rsp → r ∉ l → t.reg r = s.reg r) ∧ ∀ j (hj : j < l.length), t.reg l[j] = s.mem (cell (s.reg .rsp) j) := by
  induction l with
  | nil =>
    intro s t _ _ h
    rw [List.map_nil, List.nil_append, run] at h
    cases h
    exact ⟨rfl, fun r hr _ => by simp [upd, hr], fun j hj => absurd hj (Nat.not_lt_zero j)⟩
  | cons r l ih =>
    intro s t hl hd h
    rw [List.map_cons, List.cons_append, run_plain rfl] at h
    have hr : Reg.rsp ≠ r := fun e => hl (e ▸ List.mem_cons_self)
    have hsp : ((Line.pop r).exec s).reg .rsp = cell (s.reg .rsp) 1 := by simp [Line.exec, popReg, upd, hr, cell]
    obtain ⟨h1, h2, h3⟩ := ih (fun h' => hl (List.mem_cons_of_mem _ h')) (List.nodup_cons.1 hd).2 h
    refine ⟨h1, fun x hx hm => ?_, fun j hj => ?_⟩
    · rw [List.mem_cons, not_or] at hm
      rw [h2 x hx hm.2]
      simp [Line.exec, popReg, upd, hx, hm.1]
    · cases j with
      | zero =>
        show t.reg r = _
        rw [h2 r hr.symm (List.nodup_cons.1 hd).1]
        simp [Line.exec, popReg, upd, cell]
      | succ j =>
        have hj' : j < l.length := by rw [List.length_cons] at hj; omega
        have := h3 j hj'
        rw [hsp, cell_add, Nat.add_comm 1] at this
        exact this

end

/-! ## Registers a listing never names as a destination -/

/-- The registers a line may change. -/
def Line.dests : Line → List Reg
  | .ins (.op2 _ (.reg r) _) => [r]
  | .ins (.op2 _ _ _) => []
  | .ins (.mulx hi lo _) => (match hi with | .reg r => [r] | _ => []) ++ (match lo with | .reg r => [r] | _ => [])
  | .push _ => [.rsp]
  | .pop r => [r, .rsp]
  | .lea r _ => [r]
  | .label _ | .jump _ _ | .ret => []
  | .misc m => (match (Line.misc m).scratch, m with
    | some l, _ => l
    | none, .movR11b _ => [.r11]
    | none, .shlR11d _ => [.r11]
    | none, .storeHi => []
    | none, _ => [.rax, .rbx, .rcx, .rdx, .rdi, .rsi, .rsp, .rbp, .r8, .r9, .r10, .r11, .r12, .r13, .r14, .r15])
  | _ => [.rax, .rbx, .rcx, .rdx, .rdi, .rsi, .rsp, .rbp, .r8, .r9, .r10, .r11, .r12, .r13, .r14, .r15]

theorem Opd.set_reg {o : Opd} {v : BitVec 64} {s : State} {r : Reg} (h : o ≠ .reg r) : (o.set v s).reg r = s.reg r := by
  cases o with
  | reg x => exact upd_ne _ _ fun e => h (by rw [e])
  | _ => rfl

theorem Line.dests_exec {i : Line} {r : Reg} (h : r ∉ i.dests) (s : State) : (i.exec s).reg r = s.reg r := by
  have hall : ∀ r : Reg, r ∈ [Reg.rax, .rbx, .rcx, .rdx, .rdi, .rsi, .rsp, .rbp, .r8, .r9, .r10, .r11, .r12, .r13, .r14, .r15] := by
    intro r; cases r <;> decide
  cases i with
  | ins i =>
    cases i with
    | op2 o d b =>
      simp only [Line.exec, step, Ins.exec]
      split
      · rw [Opd.set_reg]
        rintro rfl
        exact h (by simp [Line.dests])
      · rfl
    | mulx hi lo src =>
      simp only [Line.exec, step, Ins.exec]
      rw [Opd.set_reg, Opd.set_reg]
      · rintro rfl; exact h (by simp [Line.dests])
      · rintro rfl; exact h (by simp [Line.dests])
  | push x =>
    have hr : r ≠ .rsp := by rintro rfl; exact h (by simp [Line.dests])
    simp [Line.exec, pushVal, upd, hr]
  | pop x =>
    have : r ≠ x := by rintro rfl; exact h (by simp [Line.dests])
    have hr : r ≠ .rsp := by rintro rfl; exact h (by simp [Line.dests])
    simp [Line.exec, popReg, upd, hr, this]
  | lea x y => exact upd_ne _ _ (by rintro rfl; exact h (by simp [Line.dests]))
  | misc m =>
    cases hm : (Line.misc m).scratch with
    | none =>
      cases m with
      | movR11b v => exact upd_ne _ _ (by rintro rfl; exact h (by simp [Line.dests, hm]))
      | shlR11d v => exact upd_ne _ _ (by rintro rfl; exact h (by simp [Line.dests, hm]))
      | storeHi => rfl
      | repMovsq => exact absurd (hall r) h
      | mul64 x => exact absurd (hall r) h
      | cld => rfl
      | _ => simp [Line.scratch] at hm
    | some l => simp only [Line.dests, hm] at h; exact (scratch_exec hm s).2.1 r h
  | label l => rfl
  | jump c l => rfl
  | ret => rfl
  | _ => exact absurd (hall r) h

theorem run_dests {ra : BitVec 64} {r : Reg} (hr : r ≠ .rsp) (p : List Line) : ∀ {s t : State}, (∀ i ∈ p, r ∉ i.dests) →
    run noCalls ra p s = some t → t.reg r = s.reg r := by
  induction hn : p.length using Nat.strong_induction_on generalizing p with
  | _ N ih =>
    intro s t hp ht
    match p with
    | [] => rw [run] at ht; cases ht
    | i :: p =>
      have hp' : ∀ i ∈ p, r ∉ i.dests := fun j hj => hp j (List.mem_cons_of_mem _ hj)
      rcases plain_cases i with hpl | ⟨l, rfl⟩ | ⟨c, l, rfl⟩ | ⟨f, rfl⟩ | rfl
      · rw [run_plain hpl] at ht
        rw [ih p.length (by subst hn; simp) p rfl hp' ht, Line.dests_exec (hp i List.mem_cons_self)]
      · rw [run] at ht; exact ih p.length (by subst hn; simp) p rfl hp' ht
      · rw [run] at ht
        split at ht
        · exact ih (dropTo l p).length (by subst hn; have := dropTo_length l p; simp only [List.length_cons]; omega) _ rfl
            (fun j hj => hp' j (dropTo_mem l hj)) ht
        · exact ih p.length (by subst hn; simp) p rfl hp' ht
      · rw [run] at ht; simp [noCalls] at ht
      · rw [run] at ht; cases ht; simp [upd, hr]

theorem run_dests_rsp {ra : BitVec 64} (p : List Line) : ∀ {s t : State}, (∀ i ∈ p, Reg.rsp ∉ i.dests) →
    run noCalls ra p s = some t → t.reg .rsp = s.reg .rsp + 8 := by
  induction hn : p.length using Nat.strong_induction_on generalizing p with
  | _ N ih =>
    intro s t hp ht
    match p with
    | [] => rw [run] at ht; cases ht
    | i :: p =>
      have hp' : ∀ i ∈ p, Reg.rsp ∉ i.dests := fun j hj => hp j (List.mem_cons_of_mem _ hj)
      rcases plain_cases i with hpl | ⟨l, rfl⟩ | ⟨c, l, rfl⟩ | ⟨f, rfl⟩ | rfl
      · rw [run_plain hpl] at ht
        rw [ih p.length (by subst hn; simp) p rfl hp' ht, Line.dests_exec (hp i List.mem_cons_self)]
      · rw [run] at ht; exact ih p.length (by subst hn; simp) p rfl hp' ht
      · rw [run] at ht
        split at ht
        · exact ih (dropTo l p).length (by subst hn; have := dropTo_length l p; simp only [List.length_cons]; omega) _ rfl
            (fun j hj => hp' j (dropTo_mem l hj)) ht
        · exact ih p.length (by subst hn; simp) p rfl hp' ht
      · rw [run] at ht; simp [noCalls] at ht
      · rw [run] at ht; cases ht; simp [upd]

/-! ## The whole routine -/

/-- Callee-saved registers that are not pushed are not used. -/
def keepsRest (n : Nat) (opt : Bool) (upper : Nat → List (Ins Arg)) : Bool :=
  match template n opt upper with
  | none => true
  | some p => Props.calleeSaved.all fun r => (pushedRegs (needed n opt)).contains r || p.all fun i => !i.dests.contains r

theorem pushed_all {need : Nat} (h : 11 < need) : ∀ r ∈ Props.calleeSaved, r ∈ pushedRegs need := by
  unfold pushedRegs; dsimp only; rw [if_pos h]; decide

theorem back_template {ra : BitVec 64} {n : Nat} {opt : Bool} {upper : Nat → List (Ins Arg)} {p : List Line}
    (ht : template n opt upper = some p) (hk : needed n opt ≤ 11 → keepsRest n opt upper = true) {s t : State}
    (hu : ∀ s' : State, ∀ W : BitVec 64 → Prop, ∀ i ∈ rounds upper n opt, i.argsOk (needed n opt) s' (fun _ => True) W)
    (h8 : 8 * frameCells n opt < 2 ^ 64) (hd : ∀ a, InArr (s.reg .rdi) n a → ¬ InStk (s.reg .rsp) (frameCells n opt) a)
    (hr : run noCalls ra p s = some t) :
    (∀ r ∈ Props.calleeSaved, t.reg r = s.reg r) ∧
      ∀ a, ¬ InArr (s.reg .rdi) n a → ¬ InStk (s.reg .rsp) (frameCells n opt) a → t.mem a = s.mem a := by
  have hr0 := hr
  have ht0 := ht
  obtain ⟨B, rfl, hret, hB⟩ := template_parts ht
  have hF : frameCells n opt = (pushedRegs (needed n opt)).length + (needed n opt - nUsed (needed n opt)) := Nat.add_comm _ _
  have hlen : ((pushedRegs (needed n opt)).reverse).length = (pushedRegs (needed n opt)).length := List.length_reverse
  obtain ⟨s1, e1, h1, h2, h3, h4, h5⟩ := pushes_mem (env := noCalls) (ra := ra) (pushedRegs (needed n opt)).reverse
    ((if nUsed (needed n opt) < needed n opt then
        [.ins (.op2 .sub (.reg .rsp) (.imm (BitVec.ofNat 64 (8 * (needed n opt - nUsed (needed n opt))))))] else []) ++
      (.ins (.op2 .mov (.reg .rcx) (.reg .rdx)) :: (B ++ montTail (needed n opt)))) s (by rw [List.mem_reverse]; exact pushed_free _)
    (by rw [hlen]; omega)
  rw [e1] at hr
  obtain ⟨s2, e2, g1, g2, g3⟩ : ∃ s2 : State, run noCalls ra ((if nUsed (needed n opt) < needed n opt then
        [.ins (.op2 .sub (.reg .rsp) (.imm (BitVec.ofNat 64 (8 * (needed n opt - nUsed (needed n opt))))))] else []) ++
      (.ins (.op2 .mov (.reg .rcx) (.reg .rdx)) :: (B ++ montTail (needed n opt)))) s1 =
      run noCalls ra (.ins (.op2 .mov (.reg .rcx) (.reg .rdx)) :: (B ++ montTail (needed n opt))) s2 ∧ (∀ r, r ≠ .rsp → s2.reg r = s1.reg r) ∧
      s2.mem = s1.mem ∧ s2.reg .rsp = stk (s1.reg .rsp) (needed n opt - nUsed (needed n opt)) := by
    have := nUsed_le (needed n opt)
    split
    · refine ⟨(Line.ins (.op2 .sub (.reg .rsp) (.imm (BitVec.ofNat 64 (8 * (needed n opt - nUsed (needed n opt))))))).exec s1,
          by rw [List.singleton_append, run_plain rfl], fun r hr => ?_, rfl, ?_⟩
      · simp [Line.exec, step, Ins.exec, Op2.writes, Opd.set, upd, hr]
      · simp [Line.exec, step, Ins.exec, Op2.writes, Opd.set, Opd.get, Op2.eval, upd, stk]
    · exact ⟨s1, rfl, fun _ _ => rfl, rfl, by rw [show needed n opt - nUsed (needed n opt) = 0 by omega, stk_zero]⟩
  rw [e2, run_plain rfl] at hr
  have hrsp : s2.reg .rsp = stk (s.reg .rsp) (frameCells n opt) := by rw [g3, h3, stk_stk, hlen, hF]
  have hreg : ∀ r, r ≠ .rsp → s2.reg r = s.reg r := fun r hr => (g1 r hr).trans (h1 r hr)
  obtain ⟨k1, k2, k3⟩ := movRcx_regs s2
  have k4 : ((Line.ins (.op2 .mov (.reg .rcx) (.reg .rdx))).exec s2).mem = s2.mem := rfl
  generalize (Line.ins (.op2 .mov (.reg .rcx) (.reg .rdx))).exec s2 = s3 at *
  obtain ⟨s4, b1, b0, b2⟩ := run_body_mem (env := noCalls) (ra := ra) (K := montK) (s := s3) (R := fun _ => True)
    (W := fun a => InArr (s.reg .rdi) n a ∨ ∃ j, (pushedRegs (needed n opt)).length ≤ j ∧ j < frameCells n opt ∧ a = stk (s.reg .rsp) (j + 1)) _ (montTail_drop _) B
    (hB s3 _ _ (fun i hi1 hi2 => ⟨trivial, .inr ⟨frameCells n opt - (i - nUsed (needed n opt)) - 1, by omega, by omega, by
      have e := stk_cell (s.reg .rsp) (frameCells n opt) (i - nUsed (needed n opt)) (by omega)
      rw [k1 _ (by decide), hrsp, show frameCells n opt - (i - nUsed (needed n opt)) - 1 + 1 = frameCells n opt - (i - nUsed (needed n opt)) by omega]
      exact e⟩⟩) (fun _ _ => trivial) trivial (fun i hi => .inl ⟨i, hi, by rw [k1 _ (by decide), hreg _ (by decide)]; rfl⟩) (hu s3 _)) (Bases.refl _ _) hr
  rcases b2 with b2 | b2
  · obtain ⟨s5, e5, c1, c2, c3⟩ : ∃ s5 : State, run noCalls ra (montTail (needed n opt)) s4 = run noCalls ra ((pushedRegs (needed n opt)).map .pop ++ [.ret]) s5 ∧
        (∀ r, r ≠ .rsp → s5.reg r = s4.reg r) ∧ s5.mem = s4.mem ∧ s5.reg .rsp = cell (s4.reg .rsp) (needed n opt - nUsed (needed n opt)) := by
      have := nUsed_le (needed n opt)
      rw [montTail]
      split
      · refine ⟨(Line.ins (.op2 .add (.reg .rsp) (.imm (BitVec.ofNat 64 (8 * (needed n opt - nUsed (needed n opt))))))).exec s4,
          by rw [List.singleton_append, run_plain rfl], fun r hr => ?_, rfl, ?_⟩
        · simp [Line.exec, step, Ins.exec, Op2.writes, Opd.set, upd, hr]
        · simp [Line.exec, step, Ins.exec, Op2.writes, Opd.set, Opd.get, Op2.eval, upd, cell]
      · exact ⟨s4, rfl, fun _ _ => rfl, rfl, by rw [show needed n opt - nUsed (needed n opt) = 0 by omega]; simp [cell]⟩
    rw [e5] at b2
    obtain ⟨d1, d2, d3⟩ := pops_mem (env := noCalls) (ra := ra) (pushedRegs (needed n opt)) (pushed_free _) (pushed_nodup _) b2
    have hsp5 : s5.reg .rsp = stk (s.reg .rsp) (pushedRegs (needed n opt)).length := by
      rw [c3, b1.1 _ (by decide), k1 _ (by decide), hrsp, stk_cell _ _ _ (by omega), hF]; congr 1; omega
    have hrest : ∀ r ∈ pushedRegs (needed n opt), t.reg r = s.reg r := by
      intro r hr
      obtain ⟨j, hj, rfl⟩ := List.mem_iff_getElem.1 hr
      rw [d3 j hj, hsp5, stk_cell _ _ _ (by omega), c2, b0, k4, g2]
      · have := h5 ((pushedRegs (needed n opt)).length - j - 1) (by rw [hlen]; omega)
        rw [show (pushedRegs (needed n opt)).length - j - 1 + 1 = (pushedRegs (needed n opt)).length - j by omega] at this
        rw [this, List.getElem_reverse]
        congr 2; omega
      · rintro (h | ⟨i, hi1, hi2, e⟩)
        · exact hd _ h ⟨(pushedRegs (needed n opt)).length - j - 1, by omega, by congr 1; omega⟩
        · have := stk_inj (by omega) (by omega) e
          omega
    refine ⟨fun r hr => ?_, fun a ha ha' => ?_⟩
    · by_cases hp : r ∈ pushedRegs (needed n opt)
      · exact hrest r hp
      · have h11 : needed n opt ≤ 11 := by
          by_contra h
          exact hp (pushed_all (by omega) r hr)
        have := hk h11
        rw [keepsRest, ht0] at this
        simp only [List.all_eq_true, Bool.or_eq_true, List.contains_iff_mem] at this
        have := (this r hr).resolve_left hp
        refine run_dests (by rintro rfl; exact absurd hr (by decide)) _ (fun i hi h' => ?_) hr0
        have := this i hi
        simp [h'] at this
    · rw [d1, c2, b0 a (by
        rintro (h | ⟨i, _, hi2, e⟩)
        · exact ha h
        · exact ha' ⟨i, hi2, e⟩), k4, g2, h4 a fun h => ha' (h.mono (by rw [hlen]; omega))]
  · exact absurd b2.1 hret

theorem small_needed {n : Nat} {opt : Bool} (h : needed n opt ≤ 11) : n < 7 := by unfold needed at h; omega

theorem keepsMul : ∀ {n : Nat} {opt : Bool}, needed n opt ≤ 11 → keepsRest n opt (upperMul n opt) = true := by
  intro n opt h
  have : ∀ n < 7, ∀ opt : Bool, keepsRest n opt (upperMul n opt) = true := by decide +kernel
  exact this n (small_needed h) opt
theorem keepsMul1 : ∀ {n : Nat} {opt : Bool}, needed n opt ≤ 11 → keepsRest n opt (upperMul1 n opt) = true := by
  intro n opt h
  have : ∀ n < 7, ∀ opt : Bool, keepsRest n opt (upperMul1 n opt) = true := by decide +kernel
  exact this n (small_needed h) opt
theorem keepsSquare : ∀ {n : Nat} {opt : Bool}, needed n opt ≤ 11 → keepsRest n opt (upperSquare n opt) = true := by
  intro n opt h
  have : ∀ n < 7, ∀ opt : Bool, keepsRest n opt (upperSquare n opt) = true := by decide +kernel
  exact this n (small_needed h) opt
theorem keepsFrom : ∀ {n : Nat} {opt : Bool}, needed n opt ≤ 11 → keepsRest n opt (upperFrom n opt) = true := by
  intro n opt h
  have : ∀ n < 7, ∀ opt : Bool, keepsRest n opt (upperFrom n opt) = true := by decide +kernel
  exact this n (small_needed h) opt

/-! ## In the form of the other raw routines -/

/-- The accesses of a Montgomery routine; none if it is not printed. -/
def accTemplate (ra : BitVec 64) (p : Option (List Line)) (s : State) : List Access :=
  match p with
  | none => []
  | some p => touched noCalls noAcc ra p s

theorem safe_template {q : Nat} {ra : BitVec 64} {opt : Bool} {sg : Sig} {upper : Nat → List (Ins Arg)} (hsg : sg.dst = some .limbs)
    (hk : needed (n64 q) opt ≤ 11 → keepsRest (n64 q) opt upper = true)
    (hw : ∀ s' : State, ∀ W : BitVec 64 → Prop, ∀ i ∈ rounds upper (n64 q) opt, i.argsOk (needed (n64 q) opt) s' (fun _ => True) W)
    (hu : ∀ s s' : State, s'.reg .rsi = s.reg .rsi → s'.reg .rcx = s.reg .rdx →
      (∀ i < n64 q, sg.Rd q (frameCells (n64 q) opt) s (s'.sym .q + BitVec.ofNat 64 (8 * i))) →
      ∀ i ∈ rounds upper (n64 q) opt, i.argsOk (needed (n64 q) opt) s' (sg.Rd q (frameCells (n64 q) opt) s) (sg.Wr q (frameCells (n64 q) opt) s)) :
    Safe q (frameCells (n64 q) opt) sg (accTemplate ra (template (n64 q) opt upper))
      (fun s => ((template (n64 q) opt upper).map (run noCalls ra)).bind (· s)) := by
  cases ht : template (n64 q) opt upper with
  | none => intro s _ _; exact ⟨Only.nil, fun t h => by simp at h⟩
  | some p =>
    intro s h8 hd
    have hdd : ∀ a, InArr (s.reg .rdi) (n64 q) a → sg.InDst q s a := fun a ha => ⟨.limbs, hsg, ha⟩
    have hdi : ∀ a, sg.InDst q s a → InArr (s.reg .rdi) (n64 q) a := by
      rintro a ⟨e, he, ha⟩
      rw [hsg] at he; cases he; exact ha
    refine ⟨?_, fun t h => ?_⟩
    · refine touched_template ht s (fun j hj => ?_) (fun j hj => .inr ⟨j, hj, rfl⟩) (fun i hi => .inr (.inr (.inl (.inl ⟨i, hi, rfl⟩))))
        (.inr (.inr (.inl (.inr (.inr (.inr (.inr (.inr rfl))))))))  (fun i hi => .inl (hdd _ ⟨i, hi, rfl⟩)) (hu s)
      cases j with
      | zero => exact .inr (.inr (.inr (.inr (stk_zero _))))
      | succ j => exact .inr (.inr (.inr (.inl ⟨j, hj, rfl⟩)))
    · replace h : run noCalls ra p s = some t := h
      obtain ⟨r1, r2, _, r4⟩ := run_template ht (fun s' => hw s' _) h
      obtain ⟨b1, b2⟩ := back_template ht hk hw h8 (fun a ha => hd a (hdd a ha)) h
      exact ⟨r1, b1, fun _ => r2, r4, fun a ha => b2 a (fun h => ha (.inl (hdd a h))) fun h => ha (.inr h)⟩

section
variable {q : Nat} {ra : BitVec 64} {opt : Bool}

theorem safe_rawMMul (hn : 0 < n64 q) : Safe q (frameCells (n64 q) opt) sigLL (accTemplate ra (template (n64 q) opt (upperMul (n64 q) opt)))
    (fun s => ((template (n64 q) opt (upperMul (n64 q) opt)).map (run noCalls ra)).bind (· s)) :=
  safe_template rfl keepsMul (fun s' W => rounds_ok hn (fun _ _ => trivial) (upperMul_ok hn (fun _ _ => trivial) fun _ _ => trivial))
    fun s s' h1 h2 h3 => rounds_ok hn h3 (upperMul_ok hn (fun i hi => by rw [h1]; exact .inl ⟨(.rsi, .limbs), by simp [sigLL], i, hi, rfl⟩)
      (fun i hi => by rw [h2]; exact .inl ⟨(.rdx, .limbs), by simp [sigLL], i, hi, rfl⟩))

theorem safe_rawMMul1 (hn : 0 < n64 q) : Safe q (frameCells (n64 q) opt) sigLS (accTemplate ra (template (n64 q) opt (upperMul1 (n64 q) opt)))
    (fun s => ((template (n64 q) opt (upperMul1 (n64 q) opt)).map (run noCalls ra)).bind (· s)) :=
  safe_template rfl keepsMul1 (fun s' W => rounds_ok hn (fun _ _ => trivial) (upperMul1_ok hn (fun _ _ => trivial)))
    fun s s' h1 h2 h3 => rounds_ok hn h3 (upperMul1_ok hn (fun i hi => by rw [h1]; exact .inl ⟨(.rsi, .limbs), by simp [sigLS], i, hi, rfl⟩))

theorem safe_rawMSquare (hn : 0 < n64 q) : Safe q (frameCells (n64 q) opt) sigLS (accTemplate ra (template (n64 q) opt (upperSquare (n64 q) opt)))
    (fun s => ((template (n64 q) opt (upperSquare (n64 q) opt)).map (run noCalls ra)).bind (· s)) :=
  safe_template rfl keepsSquare (fun s' W => rounds_ok hn (fun _ _ => trivial) (upperSquare_ok hn (fun _ _ => trivial)))
    fun s s' h1 h2 h3 => rounds_ok hn h3 (upperSquare_ok hn (fun i hi => by rw [h1]; exact .inl ⟨(.rsi, .limbs), by simp [sigLS], i, hi, rfl⟩))

theorem safe_rawFrom (hn : 0 < n64 q) : Safe q (frameCells (n64 q) opt) sigLS (accTemplate ra (template (n64 q) opt (upperFrom (n64 q) opt)))
    (fun s => ((template (n64 q) opt (upperFrom (n64 q) opt)).map (run noCalls ra)).bind (· s)) :=
  safe_template rfl keepsFrom (fun s' W => rounds_ok hn (fun _ _ => trivial) (upperFrom_ok (fun _ _ => trivial)))
    fun s s' h1 h2 h3 => rounds_ok hn h3 (upperFrom_ok (fun i hi => by rw [h1]; exact .inl ⟨(.rsi, .limbs), by simp [sigLS], i, hi, rfl⟩))

end

/-! ## The shifts -/

/-- A line that changes no register a caller relies on, and is not `mulx`. -/
def Line.tame (i : Line) : Bool :=
  rawK.all (fun r => !i.dests.contains r) && (match i with | .ins (.mulx _ _ _) => false | _ => true)

theorem safe_tame {q : Nat} {ra : BitVec 64} {sg : Sig} {p : List Line} (hp : ∀ i ∈ p, i.tame = true)
    (ha : ∀ s : State, Only (sg.Rd q 0 s) (sg.Wr q 0 s) (touched noCalls noAcc ra p s)) :
    Safe q 0 sg (touched noCalls noAcc ra p) (run noCalls ra p) := by
  have hd : ∀ r ∈ rawK, ∀ i ∈ p, r ∉ i.dests := by
    intro r hr i hi h
    have := hp i hi
    simp only [Line.tame, Bool.and_eq_true, List.all_eq_true] at this
    have := this.1 r hr
    simp [h] at this
  have hw : ∀ i ∈ p, i.wf := by
    intro i hi
    have := hp i hi
    simp only [Line.tame, Bool.and_eq_true] at this
    cases i with
    | ins i => cases i with
      | op2 o d b => trivial
      | mulx a b c => exact absurd this.2 Bool.false_ne_true
    | _ => trivial
  intro s _ _
  refine ⟨ha s, fun t ht => ⟨run_dests_rsp p (hd _ (by decide)) ht, fun r hr => ?_, fun _ => ?_, run_sym_noCalls ht, fun a h => ?_⟩⟩
  · exact run_dests (by rintro rfl; exact absurd hr (by decide)) p (hd r (List.mem_cons_of_mem _ (List.mem_cons_of_mem _ hr))) ht
  · exact run_dests (by decide) p (hd .rdi (by decide)) ht
  · exact run_off p hw a ht fun h' => h (ha s _ h')

theorem all_down {g : Nat → List Line} {P : Line → Prop} : ∀ {n : Nat}, (∀ i < n, ∀ x ∈ g i, P x) → ∀ x ∈ down g n, P x
  | 0, _ => by simp [down]
  | n + 1, h => by
    rw [down]
    intro x hx
    rcases List.mem_append.1 hx with hx | hx
    · exact h n (by omega) x hx
    · exact all_down (fun i hi => h i (by omega)) x hx

theorem all_downs {g : Nat → List Line} {P : Line → Prop} {n : Nat} (h : ∀ i, ∀ x ∈ g i, P x) : ∀ x ∈ down g n, P x :=
  all_down fun i _ => h i

theorem all_flats {g : Nat → List Line} {P : Line → Prop} {n : Nat} (h : ∀ i, ∀ x ∈ g i, P x) : ∀ x ∈ (List.range n).flatMap g, P x := by
  intro x hx
  obtain ⟨i, -, hi⟩ := List.mem_flatMap.1 hx
  exact h i x hi

theorem tame_last (n i : Nat) : ∀ x ∈ maskLast n i, x.tame = true := by
  unfold maskLast
  split
  · intro x hx; rw [List.mem_singleton.1 hx]; rfl
  · simp

local macro "tames" : tactic => `(tactic| (
  simp only [List.append_assoc, List.forall_mem_append, List.forall_mem_cons, List.cons_append, List.nil_append]
  repeat' apply And.intro
  all_goals first | rfl | exact tame_last _ _ | exact List.forall_mem_nil _ | skip))

theorem tame_copyZero (n : Nat) : ∀ x ∈ copyZero n, x.tame = true := by
  unfold copyZero X86.rawCopy X86.rawZero
  simp only [List.forall_mem_append, all_code, List.forall_mem_cons]
  refine ⟨rfl, ⟨?_, rfl, List.forall_mem_nil _⟩, rfl, ⟨⟨rfl, List.forall_mem_nil _⟩, ?_⟩, rfl, List.forall_mem_nil _⟩
  · intro x hx; obtain ⟨i, -, hi⟩ := List.mem_flatMap.1 hx; simp at hi; rcases hi with rfl | rfl <;> rfl
  · intro x hx; obtain ⟨i, -, hi⟩ := List.mem_flatMap.1 hx; simp at hi; subst hi; rfl

theorem tame_subQ (n : Nat) : ∀ x ∈ subQIfBigger n 0, x.tame = true := by
  unfold subQIfBigger
  tames
  · exact all_downs fun i => by tames
  · refine all_flats fun i => ?_
    tames

theorem tame_rawShr (bl n : Nat) : ∀ x ∈ rawShrCode bl n, x.tame = true := by
  unfold rawShrCode shiftHead shrMasks
  tames
  · exact all_flats fun i => by unfold shrRound; tames
  · exact all_flats fun i => by unfold shrWords; tames
  · exact tame_copyZero n

theorem tame_rawShl (bl n : Nat) : ∀ x ∈ rawShlCode bl n, x.tame = true := by
  unfold rawShlCode shiftHead shlMasks shlBase
  tames
  · exact all_downs fun i => by unfold shlRound; tames
  · exact tame_subQ n
  · exact all_downs fun i => by unfold shlWords; tames
  · exact tame_subQ n
  · exact tame_copyZero n

section
variable {q : Nat} {ra : BitVec 64}

theorem bitLen_le (q : Nat) : bitLen q ≤ 64 * n64 q := by
  unfold n64; omega

theorem safe_rawShr (hn : 8 * n64 q ≤ 2 ^ 57) :
    Safe q 0 sigLS (touched noCalls noAcc ra (rawShrCode (bitLen q) (n64 q))) (run noCalls ra (rawShrCode (bitLen q) (n64 q))) :=
  safe_tame (tame_rawShr _ _) fun s =>
    rawShr_touch (bitLen_le q) hn (.inr (.inr (.inr (.inr rfl))))
      (fun i hi => .inl ⟨(.rsi, .limbs), by simp [sigLS], i, hi, rfl⟩)
      (fun i hi => .inl ⟨.limbs, rfl, i, hi, rfl⟩)

theorem safe_rawShl (hn : 8 * n64 q ≤ 2 ^ 57) :
    Safe q 0 sigLS (touched noCalls noAcc ra (rawShlCode (bitLen q) (n64 q))) (run noCalls ra (rawShlCode (bitLen q) (n64 q))) :=
  safe_tame (tame_rawShl _ _) fun s =>
    rawShl_touch (bitLen_le q) hn (.inr (.inr (.inr (.inr rfl))))
      (fun i hi => .inl ⟨(.rsi, .limbs), by simp [sigLS], i, hi, rfl⟩)
      (.inr (.inr (.inl (.inr (.inr (.inr (.inr (.inl rfl))))))))
      (fun i hi => .inr (.inr (.inl (.inl ⟨i, hi, rfl⟩))))
      (fun i hi => ⟨.inr (.inl ⟨.limbs, rfl, i, hi, rfl⟩), .inl ⟨.limbs, rfl, i, hi, rfl⟩⟩)

end

end FF.X86
