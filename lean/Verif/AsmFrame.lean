import Verif.AsmConv

/-!
# Routines with a stack frame
-/

namespace FF.X86

/-- Inside a routine entered in state `s`: the frame pointer, the saved frame pointer, what may have changed. -/
structure In (q F : Nat) (s t : State) : Prop where
  rbp : t.reg .rbp = stk (s.reg .rsp) 3
  old : t.mem (stk (s.reg .rsp) 1) = s.reg .rbp
  frame : ∀ a, ¬ InStk (s.reg .rsp) F a → ¬ InArr (s.reg .rdi) (n64 q + 1) a → t.mem a = s.mem a
  saved : ∀ r ∈ Props.calleeSaved, r ≠ .rbp → t.reg r = s.reg r
  sym : t.sym = s.sym

section frame

variable {q F F' k : Nat} {ra : BitVec 64} {s t : State} {env : String → Option (State → Option State)}

theorem TArgs.one (h : TArgs q F s) : 0 < F := by have := h.big; unfold callCells at this; omega

/-- `enter`. -/
theorem enter_run (h : TArgs q F s) (hF : 3 ≤ F) :
    ∃ t, (∀ p, run env ra (enter ++ p) s = run env ra p t) ∧ In q F s t ∧ t.reg .rsp = stk (s.reg .rsp) 3 ∧
      t.reg .rdi = s.reg .rdi ∧ t.reg .rsi = s.reg .rsi ∧ t.reg .rdx = s.reg .rdx ∧
      (∀ a, ¬ InStk (s.reg .rsp) F a → t.mem a = s.mem a) := by
  have e1 : ∀ k, k ≤ 3 → 8 * k < 2 ^ 64 := fun k hk => by have := h.small; omega
  have hm : (exes enter s).mem = upd (upd (upd s.mem (s.reg .rsp - 8) (s.reg .rbp)) (s.reg .rsp - 8 - 8) (s.reg .rsi))
      (s.reg .rsp - 8 - 8 - 8) (s.reg .rdx) := rfl
  rw [stk_one, stk_push, stk_push] at hm
  have hf : ∀ a, ¬ InStk (s.reg .rsp) F a → (exes enter s).mem a = s.mem a := by
    intro a ha
    rw [hm, upd_ne _ _ fun e => ha ⟨2, by omega, e⟩, upd_ne _ _ fun e => ha ⟨1, by omega, e⟩,
      upd_ne _ _ fun e => ha ⟨0, by omega, e⟩]
  have hsp : (exes enter s).reg .rsp = stk (s.reg .rsp) 3 := by
    show s.reg .rsp - 8 - 8 - 8 = _
    rw [stk_one (s.reg .rsp), stk_push, stk_push]
  refine ⟨exes enter s, fun p => run_exes _ rfl p s, ⟨hsp, ?_, fun a ha _ => hf a ha, ?_, rfl⟩, hsp, rfl, rfl, rfl, hf⟩
  · rw [hm, upd_ne _ _ fun e => ?_, upd_ne _ _ fun e => ?_, upd_same]
    · have := stk_inj (e1 _ (by decide)) (e1 _ (by decide)) e; omega
    · have := stk_inj (e1 _ (by decide)) (e1 _ (by decide)) e; omega
  · intro r hr hb
    simp [Props.calleeSaved, hb] at hr
    rcases hr with rfl | rfl | rfl | rfl | rfl <;> rfl

/-- `leave`. -/
theorem leave_run (hi : In q F s t) (hd : t.reg .rdi = s.reg .rdi) (p : List Line) :
    ∃ s', run env ra (leave ++ p) t = some s' ∧ TRet q F s s' (elemAt (n64 q) t.mem (s.reg .rdi)) := by
  obtain ⟨t1, ht1⟩ : ∃ t1, t1 = exes [op .mov rsp rbp, .pop .rdx, .pop .rsi, .pop .rbp] t := ⟨_, rfl⟩
  have hm : t1.mem = t.mem := by rw [ht1]; rfl
  have hsp : t1.reg .rsp = s.reg .rsp := by
    have : t1.reg .rsp = t.reg .rbp + 8 + 8 + 8 := by rw [ht1]; rfl
    rw [this, hi.rbp, stk_pop, stk_pop, show (1 : Nat) = 0 + 1 from rfl, stk_pop, stk_zero]
  have hbp : t1.reg .rbp = s.reg .rbp := by
    have : t1.reg .rbp = t.mem (t.reg .rbp + 8 + 8) := by rw [ht1]; rfl
    rw [this, hi.rbp, stk_pop, stk_pop, hi.old]
  have hs : ∀ r ∈ Props.calleeSaved, t1.reg r = s.reg r := by
    intro r hr
    by_cases hb : r = .rbp
    · rw [hb]; exact hbp
    · rw [← hi.saved r hr hb, ht1]
      simp [Props.calleeSaved, hb] at hr
      rcases hr with rfl | rfl | rfl | rfl | rfl <;> rfl
  have hdi : t1.reg .rdi = s.reg .rdi := by rw [← hd, ht1]; rfl
  obtain ⟨s', r1, r2⟩ := ret_of (env := env) (ra := ra) (q := q) (F := F) (s := s) (t := t1) (p := p)
    ⟨fun a ha hb => by rw [hm, hi.frame a ha hb], hs, hdi, hsp, by rw [← hi.sym, ht1]; rfl⟩ rfl
  refine ⟨s', ?_, by rw [← hm]; exact r2⟩
  show run env ra ([op .mov rsp rbp, .pop .rdx, .pop .rsi, .pop .rbp] ++ .ret :: p) t = _
  rw [run_exes _ rfl, ← ht1, r1]

theorem In.move {t' : State} (hi : In q F s t) (hm : Move t t') : In q F s t' :=
  ⟨by rw [hm.saved _ (by decide), hi.rbp], by rw [hm.mem, hi.old], by rw [hm.mem]; exact hi.frame,
    fun r hr hb => by rw [hm.saved r hr, hi.saved r hr hb], by rw [hm.sym, hi.sym]⟩

/-- Calls inside the frame. -/
theorem In.called {t' : State} {p : BitVec 64} {m : Nat} (h : TArgs q F s) (hi : In q F s t) (hk : t.reg .rsp = stk (s.reg .rsp) k)
    (h3 : 1 ≤ k) (hF : k + F' ≤ F) (hc : Called F' p m t t')
    (hp : ∀ a, InArr p m a → InArr (s.reg .rdi) (n64 q + 1) a ∨ ∃ j, 2 ≤ j ∧ j ≤ F ∧ a = stk (s.reg .rsp) j) : In q F s t' := by
  have hf := h.ok.fits
  refine ⟨by rw [hc.saved _ (by decide), hi.rbp], ?_, fun a ha hb => ?_, fun r hr hb => by rw [hc.saved r hr, hi.saved r hr hb],
    by rw [hc.sym, hi.sym]⟩
  · rw [hc.frame, hi.old]
    · rw [hk]
      rintro ⟨j, hj, e⟩
      rw [stk_stk] at e
      have := stk_inj (by omega) (by omega) e
      omega
    · intro h'
      rcases hp _ h' with h1 | ⟨j, h1, h2, e⟩
      · exact h.dst.off _ h1 ⟨0, h.one, rfl⟩
      · have := stk_inj (by omega) (by omega) e; omega
  · rw [hc.frame, hi.frame a ha hb]
    · rw [hk]
      exact fun h' => ha (h'.deep hF)
    · intro h'
      rcases hp _ h' with h1 | ⟨j, h1, h2, e⟩
      · exact hb h1
      · exact ha ⟨j - 1, by omega, by rw [e, Nat.sub_add_cancel (by omega)]⟩

theorem In.ok (h : TArgs q F s) (hi : In q F s t) (hk : t.reg .rsp = stk (s.reg .rsp) k) (hF : k + F' ≤ F) : Ok q F' t := by
  refine ⟨by have := h.ok.fits; omega, h.ok.data.congr hi.sym fun a ha => hi.frame a (h.ok.off a ha) fun h' => h.dst.data a h' ha,
    fun a ha h' => ?_⟩
  rw [hi.sym] at ha
  rw [hk] at h'
  exact h.ok.off a ha (h'.deep hF)

theorem In.off {p : BitVec 64} {m : Nat} (ho : Off F s p m) (hk : t.reg .rsp = stk (s.reg .rsp) k) (hF : k + F' ≤ F) : Off F' t p m := by
  intro a ha h'
  rw [hk] at h'
  exact ho a ha (h'.deep hF)

theorem In.args (h : TArgs q F s) (hi : In q F s t) (hk : t.reg .rsp = stk (s.reg .rsp) k) (hF : k + F' ≤ F)
    (hb : callCells q ≤ F') (hd : t.reg .rdi = s.reg .rdi) : TArgs q F' t :=
  ⟨hi.ok h hk hF, hb, by
    rw [hd]
    exact ⟨In.off h.dst.off hk hF, by rw [hi.sym]; exact h.dst.data⟩⟩

theorem In.opnd {p : BitVec 64} (ha : TOpnd q F s p) (hk : t.reg .rsp = stk (s.reg .rsp) k) (hF : k + F' ≤ F)
    (hd : t.reg .rdi = s.reg .rdi) : TOpnd q F' t p :=
  ⟨by rw [hd]; exact ha.ali, In.off ha.off hk hF⟩

/-- A call of a tagged routine inside the frame. -/
theorem In.tcalled {t' : State} (h : TArgs q F s) (hi : In q F s t) (hk : t.reg .rsp = stk (s.reg .rsp) k)
    (h3 : 1 ≤ k) (hF : k + F' ≤ F) (hd : t.reg .rdi = s.reg .rdi) (hc : Called F' (t.reg .rdi) (n64 q + 1) t t') : In q F s t' :=
  hi.called h hk h3 hF hc fun a ha => .inl (by rwa [hd] at ha)

/-! ## Converting an operand into a temporary on the stack -/

/-- A conversion routine: what it leaves for the caller, for the elements with `P`. -/
def ConvSpec (q F : Nat) (ra : BitVec 64) (env : String → Option (State → Option State)) (f : String)
    (R : Elem → Elem → Prop) (P : Elem → Prop := fun _ => True) : Prop :=
  ∀ t, TArgs q F t → TOpnd q F t (t.reg .rsi) → P (elemAt (n64 q) t.mem (t.reg .rsi)) → ∃ t', (∀ p, run env ra (.call f :: p) t = run env ra p t') ∧
    Called F (t.reg .rdi) (n64 q + 1) t t' ∧
    R (elemAt (n64 q) t.mem (t.reg .rsi)) (elemAt (n64 q) t'.mem (t.reg .rdi))

/-- The core of both macros: with the temporary reserved and two words pushed, the conversion is called. -/
theorem conv_core {f : String} {R : Elem → Elem → Prop} {P : Elem → Prop} (hf : ConvSpec q F' ra env f R P) (h : TArgs q F s) {p : BitVec 64}
    (hp : Off (F - k) t p (n64 q + 1)) (hi : In q F s t) (hk : t.reg .rsp = stk (s.reg .rsp) k) (h3 : 1 ≤ k)
    (hF : k + n64 q + 3 + F' ≤ F) (hb : callCells q ≤ F') {t1 : State} {v w : BitVec 64}
    (hm : t1.mem = upd (upd t.mem (stk (s.reg .rsp) (k + n64 q + 2)) v) (stk (s.reg .rsp) (k + n64 q + 3)) w)
    (hsp : t1.reg .rsp = stk (s.reg .rsp) (k + n64 q + 3)) (hdi : t1.reg .rdi = stk (s.reg .rsp) (k + n64 q + 1))
    (hsi : t1.reg .rsi = p) (hsv : ∀ r ∈ Props.calleeSaved, t1.reg r = t.reg r) (hsy : t1.sym = t.sym)
    (hP : P (elemAt (n64 q) t.mem p)) :
    ∃ t2, (∀ p, run env ra (.call f :: p) t1 = run env ra p t2) ∧ In q F s t2 ∧
      t2.mem (stk (s.reg .rsp) (k + n64 q + 2)) = v ∧ t2.mem (stk (s.reg .rsp) (k + n64 q + 3)) = w ∧
      t2.reg .rsp = stk (s.reg .rsp) (k + n64 q + 3) ∧ t2.reg .rdi = stk (s.reg .rsp) (k + n64 q + 1) ∧
      (∀ a, ¬ InStk (t.reg .rsp) (F - k) a → t2.mem a = t.mem a) ∧
      R (elemAt (n64 q) t.mem p) (elemAt (n64 q) t2.mem (stk (s.reg .rsp) (k + n64 q + 1))) := by
  have hfit := h.ok.fits
  set S := s.reg .rsp with hS
  have hne : ∀ i j, i ≤ F → j ≤ F → i ≠ j → stk S i ≠ stk S j := fun i j h1 h2 h3 e => h3 (stk_inj (by omega) (by omega) e)
  have hstk : ∀ j, k + 1 ≤ j → j ≤ F → InStk (t.reg .rsp) (F - k) (stk S j) := fun j h1 h2 =>
    ⟨j - k - 1, by omega, by rw [hk, stk_stk]; congr 1; omega⟩
  have hmf : ∀ a, ¬ InStk (t.reg .rsp) (F - k) a → t1.mem a = t.mem a := by
    intro a ha
    rw [hm, upd_ne _ _ fun e => ha (by rw [e]; exact hstk _ (by omega) (by omega)),
      upd_ne _ _ fun e => ha (by rw [e]; exact hstk _ (by omega) (by omega))]
  have hup : ∀ a, ¬ InStk S F a → ¬ InStk (t.reg .rsp) (F - k) a := fun a ha h' => by
    rw [hk] at h'; exact ha (h'.deep (by omega))
  have i1 : In q F s t1 := by
    refine ⟨by rw [hsv _ (by decide), hi.rbp], ?_, fun a ha hb => by rw [hmf a (hup a ha), hi.frame a ha hb],
      fun r hr hb => by rw [hsv r hr, hi.saved r hr hb], by rw [hsy, hi.sym]⟩
    rw [hm, upd_ne _ _ (hne _ _ (by omega) (by omega) (by omega)), upd_ne _ _ (hne _ _ (by omega) (by omega) (by omega)), hi.old]
  have harr : ∀ a, InArr (t1.reg .rdi) (n64 q + 1) a → ∃ j, k + 1 ≤ j ∧ j ≤ k + n64 q + 1 ∧ a = stk S j := by
    rintro a ⟨i, hi, rfl⟩
    rw [hdi, cell_stk _ (by omega)]
    exact ⟨_, by omega, by omega, rfl⟩
  have a1 : TArgs q F' t1 := by
    refine ⟨i1.ok h hsp (by omega), hb, ⟨fun a ha h' => ?_, fun a ha h' => ?_⟩⟩
    · obtain ⟨j, h1, h2, rfl⟩ := harr a ha
      obtain ⟨l, h3, e⟩ := h'
      rw [hsp, stk_stk] at e
      exact hne _ _ (by omega) (by omega) (by omega) e
    · obtain ⟨j, h1, h2, rfl⟩ := harr a ha
      rw [i1.sym] at h'
      exact h.ok.off _ h' ⟨j - 1, by omega, by rw [Nat.sub_add_cancel (by omega)]⟩
  have o1 : TOpnd q F' t1 (t1.reg .rsi) := by
    rw [hsi]
    refine ⟨.inr fun i j hi hj e => ?_, fun a ha h' => ?_⟩
    · obtain ⟨l, h1, h2, e'⟩ := harr _ ⟨j, hj, rfl⟩
      exact hp _ ⟨i, hi, rfl⟩ (by rw [e, e']; exact hstk _ (by omega) (by omega))
    · obtain ⟨l, h3, rfl⟩ := h'
      rw [hsp, stk_stk] at ha
      exact hp _ ha (hstk _ (by omega) (by omega))
  obtain ⟨t2, e2, c2, r2⟩ := hf t1 a1 o1 (by
    rw [hsi, elemAt_congr (m' := t1.mem) (m := t.mem) fun a ha => hmf a (hp a ha)]
    exact hP)
  have i2 : In q F s t2 := i1.called h hsp (by omega) (by omega) c2 fun a ha => by
    obtain ⟨j, h1, h2, e⟩ := harr a ha
    exact .inr ⟨j, by omega, by omega, e⟩
  have hkeep : ∀ j, k + n64 q + 2 ≤ j → j ≤ k + n64 q + 3 → t2.mem (stk S j) = t1.mem (stk S j) := by
    intro j h1 h2
    refine c2.frame _ ?_ fun h' => ?_
    · rw [hsp]
      rintro ⟨l, h3, e⟩
      rw [stk_stk] at e
      exact hne _ _ (by omega) (by omega) (by omega) e
    · obtain ⟨l, h3, h4, e⟩ := harr _ h'
      exact hne _ _ (by omega) (by omega) (by omega) e
  refine ⟨t2, e2, i2, ?_, ?_, c2.rsp.trans hsp, c2.rdi.trans hdi, fun a ha => ?_, ?_⟩
  · rw [hkeep _ (by omega) (by omega), hm, upd_ne _ _ (hne _ _ (by omega) (by omega) (by omega)), upd_same]
  · rw [hkeep _ (by omega) (by omega), hm, upd_same]
  · rw [c2.frame, hmf a ha]
    · rintro ⟨l, h3, rfl⟩
      rw [hsp, stk_stk] at ha
      exact ha (hstk _ (by omega) (by omega))
    · intro h'
      obtain ⟨j, h1, h2, e⟩ := harr _ h'
      exact ha (by rw [e]; exact hstk _ (by omega) (by omega))
  · rw [hsi, hdi] at r2
    rwa [elemAt_congr (m' := t1.mem) (m := t.mem) fun a ha => hmf a (hp a ha)] at r2

/-- The state after a macro: the temporary holds the converted operand. -/
structure Conv (q F k : Nat) (s t t' : State) (b : Reg) (R : Elem → Elem → Prop) : Prop where
  inn : In q F s t'
  rsp : t'.reg .rsp = stk (s.reg .rsp) (k + n64 q + 1)
  tmp : t'.reg b = stk (s.reg .rsp) (k + n64 q + 1)
  rdi : t'.reg .rdi = t.reg .rdi
  deep : ∀ a, ¬ InStk (t.reg .rsp) (F - k) a → t'.mem a = t.mem a
  elem : R (elemAt (n64 q) t.mem (t.reg b)) (elemAt (n64 q) t'.mem (stk (s.reg .rsp) (k + n64 q + 1)))

theorem Conv.mem {b : Reg} {t' : State} {R : Elem → Elem → Prop} (hc : Conv q F k s t t' b R)
    (hk : t.reg .rsp = stk (s.reg .rsp) k) (hF : k ≤ F) (a : BitVec 64) (ha : ¬ InStk (s.reg .rsp) F a) : t'.mem a = t.mem a :=
  hc.deep a fun h' => by rw [hk] at h'; exact ha (h'.deep (by omega))

theorem convA_run {f : String} {R : Elem → Elem → Prop} {P : Elem → Prop} (hf : ConvSpec q F' ra env f R P) (h : TArgs q F s)
    (hp : Off (F - k) t (t.reg .rsi) (n64 q + 1)) (hi : In q F s t) (hk : t.reg .rsp = stk (s.reg .rsp) k) (h3 : 1 ≤ k)
    (hF : k + n64 q + 3 + F' ≤ F) (hb : callCells q ≤ F')
    (hP : P (elemAt (n64 q) t.mem (t.reg .rsi)) := by first | trivial | assumption) :
    ∃ t', (∀ p, run env ra (convA (n64 q) f ++ p) t = run env ra p t') ∧ Conv q F k s t t' .rsi R ∧
      t'.reg .rdx = t.reg .rdx := by
  obtain ⟨t1, ht1⟩ : ∃ t1, t1 = exes [op .mov r8 rdi, op .sub rsp (.imm (BitVec.ofNat 64 (8 * (n64 q + 1)))), op .mov rdi rsp,
    .push .rdx, .push .r8] t := ⟨_, rfl⟩
  have hn : t.reg .rsp - BitVec.ofNat 64 (8 * (n64 q + 1)) = stk (s.reg .rsp) (k + n64 q + 1) := by
    rw [hk, stk_sub, Nat.add_assoc]
  have hm : t1.mem = upd (upd t.mem (t.reg .rsp - BitVec.ofNat 64 (8 * (n64 q + 1)) - 8) (t.reg .rdx))
      (t.reg .rsp - BitVec.ofNat 64 (8 * (n64 q + 1)) - 8 - 8) (t.reg .rdi) := by rw [ht1]; rfl
  rw [hn, stk_push, stk_push] at hm
  have hsp : t1.reg .rsp = t.reg .rsp - BitVec.ofNat 64 (8 * (n64 q + 1)) - 8 - 8 := by rw [ht1]; rfl
  rw [hn, stk_push, stk_push] at hsp
  have hdi : t1.reg .rdi = t.reg .rsp - BitVec.ofNat 64 (8 * (n64 q + 1)) := by rw [ht1]; rfl
  rw [hn] at hdi
  obtain ⟨t2, e2, i2, m2, m3, sp2, di2, f2, r2⟩ := conv_core hf h hp hi hk h3 hF hb hm hsp hdi (by rw [ht1]; rfl)
    (fun r hr => by
      rw [ht1]
      simp [Props.calleeSaved] at hr
      rcases hr with rfl | rfl | rfl | rfl | rfl | rfl <;> rfl) (by rw [ht1]; rfl) hP
  obtain ⟨t3, ht3⟩ : ∃ t3, t3 = exes [op .mov rsi rdi, .pop .rdi, .pop .rdx] t2 := ⟨_, rfl⟩
  have hsp3 : t3.reg .rsp = t2.reg .rsp + 8 + 8 := by rw [ht3]; rfl
  have hdi3 : t3.reg .rdi = t2.mem (t2.reg .rsp) := by rw [ht3]; rfl
  have hdx3 : t3.reg .rdx = t2.mem (t2.reg .rsp + 8) := by rw [ht3]; rfl
  rw [sp2, m3] at hdi3
  rw [sp2, stk_pop, m2] at hdx3
  rw [sp2, stk_pop, stk_pop] at hsp3
  have hm3 : t3.mem = t2.mem := by rw [ht3]; rfl
  refine ⟨t3, fun p => ?_, ⟨?_, hsp3, ?_, hdi3, fun a ha => by rw [hm3, f2 a ha], by rw [hm3]; exact r2⟩, hdx3⟩
  · show run env ra ([op .mov r8 rdi, op .sub rsp (.imm (BitVec.ofNat 64 (8 * (n64 q + 1)))), op .mov rdi rsp,
      .push .rdx, .push .r8] ++ .call f :: ([op .mov rsi rdi, .pop .rdi, .pop .rdx] ++ p)) t = _
    rw [run_exes _ rfl, ← ht1, e2, run_exes _ rfl, ← ht3]
  · refine ⟨by rw [← i2.rbp, ht3]; rfl, by rw [hm3, i2.old], by rw [hm3]; exact i2.frame, fun r hr hb => ?_,
      by rw [← i2.sym, ht3]; rfl⟩
    rw [← i2.saved r hr hb, ht3]
    simp [Props.calleeSaved] at hr
    rcases hr with rfl | rfl | rfl | rfl | rfl | rfl <;> rfl
  · rw [← di2, ht3]; rfl

theorem convB_run {f : String} {R : Elem → Elem → Prop} {P : Elem → Prop} (hf : ConvSpec q F' ra env f R P) (h : TArgs q F s)
    (hp : Off (F - k) t (t.reg .rdx) (n64 q + 1)) (hi : In q F s t) (hk : t.reg .rsp = stk (s.reg .rsp) k) (h3 : 1 ≤ k)
    (hF : k + n64 q + 3 + F' ≤ F) (hb : callCells q ≤ F')
    (hP : P (elemAt (n64 q) t.mem (t.reg .rdx)) := by first | trivial | assumption) :
    ∃ t', (∀ p, run env ra (convB (n64 q) f ++ p) t = run env ra p t') ∧ Conv q F k s t t' .rdx R ∧
      t'.reg .rsi = t.reg .rsi := by
  obtain ⟨t1, ht1⟩ : ∃ t1, t1 = exes [op .mov r8 rdi, op .sub rsp (.imm (BitVec.ofNat 64 (8 * (n64 q + 1)))), op .mov rdi rsp,
    .push .rsi, op .mov rsi rdx, .push .r8] t := ⟨_, rfl⟩
  have hn : t.reg .rsp - BitVec.ofNat 64 (8 * (n64 q + 1)) = stk (s.reg .rsp) (k + n64 q + 1) := by
    rw [hk, stk_sub, Nat.add_assoc]
  have hm : t1.mem = upd (upd t.mem (t.reg .rsp - BitVec.ofNat 64 (8 * (n64 q + 1)) - 8) (t.reg .rsi))
      (t.reg .rsp - BitVec.ofNat 64 (8 * (n64 q + 1)) - 8 - 8) (t.reg .rdi) := by rw [ht1]; rfl
  rw [hn, stk_push, stk_push] at hm
  have hsp : t1.reg .rsp = t.reg .rsp - BitVec.ofNat 64 (8 * (n64 q + 1)) - 8 - 8 := by rw [ht1]; rfl
  rw [hn, stk_push, stk_push] at hsp
  have hdi : t1.reg .rdi = t.reg .rsp - BitVec.ofNat 64 (8 * (n64 q + 1)) := by rw [ht1]; rfl
  rw [hn] at hdi
  obtain ⟨t2, e2, i2, m2, m3, sp2, di2, f2, r2⟩ := conv_core hf h hp hi hk h3 hF hb hm hsp hdi (by rw [ht1]; rfl)
    (fun r hr => by
      rw [ht1]
      simp [Props.calleeSaved] at hr
      rcases hr with rfl | rfl | rfl | rfl | rfl | rfl <;> rfl) (by rw [ht1]; rfl) hP
  obtain ⟨t3, ht3⟩ : ∃ t3, t3 = exes [op .mov rdx rdi, .pop .rdi, .pop .rsi] t2 := ⟨_, rfl⟩
  have hsp3 : t3.reg .rsp = t2.reg .rsp + 8 + 8 := by rw [ht3]; rfl
  have hdi3 : t3.reg .rdi = t2.mem (t2.reg .rsp) := by rw [ht3]; rfl
  have hdx3 : t3.reg .rsi = t2.mem (t2.reg .rsp + 8) := by rw [ht3]; rfl
  rw [sp2, m3] at hdi3
  rw [sp2, stk_pop, m2] at hdx3
  rw [sp2, stk_pop, stk_pop] at hsp3
  have hm3 : t3.mem = t2.mem := by rw [ht3]; rfl
  refine ⟨t3, fun p => ?_, ⟨?_, hsp3, ?_, hdi3, fun a ha => by rw [hm3, f2 a ha], by rw [hm3]; exact r2⟩, hdx3⟩
  · show run env ra ([op .mov r8 rdi, op .sub rsp (.imm (BitVec.ofNat 64 (8 * (n64 q + 1)))), op .mov rdi rsp,
      .push .rsi, op .mov rsi rdx, .push .r8] ++ .call f :: ([op .mov rdx rdi, .pop .rdi, .pop .rsi] ++ p)) t = _
    rw [run_exes _ rfl, ← ht1, e2, run_exes _ rfl, ← ht3]
  · refine ⟨by rw [← i2.rbp, ht3]; rfl, by rw [hm3, i2.old], by rw [hm3]; exact i2.frame, fun r hr hb => ?_,
      by rw [← i2.sym, ht3]; rfl⟩
    rw [← i2.saved r hr hb, ht3]
    simp [Props.calleeSaved] at hr
    rcases hr with rfl | rfl | rfl | rfl | rfl | rfl <;> rfl
  · rw [← di2, ht3]; rfl

/-- The temporary as an operand of a raw routine. -/
theorem Conv.opnd {b : Reg} {t' : State} {R : Elem → Elem → Prop} (hc : Conv q F k s t t' b R) (h : TArgs q F s) (hd : t.reg .rdi = s.reg .rdi)
    (hF : k + n64 q + 1 + F' ≤ F) : TOpnd q F' t' (t'.reg b) := by
  have hfit := h.ok.fits
  refine ⟨.inr fun i j hi hj e => ?_, ?_⟩
  · rw [hc.tmp, hc.rdi, hd, cell_stk _ (by omega)] at e
    exact h.dst.off _ ⟨j, hj, rfl⟩ ⟨k + n64 q + 1 - i - 1, by omega, by rw [← e]; congr 1; omega⟩
  · rintro a ⟨i, hi, rfl⟩ ⟨j, hj, e⟩
    rw [hc.tmp, hc.rsp, stk_stk, cell_stk _ (by omega)] at e
    have := stk_inj (by omega) (by omega) e
    omega

/-! ## The conversions as callees -/

theorem toMont_spec (hq : q % 2 = 1) (hb : callCells q ≤ F) :
    ConvSpec q (F + 1) ra (lib q ra) "toMontgomery" (fun a e => e = toMontAsm q a) (ToOk q) := by
  intro t h ha hP
  have e : elemAt (n64 q) (pushVal ra t).mem ((pushVal ra t).reg .rsi) = elemAt (n64 q) t.mem (t.reg .rsi) := by
    rw [push_reg _ _ (by decide), elemAt_congr fun a h' => push_mem ra t (off_one (ha.off a h') (Nat.succ_pos _))]
  obtain ⟨s', h1, h2⟩ := toMontgomery_run (ra := ra) hq (by rw [e]; exact hP) (h.push hb ra)
    (by rw [push_reg _ _ (by decide)]; exact ha.push ra)
  obtain ⟨c1, c2, c3⟩ := called_of (env := lib q ra) (f := "toMontgomery") rfl h1 h2
  rw [e] at c3
  exact ⟨s', c1, c2, c3⟩

theorem toNormal_spec (hq : q % 2 = 1) (hb : callCells q ≤ F) :
    ConvSpec q (F + 1) ra (lib q ra) "toNormal" (fun a e => ∃ r, e = toNormalInto q r a) (FromOk q) := by
  intro t h ha hP
  have e : elemAt (n64 q) (pushVal ra t).mem ((pushVal ra t).reg .rsi) = elemAt (n64 q) t.mem (t.reg .rsi) := by
    rw [push_reg _ _ (by decide), elemAt_congr fun a h' => push_mem ra t (off_one (ha.off a h') (Nat.succ_pos _))]
  obtain ⟨s', h1, h2⟩ := toNormal_run (ra := ra) hq (by rw [e]; exact hP) (h.push hb ra)
    (by rw [push_reg _ _ (by decide)]; exact ha.push ra)
  obtain ⟨c1, c2, c3⟩ := called_of (env := lib q ra) (f := "toNormal") rfl h1 h2
  rw [e] at c3
  exact ⟨s', c1, c2, _, c3⟩

theorem toLong_spec (hq : q % 2 = 1) (hb : callCells q ≤ F) :
    ConvSpec q (F + 1) ra (lib q ra) "toLongNormal" (fun a e => ∃ r, e = toLongNormalInto q r a) (FromOk q) := by
  intro t h ha hP
  have e : elemAt (n64 q) (pushVal ra t).mem ((pushVal ra t).reg .rsi) = elemAt (n64 q) t.mem (t.reg .rsi) := by
    rw [push_reg _ _ (by decide), elemAt_congr fun a h' => push_mem ra t (off_one (ha.off a h') (Nat.succ_pos _))]
  obtain ⟨s', h1, h2⟩ := toLongNormal_run (ra := ra) hq (by rw [e]; exact hP) (h.push hb ra)
    (by rw [push_reg _ _ (by decide)]; exact ha.push ra)
  obtain ⟨c1, c2, c3⟩ := called_of (env := lib q ra) (f := "toLongNormal") rfl h1 h2
  rw [e] at c3
  exact ⟨s', c1, c2, _, c3⟩

theorem toLong_spec_short (hq : q % 2 = 1) (hb : callCells q ≤ F) :
    ConvSpec q (F + 1) ra (lib q ra) "toLongNormal" (fun a e => ∃ r, e = toLongNormalInto q r a) fun a => a.long = false := by
  intro t h ha hs
  have e : elemAt (n64 q) (pushVal ra t).mem ((pushVal ra t).reg .rsi) = elemAt (n64 q) t.mem (t.reg .rsi) := by
    rw [push_reg _ _ (by decide), elemAt_congr fun a h' => push_mem ra t (off_one (ha.off a h') (Nat.succ_pos _))]
  obtain ⟨s', h1, h2⟩ := toLongNormal_run (ra := ra) hq (.short (by rw [e]; exact hs)) (h.push hb ra)
    (by rw [push_reg _ _ (by decide)]; exact ha.push ra)
  obtain ⟨c1, c2, c3⟩ := called_of (env := lib q ra) (f := "toLongNormal") rfl h1 h2
  rw [e] at c3
  exact ⟨s', c1, c2, _, c3⟩

end frame

end FF.X86
