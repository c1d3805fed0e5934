import Verif.AsmCmp

/-!
# Two operands that may have been converted
-/

namespace FF.X86

section ops

variable {q F F' k n : Nat} {ra : BitVec 64} {s t : State} {env : String → Option (State → Option State)} {m : Mem} {r a b : Elem}

/-- Inside a routine entered in state `s`: `k` words on the stack, the operands `a` at `rsi` and `b` at `rdx`, the result
element still `r`. -/
structure Ops (q F k : Nat) (s t : State) (r a b : Elem) : Prop where
  inn : In q F s t
  rsp : t.reg .rsp = stk (s.reg .rsp) k
  rdi : t.reg .rdi = s.reg .rdi
  offA : Off (F - k) t (t.reg .rsi) (n64 q + 1)
  offB : Off (F - k) t (t.reg .rdx) (n64 q + 1)
  aliA : Alias (t.reg .rsi) (s.reg .rdi) (n64 q + 1)
  aliB : Alias (t.reg .rdx) (s.reg .rdi) (n64 q + 1)
  r : elemAt (n64 q) t.mem (s.reg .rdi) = r
  a : elemAt (n64 q) t.mem (t.reg .rsi) = a
  b : elemAt (n64 q) t.mem (t.reg .rdx) = b

theorem At.ops (ha : TOpnd q F s (s.reg .rsi)) (hb : TOpnd q F s (s.reg .rdx)) (ht : At q F s t m) (hF : 3 ≤ F) :
    Ops q F 3 s t (m (s.reg .rdi).toNat) (m (s.reg .rsi).toNat) (m (s.reg .rdx).toNat) :=
  ⟨ht.inn, ht.rsp, ht.rdi, by rw [ht.rsi]; exact In.off ha.off ht.rsp (by omega), by rw [ht.rdx]; exact In.off hb.off ht.rsp (by omega),
    by rw [ht.rsi]; exact ha.ali, by rw [ht.rdx]; exact hb.ali, ht.r, by rw [ht.rsi]; exact ht.a, by rw [ht.rdx]; exact ht.b⟩

/-- Steps that keep memory and the three pointers. -/
theorem Ops.move {t' : State} (o : Ops q F k s t r a b) (hm : Move t t') (h1 : t'.reg .rdi = t.reg .rdi) (h2 : t'.reg .rsi = t.reg .rsi)
    (h3 : t'.reg .rdx = t.reg .rdx) : Ops q F k s t' r a b :=
  ⟨o.inn.move hm, hm.rsp.trans o.rsp, h1.trans o.rdi, by rw [h2]; exact o.offA.move hm, by rw [h3]; exact o.offB.move hm,
    by rw [h2]; exact o.aliA, by rw [h3]; exact o.aliB, by rw [hm.mem]; exact o.r, by rw [hm.mem, h2]; exact o.a,
    by rw [hm.mem, h3]; exact o.b⟩

theorem Agree.toMove {t' : State} (h : Agree notRax t t') : Move t t' :=
  ⟨h.mem, h.sym, h.regs _ (by simp [notRax]), fun r hr => h.regs r (by rintro rfl; exact absurd hr (by decide))⟩

theorem Ops.agree {t' : State} (o : Ops q F k s t r a b) (h : Agree notRax t t') : Ops q F k s t' r a b :=
  o.move h.toMove (h.regs _ (by simp [notRax])) (h.regs _ (by simp [notRax])) (h.regs _ (by simp [notRax]))

/-- The cells of a temporary. -/
theorem tmp_off {t' : State} (h : TArgs q F s) (hF : k + n64 q + 1 ≤ F) (hr : t'.reg .rsp = stk (s.reg .rsp) (k + n64 q + 1)) :
    Off (F - (k + n64 q + 1)) t' (stk (s.reg .rsp) (k + n64 q + 1)) (n64 q + 1) := by
  have hfit := h.ok.fits
  rintro a ⟨i, hi, rfl⟩ ⟨j, hj, e⟩
  rw [hr, stk_stk, cell_stk _ (by omega)] at e
  have := stk_inj (by omega) (by omega) e
  omega

theorem tmp_ali (h : TArgs q F s) (hF : k + n64 q + 1 ≤ F) : Alias (stk (s.reg .rsp) (k + n64 q + 1)) (s.reg .rdi) (n64 q + 1) := by
  refine .inr fun i j hi hj e => ?_
  rw [cell_stk _ (by omega)] at e
  exact h.dst.off _ ⟨j, hj, rfl⟩ ⟨k + n64 q + 1 - i - 1, by omega, by rw [← e]; congr 1; omega⟩

theorem res_off (h : TArgs q F s) (hk : t.reg .rsp = stk (s.reg .rsp) k) (hF : k ≤ F) : Off (F - k) t (s.reg .rdi) (n64 q + 1) :=
  In.off h.dst.off hk (by omega)

theorem off_deeper {t' : State} {p : BitVec 64} {j : Nat} (h : Off (F - k) t p (n64 q + 1)) (hk : t.reg .rsp = stk (s.reg .rsp) k)
    (hk' : t'.reg .rsp = stk (s.reg .rsp) (k + j)) (hF : k + j ≤ F) : Off (F - (k + j)) t' p (n64 q + 1) := by
  intro x hx h'
  refine h x hx ?_
  rw [hk', ← stk_stk, ← hk] at h'
  exact h'.deep (by omega)

theorem Ops.convA {f : String} {R : Elem → Elem → Prop} {P : Elem → Prop} (o : Ops q F k s t r a b) (h : TArgs q F s)
    (hf : ConvSpec q F' ra env f R P) (h3 : 1 ≤ k) (hF : k + n64 q + 3 + F' ≤ F) (hb : callCells q ≤ F')
    (hP : P a := by first | trivial | assumption) :
    ∃ t' a', (∀ p, run env ra (convA (n64 q) f ++ p) t = run env ra p t') ∧ R a a' ∧ Ops q F (k + n64 q + 1) s t' r a' b := by
  obtain ⟨t', e1, c1, d1⟩ := convA_run hf h o.offA o.inn o.rsp h3 hF hb (by rw [o.a]; exact hP)
  have keep : ∀ p, Off (F - k) t p (n64 q + 1) → elemAt (n64 q) t'.mem p = elemAt (n64 q) t.mem p := fun p hp =>
    elemAt_congr fun x hx => c1.deep x (hp x hx)
  refine ⟨t', _, e1, o.a ▸ c1.elem, c1.inn, c1.rsp, c1.rdi.trans o.rdi, ?_, ?_, ?_, ?_, ?_, ?_, ?_⟩
  · rw [c1.tmp]; exact tmp_off h (by omega) c1.rsp
  · rw [d1]; exact off_deeper (j := n64 q + 1) o.offB o.rsp c1.rsp (by omega)
  · rw [c1.tmp]; exact tmp_ali h (by omega)
  · rw [d1]; exact o.aliB
  · rw [keep _ (res_off h o.rsp (by omega)), o.r]
  · rw [c1.tmp]
  · rw [d1, keep _ o.offB, o.b]

theorem Ops.convB {f : String} {R : Elem → Elem → Prop} {P : Elem → Prop} (o : Ops q F k s t r a b) (h : TArgs q F s)
    (hf : ConvSpec q F' ra env f R P) (h3 : 1 ≤ k) (hF : k + n64 q + 3 + F' ≤ F) (hb : callCells q ≤ F')
    (hP : P b := by first | trivial | assumption) :
    ∃ t' b', (∀ p, run env ra (convB (n64 q) f ++ p) t = run env ra p t') ∧ R b b' ∧ Ops q F (k + n64 q + 1) s t' r a b' := by
  obtain ⟨t', e1, c1, d1⟩ := convB_run hf h o.offB o.inn o.rsp h3 hF hb (by rw [o.b]; exact hP)
  have keep : ∀ p, Off (F - k) t p (n64 q + 1) → elemAt (n64 q) t'.mem p = elemAt (n64 q) t.mem p := fun p hp =>
    elemAt_congr fun x hx => c1.deep x (hp x hx)
  refine ⟨t', _, e1, o.b ▸ c1.elem, c1.inn, c1.rsp, c1.rdi.trans o.rdi, ?_, ?_, ?_, ?_, ?_, ?_, ?_⟩
  · rw [d1]; exact off_deeper (j := n64 q + 1) o.offA o.rsp c1.rsp (by omega)
  · rw [c1.tmp]; exact tmp_off h (by omega) c1.rsp
  · rw [d1]; exact o.aliA
  · rw [c1.tmp]; exact tmp_ali h (by omega)
  · rw [keep _ (res_off h o.rsp (by omega)), o.r]
  · rw [d1, keep _ o.offA, o.a]
  · rw [c1.tmp]

/-- The tables are still there. -/
theorem Ops.data (o : Ops q F k s t r a b) (h : TArgs q F s) (hF : k ≤ F) : Data q t := (o.inn.ok h o.rsp (F' := F - k) (by omega)).data

theorem leave_rax {p : List Line} {s' : State} (h : run env ra (leave ++ p) t = some s') : s'.reg .rax = t.reg .rax := by
  change run env ra ([op .mov rsp rbp, .pop .rdx, .pop .rsi, .pop .rbp] ++ .ret :: p) t = _ at h
  rw [run_exes _ rfl, run_ret] at h
  cases h
  rfl

/-- The end of a routine. -/
theorem Ops.leave (o : Ops q F k s t r a b) (p : List Line) :
    ∃ s', run env ra (leave ++ p) t = some s' ∧ TRet q F s s' r ∧ s'.reg .rax = t.reg .rax := by
  obtain ⟨s', r1, r2⟩ := leave_run (env := env) (ra := ra) o.inn o.rdi p
  exact ⟨s', r1, o.r ▸ r2, leave_rax r1⟩

end ops

end FF.X86
