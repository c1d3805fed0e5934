import Verif.AsmAddSub

/-!
# Multiplication, squaring and negation in the generated assembly
-/

namespace FF.X86

section mul

variable {q F : Nat} {ra : BitVec 64} {s t : State} {env : String → Option (State → Option State)} {m : Mem}

theorem stk_off {S : BitVec 64} {F : Nat} (hF : 8 * (F + 1) < 2 ^ 64) : ¬ InStk (stk S 1) F (stk S 1) := by
  rintro ⟨j, hj, e⟩
  rw [stk_stk] at e
  have := stk_inj (by omega) (by omega) e
  omega

/-- `push rsi`, a call, `pop rsi`. -/
theorem bracket {t2 : State} {p : BitVec 64} {k : Nat} (hc : Called F p k (pushVal (t.reg .rsi) t) t2) (ho : Off (F + 1) t p k)
    (hf : 8 * (F + 1) < 2 ^ 64) :
    ∃ t3, (∀ c, run env ra (.pop .rsi :: c) t2 = run env ra c t3) ∧ Called (F + 1) p k t t3 ∧ t3.reg .rsi = t.reg .rsi ∧
      t3.mem = t2.mem := by
  have hsp := hc.rsp
  rw [push_rsp] at hsp
  refine ⟨popReg .rsi t2, fun c => run_pop _ _ _ c t2, ⟨fun a h1 h2 => ?_, fun r hr => ?_, ?_, ?_, hc.sym⟩, ?_, rfl⟩
  · show t2.mem a = _
    rw [hc.frame a ?_ h2, push_mem]
    · exact off_one h1 (by omega)
    · rw [push_rsp]; exact fun h => h1 (h.deep (by omega))
  · have hne : r ≠ .rsp := by rintro rfl; exact absurd hr (by decide)
    rw [← push_reg (t.reg .rsi) t hne, ← hc.saved r hr]
    simp [Props.calleeSaved] at hr
    rcases hr with rfl | rfl | rfl | rfl | rfl | rfl <;> rfl
  · rw [← push_reg (t.reg .rsi) t (by decide), ← hc.rdi]; rfl
  · show t2.reg .rsp + 8 = _
    rw [hsp, stk_pop, stk_zero]
  · show t2.mem (t2.reg .rsp) = _
    rw [hsp, hc.frame _ (by rw [push_rsp]; exact stk_off hf) fun h => ho _ h ⟨0, by omega, rfl⟩]
    show upd t.mem _ _ _ = _
    rw [← stk_one, upd_same]

/-- Between the blocks of a routine without a frame: only the result element has changed. -/
structure Up (q F : Nat) (s t : State) (m : Mem) : Prop where
  c : Called F (s.reg .rdi) (n64 q + 1) s t
  see : ∀ p, TOpnd q F s p → elemAt (n64 q) t.mem p = m p.toNat

theorem up_r (h : TArgs q F s) (ht : Up q F s t m) : elemAt (n64 q) t.mem (t.reg .rdi) = m (s.reg .rdi).toNat := by
  rw [ht.c.rdi]; exact ht.see _ ⟨.inl rfl, h.dst.off⟩

theorem up_next {t' : State} {E : Elem} (ht : Up q F s t m) (hc : Called F (t.reg .rdi) (n64 q + 1) t t')
    (he : elemAt (n64 q) t'.mem (t.reg .rdi) = E) : Up q F s t' (m.set (s.reg .rdi).toNat E) := by
  have hd := ht.c.rdi
  refine ⟨ht.c.trans (by rw [← hd]; exact hc), fun p hp => ?_⟩
  have := sees_set (m := m) (hp.called ht.c) hc he (ht.see p hp)
  rwa [hd] at this

theorem up_ret (h : TArgs q F s) (ht : Up q F s t m) (p : List Line) :
    ∃ s', run env ra (.ret :: p) t = some s' ∧ TRet q F s s' (m (s.reg .rdi).toNat) :=
  ret_of ht.c (ht.see _ ⟨.inl rfl, h.dst.off⟩)

theorem up_setTy (h : TArgs q F s) (ht : Up q F s t m) (ty : BitVec 8) :
    ∃ t', (∀ p, run env ra (setTypeDest ty ++ p) t = run env ra p t') ∧
      Up q F s t' (m.setTy (s.reg .rdi).toNat (ty.getLsbD 7) (ty.getLsbD 6)) ∧ Regs [.r11] t t' := by
  obtain ⟨t', h1, h2, h3, h4⟩ := setType_elem (env := env) (ra := ra) ty (h.called ht.c le_rfl)
  refine ⟨t', h1, ?_, h3⟩
  rw [up_r h ht] at h4
  exact up_next ht h2 h4

/-- `callLL "rawMMul"`. -/
theorem up_mmul (he : env "rawMMul" = libRaw q ra "rawMMul") (hq : q % 2 = 1) (h : TArgs q F s) (ht : Up q F s t m)
    (ha : TOpnd q F s (s.reg .rsi)) (hb : TOpnd q F s (s.reg .rdx)) (hsi : t.reg .rsi = s.reg .rsi) (hdx : t.reg .rdx = s.reg .rdx)
    (hlt : val (m (s.reg .rdx).toNat).longVal < q) :
    ∃ t', (∀ p, run env ra (callLL "rawMMul" ++ p) t = run env ra p t') ∧ Up q F s t' (m.setLong (s.reg .rdi).toNat
      (FF.rawMMul q (m (s.reg .rsi).toNat).longVal (m (s.reg .rdx).toNat).longVal)) := by
  obtain ⟨t', h1, h2, h3⟩ := callLL_run (P := fun l => val l < q) (F := F) (env := env) (ra := ra) (f := "rawMMul")
    (fun t h1 h2 h3 h4 => call_rawMMul he hq h1 h2.off h3.off h4) (h.called ht.c le_rfl) (by rw [hsi]; exact ha.called ht.c)
    (by rw [hdx]; exact hb.called ht.c) (by rw [hdx, ht.see _ hb]; exact hlt)
  refine ⟨t', h1, ?_⟩
  rw [up_r h ht, hsi, hdx, ht.see _ ha, ht.see _ hb] at h3
  exact up_next ht h2 h3

/-- `mulR3`. -/
theorem up_r3 (he : env "rawMMul" = libRaw q ra "rawMMul") (hq : q % 2 = 1) (h : TArgs q (F + 1) s) (hF : callCells q ≤ F)
    (ht : Up q (F + 1) s t m) :
    ∃ t', (∀ p, run env ra (mulR3 ++ p) t = run env ra p t') ∧ Up q (F + 1) s t' (m.setLong (s.reg .rdi).toNat
      (FF.rawMMul q (m (s.reg .rdi).toNat).longVal (rawR3 q))) := by
  have hq0 : 0 < q := by omega
  have h' := h.called ht.c le_rfl
  obtain ⟨t0, ht0⟩ : ∃ t0, t0 = pushVal (t.reg .rsi) t := ⟨_, rfl⟩
  have h0 : TArgs q F t0 := ht0 ▸ h'.push hF _
  have d0 : t0.reg .rdi = t.reg .rdi := by rw [ht0, push_reg _ _ (by decide)]
  have e0 : elemAt (n64 q) t0.mem (t0.reg .rdi) = m (s.reg .rdi).toNat := by
    rw [← up_r h ht, d0]
    exact elemAt_congr fun a ha => by rw [ht0, push_mem]; exact off_one (h'.dst.off a ha) (by omega)
  obtain ⟨t1, ht1⟩ : ∃ t1, t1 = exes [op .add rdi (.imm 8), op .mov rsi rdi, .lea .rdx .r3] t0 := ⟨_, rfl⟩
  have m1 : Move t0 t1 := ht1 ▸ exes_move rfl
  have d1 : t1.reg .rdi = cell (t0.reg .rdi) 1 := by asm ht1; rfl
  have d2 : t1.reg .rsi = cell (t0.reg .rdi) 1 := by asm ht1; rfl
  have d3 : t1.reg .rdx = t1.sym .r3 := by asm ht1
  have a1 := h0.args m1 d1
  have hR : Off F t1 (t1.sym .r3) (n64 q) ∧ rd t1.mem (t1.sym .r3) (n64 q) = rawR3 q :=
    ⟨fun a ha => a1.ok.off a (.inr (.inr (.inr (.inl ha)))), a1.ok.data.r3⟩
  obtain ⟨t2, e2, c2, o2⟩ := call_rawMMul (env := env) (ra := ra) he hq a1 (by rw [d2, ← d1]; exact a1.dst.off)
    (by rw [d3]; exact hR.1) (by rw [d3, hR.2]; exact rawR3_lt hq0)
  obtain ⟨t3, ht3⟩ : ∃ t3, t3 = exes [op .sub rdi (.imm 8)] t2 := ⟨_, rfl⟩
  have m3 : Move t2 t3 := ht3 ▸ exes_move rfl
  have d4 : t3.reg .rdi = t2.reg .rdi - 8 := by asm ht3
  obtain ⟨c3, o3⟩ := wrap h0 m1 d1 c2 m3 (by rw [d4, c2.rdi, d1, cell_one_sub]) o2
  obtain ⟨t4, e4, c4, _, o4⟩ := bracket (env := env) (ra := ra) (ht0 ▸ c3) (by rw [push_reg _ _ (by decide)]; exact h'.dst.off)
    (by have := h.ok.fits; omega)
  rw [push_reg _ _ (by decide)] at c4
  refine ⟨t4, fun p => ?_, up_next ht c4 ?_⟩
  · show run env ra (.push .rsi :: ([op .add rdi (.imm 8), op .mov rsi rdi, .lea .rdx .r3] ++ .call "rawMMul" ::
      ([op .sub rdi (.imm 8)] ++ .pop .rsi :: p))) t = _
    rw [run_push, ← ht0, run_exes _ rfl, ← ht1, e2, run_exes _ rfl, ← ht3, e4]
  · rw [o4, ← d0, o3, d2, d3, hR.2, m1.mem]
    rw [← e0]; rfl

/-- `squareL1`. -/
theorem up_square (he : env "rawMSquare" = libRaw q ra "rawMSquare") (hq : q % 2 = 1) (h : TArgs q F s) (ht : Up q F s t m)
    (ha : TOpnd q F s (s.reg .rsi)) (hsi : t.reg .rsi = s.reg .rsi) (hlt : val (m (s.reg .rsi).toNat).longVal < q) :
    ∃ t', (∀ p, run env ra (squareL1 ++ p) t = run env ra p t') ∧ Up q F s t' (m.setLong (s.reg .rdi).toNat
      (FF.rawMSquare q (m (s.reg .rsi).toNat).longVal)) := by
  have h' := h.called ht.c le_rfl
  obtain ⟨t1, ht1⟩ : ∃ t1, t1 = exes [op .add rdi (.imm 8), op .add rsi (.imm 8)] t := ⟨_, rfl⟩
  have d1 : t1.reg .rdi = cell (t.reg .rdi) 1 := by asm ht1; rfl
  have d2 : t1.reg .rsi = cell (s.reg .rsi) 1 := by rw [← hsi]; asm ht1; rfl
  have m1 : Move t t1 := ht1 ▸ exes_move rfl
  have ea : rd t1.mem (t1.reg .rsi) (n64 q) = (m (s.reg .rsi).toNat).longVal := by rw [d2, m1.mem, ← ht.see _ ha]; rfl
  obtain ⟨t2, e2, c2, o2⟩ := call_rawMSquare (env := env) (ra := ra) he hq (h'.args m1 d1)
    (by rw [d2]; exact (ha.called ht.c).off.tail.move m1) (by rw [ea]; exact hlt)
  obtain ⟨t3, ht3⟩ : ∃ t3, t3 = exes [op .sub rdi (.imm 8), op .sub rsi (.imm 8)] t2 := ⟨_, rfl⟩
  have d4 : t3.reg .rdi = t2.reg .rdi - 8 := by asm ht3
  have m3 : Move t2 t3 := ht3 ▸ exes_move rfl
  obtain ⟨c3, o3⟩ := wrap h' m1 d1 c2 m3 (by rw [d4, c2.rdi, d1, cell_one_sub]) o2
  rw [up_r h ht, ea] at o3
  refine ⟨t3, fun p => ?_, up_next ht c3 o3⟩
  show run env ra ([op .add rdi (.imm 8), op .add rsi (.imm 8)] ++ .call "rawMSquare" ::
    ([op .sub rdi (.imm 8), op .sub rsi (.imm 8)] ++ p)) t = _
  rw [run_exes _ rfl, ← ht1, e2, run_exes _ rfl, ← ht3]

/-- Multiplication of the limbs at `P` by the word in `rdx`. -/
theorem mul1_pos {t5 : State} {P : BitVec 64} (he : env "rawMMul1" = libRaw q ra "rawMMul1") (hq : q % 2 = 1)
    (h7 : Props.OneWord q (q - 1) (t5.reg .rdx).toNat) (h : TArgs q F t) (m5 : Move t t5)
    (d9 : t5.reg .rdi = cell (t.reg .rdi) 1) (hP : TOpnd q F t P) (d10 : t5.reg .rsi = cell P 1)
    (hlt : val (elemAt (n64 q) t.mem P).longVal < q) :
    ∃ t', (∀ p, run env ra (.call "rawMMul1" :: ([op .sub rdi (.imm 8)] ++ p)) t5 = run env ra p t') ∧
      Called F (t.reg .rdi) (n64 q + 1) t t' ∧ elemAt (n64 q) t'.mem (t.reg .rdi) = { elemAt (n64 q) t.mem (t.reg .rdi) with
        longVal := FF.rawMMul1 q (elemAt (n64 q) t.mem P).longVal (t5.reg .rdx) } := by
  have el : rd t5.mem (t5.reg .rsi) (n64 q) = (elemAt (n64 q) t.mem P).longVal := by rw [d10, m5.mem]; rfl
  obtain ⟨t7, e7, c7, o7⟩ := call_rawMMul1 (env := env) (ra := ra) he hq (by rw [el]; exact h7.mono (Nat.le_sub_one_of_lt hlt) le_rfl) (h.args m5 d9)
    (by rw [d10]; exact hP.off.tail.move m5) (by rw [el]; exact hlt)
  rw [el] at o7
  obtain ⟨t10, ht10⟩ : ∃ t10, t10 = exes [op .sub rdi (.imm 8)] t7 := ⟨_, rfl⟩
  have k6 : t10.reg .rdi = t7.reg .rdi - 8 := by asm ht10
  have m10 : Move t7 t10 := ht10 ▸ exes_move rfl
  obtain ⟨c10, o10⟩ := wrap h m5 d9 c7 m10 (by rw [k6, c7.rdi, d9, cell_one_sub]) o7
  exact ⟨t10, fun p => by rw [e7, run_exes _ rfl, ← ht10], c10, o10⟩

/-- The same for a negative word. -/
theorem mul1_neg {t5 : State} {P : BitVec 64} (he : env "rawMMul1" = libRaw q ra "rawMMul1") (he' : env "rawNegL" = libRaw q ra "rawNegL")
    (hq : q % 2 = 1) (h7 : Props.OneWord q (q - 1) (-(t5.reg .rdx)).toNat) (h : TArgs q F t) (m5 : Move t t5)
    (d9 : t5.reg .rdi = cell (t.reg .rdi) 1) (hP : TOpnd q F t P) (d10 : t5.reg .rsi = cell P 1)
    (hlt : val (elemAt (n64 q) t.mem P).longVal < q) :
    ∃ t', (∀ p, run env ra ([.misc (.neg .rdx)] ++ .call "rawMMul1" :: ([op .mov rsi rdi] ++ .call "rawNegL" ::
        ([op .sub rdi (.imm 8)] ++ p))) t5 = run env ra p t') ∧
      Called F (t.reg .rdi) (n64 q + 1) t t' ∧ elemAt (n64 q) t'.mem (t.reg .rdi) = { elemAt (n64 q) t.mem (t.reg .rdi) with
        longVal := rawNeg q (FF.rawMMul1 q (elemAt (n64 q) t.mem P).longVal (-(t5.reg .rdx))) } := by
  obtain ⟨t6, ht6⟩ : ∃ t6, t6 = exes [.misc (.neg .rdx)] t5 := ⟨_, rfl⟩
  have m6 : Move t5 t6 := ht6 ▸ exes_move rfl
  have k1 : t6.reg .rdi = cell (t.reg .rdi) 1 := by rw [← d9]; asm ht6
  have k2 : t6.reg .rsi = cell P 1 := by rw [← d10]; asm ht6
  have k3 : t6.reg .rdx = -(t5.reg .rdx) := by asm ht6
  have a6 := h.args (m5.trans m6) k1
  have el : rd t6.mem (t6.reg .rsi) (n64 q) = (elemAt (n64 q) t.mem P).longVal := by rw [k2, (m5.trans m6).mem]; rfl
  obtain ⟨t7, e7, c7, o7⟩ := call_rawMMul1 (env := env) (ra := ra) he hq
    (by rw [el, k3]; exact h7.mono (Nat.le_sub_one_of_lt hlt) le_rfl) a6
    (by rw [k2]; exact hP.off.tail.move (m5.trans m6)) (by rw [el]; exact hlt)
  rw [el, k3] at o7
  obtain ⟨t8, ht8⟩ : ∃ t8, t8 = exes [op .mov rsi rdi] t7 := ⟨_, rfl⟩
  have m8 : Move t7 t8 := ht8 ▸ exes_move rfl
  have k4 : t8.reg .rdi = t6.reg .rdi := by rw [← c7.rdi]; asm ht8
  have k5 : t8.reg .rsi = t6.reg .rdi := by rw [← c7.rdi]; asm ht8
  have c8 := c7.then_move m8 (by rw [k4, c7.rdi])
  have a8 : Args q F t8 := ⟨a6.ok.called c8 le_rfl a6.dst.data, a6.big, by rw [k4]; exact a6.dst.called c8⟩
  obtain ⟨t9, e9, c9, o9⟩ := call_rawNegL (env := env) (ra := ra) he' a8
    ⟨.inl (k5.trans k4.symm), by rw [k5]; exact fun a ha => (a6.dst.called c8).off a ha⟩
  rw [k4] at c9 o9
  rw [k5, m8.mem, o7] at o9
  have c9' := c8.trans c9
  obtain ⟨t10, ht10⟩ : ∃ t10, t10 = exes [op .sub rdi (.imm 8)] t9 := ⟨_, rfl⟩
  have k6 : t10.reg .rdi = t9.reg .rdi - 8 := by asm ht10
  have m10 : Move t9 t10 := ht10 ▸ exes_move rfl
  obtain ⟨c10, o10⟩ := wrap h (m5.trans m6) k1 c9' m10 (by rw [k6, c9'.rdi, k1, cell_one_sub]) o9
  exact ⟨t10, fun p => by rw [run_exes _ rfl, ← ht6, e7, run_exes _ rfl, ← ht8, e9, run_exes _ rfl, ← ht10], c10, o10⟩

/-- `mulL1S2` and `mulS1L2`: the long operand is at `P`, the tag cell of the short one in `w`. -/
theorem mulLS_run {first : Line} {w : Reg} {P : BitVec 64} {v : BitVec 32} (he : env "rawMMul1" = libRaw q ra "rawMMul1")
    (he' : env "rawNegL" = libRaw q ra "rawNegL") (hq : q % 2 = 1) (h7 : Props.OneWord q (q - 1) (2 ^ 31))
    (h : TArgs q (F + 1) t) (hF : callCells q ≤ F) (hP : TOpnd q (F + 1) t P)
    (hx : first = op .add rsi (.imm 8) ∧ w = .r9 ∧ P = t.reg .rsi ∨ first = .misc (.lea .rsi .rdx 8) ∧ w = .r8 ∧ P = t.reg .rdx)
    (hv : (t.reg w).setWidth 32 = v) (hlt : val (elemAt (n64 q) t.mem P).longVal < q) (pos done : String) (hpd : pos ≠ done) :
    ∃ t', (∀ p, run env ra (mulLS first w pos done ++ p) t = run env ra p t') ∧
      Called (F + 1) (t.reg .rdi) (n64 q + 1) t t' ∧ elemAt (n64 q) t'.mem (t.reg .rdi) = { elemAt (n64 q) t.mem (t.reg .rdi) with
        longVal := if v.toInt < 0 then rawNeg q (FF.rawMMul1 q (elemAt (n64 q) t.mem P).longVal (-(sx v)))
          else FF.rawMMul1 q (elemAt (n64 q) t.mem P).longVal (sx v) } := by
  obtain ⟨t0, ht0⟩ : ∃ t0, t0 = pushVal (t.reg .rsi) t := ⟨_, rfl⟩
  have h0 : TArgs q F t0 := ht0 ▸ h.push hF _
  have hP0 : TOpnd q F t0 P := ht0 ▸ hP.push _
  have d0 : t0.reg .rdi = t.reg .rdi := by rw [ht0, push_reg _ _ (by decide)]
  have e0 : ∀ p, Off (F + 1) t p (n64 q + 1) → elemAt (n64 q) t0.mem p = elemAt (n64 q) t.mem p := fun p hp =>
    elemAt_congr fun a ha => by rw [ht0, push_mem]; exact off_one (hp a ha) (by omega)
  obtain ⟨t1, ht1⟩ : ∃ t1, t1 = exes [first, .misc (.movsx .rdx w), op .add rdi (.imm 8), op .cmp rdx (.imm 0)] t0 := ⟨_, rfl⟩
  have m1 : Move t0 t1 := by
    rw [ht1]; rcases hx with ⟨rfl, rfl, _⟩ | ⟨rfl, rfl, _⟩ <;> exact exes_move rfl
  have d1 : t1.reg .rdi = cell (t0.reg .rdi) 1 := by
    rcases hx with ⟨rfl, rfl, _⟩ | ⟨rfl, rfl, _⟩ <;> asm ht1 <;> rfl
  have d2 : t1.reg .rsi = cell P 1 := by
    rcases hx with ⟨rfl, rfl, rfl⟩ | ⟨rfl, rfl, rfl⟩
    · rw [← push_reg (t.reg .rsi) t (by decide : Reg.rsi ≠ .rsp), ← ht0]; asm ht1; rfl
    · rw [← push_reg (t.reg .rsi) t (by decide : Reg.rdx ≠ .rsp), ← ht0]; asm ht1; rfl
  have d3 : t1.reg .rdx = sx v := by
    rw [← hv]
    rcases hx with ⟨rfl, rfl, _⟩ | ⟨rfl, rfl, _⟩
    · rw [← push_reg (t.reg .rsi) t (by decide : Reg.r9 ≠ .rsp), ← ht0]; asm ht1; rfl
    · rw [← push_reg (t.reg .rsi) t (by decide : Reg.r8 ≠ .rsp), ← ht0]; asm ht1; rfl
  have f1 : t1.fl.sf = (t1.reg .rdx).msb := by
    rcases hx with ⟨rfl, rfl, _⟩ | ⟨rfl, rfl, _⟩ <;> asm ht1 <;> simp [subFlags]
  rw [d3, sx_msb] at f1
  have fin : ∀ {t3 : State} {l : Limbs}, Called F (t0.reg .rdi) (n64 q + 1) t0 t3 →
      elemAt (n64 q) t3.mem (t0.reg .rdi) = { elemAt (n64 q) t0.mem (t0.reg .rdi) with longVal := l } →
      ∃ t4, (∀ c, run env ra (.pop .rsi :: c) t3 = run env ra c t4) ∧ Called (F + 1) (t.reg .rdi) (n64 q + 1) t t4 ∧
        elemAt (n64 q) t4.mem (t.reg .rdi) = { elemAt (n64 q) t.mem (t.reg .rdi) with longVal := l } := by
    intro t3 l c3 o3
    obtain ⟨t4, e4, c4, _, o4⟩ := bracket (env := env) (ra := ra) (ht0 ▸ c3) (by rw [push_reg _ _ (by decide)]; exact h.dst.off)
      (by have := h.ok.fits; omega)
    rw [push_reg _ _ (by decide)] at c4
    refine ⟨t4, e4, c4, ?_⟩
    rw [o4, ← d0, o3, d0, e0 _ h.dst.off]
  have prog : ∀ p, run env ra (mulLS first w pos done ++ p) t = run env ra (.jump .nsign pos ::
      ([.misc (.neg .rdx)] ++ .call "rawMMul1" :: ([op .mov rsi rdi] ++ .call "rawNegL" :: ([op .sub rdi (.imm 8)] ++ .pop .rsi ::
      .jump .always done :: .label pos :: .call "rawMMul1" :: ([op .sub rdi (.imm 8)] ++ .pop .rsi :: .label done :: p))))) t1 := by
    intro p
    show run env ra (.push .rsi :: ([first, .misc (.movsx .rdx w), op .add rdi (.imm 8), op .cmp rdx (.imm 0)] ++
      .jump .nsign pos :: _)) t = _
    rw [run_push, ← ht0, run_exes _ (by rcases hx with ⟨rfl, rfl, _⟩ | ⟨rfl, rfl, _⟩ <;> rfl), ← ht1]
    rfl
  by_cases hn : v.toInt < 0
  · obtain ⟨t3, e3, c3, o3⟩ := mul1_neg he he' hq (h7.mono le_rfl (by rw [d3]; exact sx_neg_le (by assumption))) h0 m1 d1 hP0 d2 (by rw [e0 _ hP.off]; exact hlt)
    obtain ⟨t4, e4, c4, o4⟩ := fin c3 o3
    refine ⟨t4, fun p => ?_, c4, ?_⟩
    · rw [prog, run_jump, Cond.holds, f1, if_neg (by simp [hn]), e3, e4, run_jump, Cond.holds, if_pos rfl]
      congr 1
      show (if pos = done then _ else if done = done then p else _) = _
      rw [if_neg hpd, if_pos rfl]
    · rw [o4, if_pos hn, e0 _ hP.off, d3]
  · obtain ⟨t3, e3, c3, o3⟩ := mul1_pos he hq (h7.mono le_rfl (by rw [d3]; exact sx_pos_le (by assumption))) h0 m1 d1 hP0 d2 (by rw [e0 _ hP.off]; exact hlt)
    obtain ⟨t4, e4, c4, o4⟩ := fin c3 o3
    refine ⟨t4, fun p => ?_, c4, ?_⟩
    · rw [prog, run_jump, Cond.holds, f1, if_pos (by simp [hn])]
      show run env ra (dropTo pos (.label pos :: .call "rawMMul1" :: ([op .sub rdi (.imm 8)] ++ .pop .rsi :: .label done :: p))) t1 = _
      rw [dropTo_self, e3, e4, run_label]
    · rw [o4, if_neg hn, e0 _ hP.off, d3]

/-- `push rsi`, a word into `rsi`, `rawCopyS2L`, `pop rsi`. -/
theorem s2l_run {pre : List Line} {v : BitVec 64} (he : env "rawCopyS2L" = libRaw q ra "rawCopyS2L") (h : TArgs q (F + 1) t)
    (hF : callCells q ≤ F) (hpl : pre.all Line.plain = true) (hw : within free pre = true)
    (hd : (exes pre (pushVal (t.reg .rsi) t)).reg .rdi = t.reg .rdi) (hv : (exes pre (pushVal (t.reg .rsi) t)).reg .rsi = v) :
    ∃ t', (∀ p, run env ra (.push .rsi :: (pre ++ .call "rawCopyS2L" :: .pop .rsi :: p)) t = run env ra p t') ∧
      Called (F + 1) (t.reg .rdi) (n64 q + 1) t t' ∧ elemAt (n64 q) t'.mem (t.reg .rdi) = ⟨0, true, false, FF.rawCopyS2L q v⟩ := by
  obtain ⟨t0, ht0⟩ : ∃ t0, t0 = pushVal (t.reg .rsi) t := ⟨_, rfl⟩
  have d0 : t0.reg .rdi = t.reg .rdi := by rw [ht0, push_reg _ _ (by decide)]
  have h0 : TArgs q F t0 := ht0 ▸ h.push hF _
  obtain ⟨t1, ht1⟩ : ∃ t1, t1 = exes pre t0 := ⟨_, rfl⟩
  rw [← ht0, ← ht1] at hd hv
  have m1 : Move t0 t1 := ht1 ▸ exes_move hw
  have h1 := h0.move m1 (hd.trans d0.symm)
  obtain ⟨t4, e4, c4, o4, o4', _⟩ := call_rawCopyS2L (env := env) (ra := ra) he h1.ok h1.one h1.dst
  have c4' : Called F (t0.reg .rdi) (n64 q + 1) t0 t4 := by rw [d0, ← hd]; exact .move m1 c4 (hd.trans d0.symm)
  obtain ⟨t5, e5, c5, _, o5⟩ := bracket (env := env) (ra := ra) (ht0 ▸ c4') (by rw [push_reg _ _ (by decide)]; exact h.dst.off)
    (by have := h.ok.fits; omega)
  rw [push_reg _ _ (by decide)] at c5
  refine ⟨t5, fun p => ?_, c5, ?_⟩
  · rw [run_push, ← ht0, run_exes _ hpl, ← ht1, e4, e5]
  · rw [hv] at o4'
    rw [o5, ← hd]
    simp only [elemAt, o4, o4']
    simp [longTag]

theorem mul_s1s2_elem (q : Nat) (m : Mem) (r a b : Nat) :
    mul_s1s2 q m r a b r = ⟨0, true, false, FF.rawCopyS2L q (sx (m a).shortVal * sx (m b).shortVal)⟩ := by
  unfold mul_s1s2
  split <;> simp [storeS2L, Mem.setShort, Mem.setTy, Mem.setLong, set_same]

theorem imul_low (x y : BitVec 64) : BitVec.ofInt 64 (x.toInt * y.toInt) = x * y := by
  rw [BitVec.ofInt_mul, BitVec.ofInt_toInt, BitVec.ofInt_toInt]

/-- The block `mulCode` ends in. -/
def mulCase (la ma lb mb : Bool) : List Line :=
  if la then
    if lb then
      if ma then
        if mb then setTypeDest 0xC0 ++ callLL "rawMMul" else setTypeDest 0x80 ++ callLL "rawMMul"
      else if mb then setTypeDest 0x80 ++ callLL "rawMMul" else setTypeDest 0xC0 ++ (callLL "rawMMul" ++ mulR3)
    else if ma then
      if mb then setTypeDest 0xC0 ++ callLL "rawMMul" else setTypeDest 0x80 ++ mulL1S2 "tmp3" "tmp4"
    else if mb then setTypeDest 0x80 ++ callLL "rawMMul" else setTypeDest 0xC0 ++ (mulL1S2 "tmp1" "tmp2" ++ mulR3)
  else if lb then
    if ma then
      if mb then setTypeDest 0xC0 ++ callLL "rawMMul" else setTypeDest 0x80 ++ callLL "rawMMul"
    else if mb then setTypeDest 0x80 ++ mulS1L2 "tmp7" "tmp8" else setTypeDest 0xC0 ++ (mulS1L2 "tmp5" "tmp6" ++ mulR3)
  else mulS1S2

private abbrev LL := callLL "rawMMul"
private def mc1 : List Line := setTypeDest 0xC0 ++ (LL ++ [.ret])
private def mc2 : List Line := .misc (.bt .r9 62) :: .jump .carry "l1ml2m" :: .label "l1ml2n" :: (setTypeDest 0x80 ++ (LL ++ .ret :: .label "l1ml2m" :: mc1))
private def mc3 : List Line := setTypeDest 0x80 ++ (LL ++ .ret :: .label "l1ml2" :: mc2)
private def mc4 : List Line := .misc (.bt .r8 62) :: .jump .carry "l1ml2" :: .label "l1nl2" :: .misc (.bt .r9 62) :: .jump .carry "l1nl2m" ::
  .label "l1nl2n" :: (setTypeDest 0xC0 ++ (LL ++ (mulR3 ++ .ret :: .label "l1nl2m" :: mc3)))
private def mc5 : List Line := setTypeDest 0xC0 ++ (LL ++ .ret :: .label "l1l2" :: mc4)
private def mc6 : List Line := .misc (.bt .r9 62) :: .jump .carry "s1ml2m" :: .label "s1ml2n" :: (setTypeDest 0x80 ++ (LL ++ .ret :: .label "s1ml2m" :: mc5))
private def mc7 : List Line := setTypeDest 0x80 ++ (mulS1L2 "tmp7" "tmp8" ++ .ret :: .label "s1ml2" :: mc6)
private def mc8 : List Line := .misc (.bt .r8 62) :: .jump .carry "s1ml2" :: .label "s1nl2" :: .misc (.bt .r9 62) :: .jump .carry "s1nl2m" ::
  .label "s1nl2n" :: (setTypeDest 0xC0 ++ (mulS1L2 "tmp5" "tmp6" ++ (mulR3 ++ .ret :: .label "s1nl2m" :: mc7)))
private def mc9 : List Line := setTypeDest 0xC0 ++ (LL ++ .ret :: .label "s1l2" :: mc8)
private def mc10 : List Line := .misc (.bt .r9 62) :: .jump .carry "l1ms2m" :: .label "l1ms2n" ::
  (setTypeDest 0x80 ++ (mulL1S2 "tmp3" "tmp4" ++ .ret :: .label "l1ms2m" :: mc9))
private def mc11 : List Line := setTypeDest 0x80 ++ (LL ++ .ret :: .label "l1ms2" :: mc10)
private def mc12 : List Line := .misc (.bt .r9 63) :: .jump .carry "l1l2" :: .label "l1s2" :: .misc (.bt .r8 62) :: .jump .carry "l1ms2" ::
  .label "l1ns2" :: .misc (.bt .r9 62) :: .jump .carry "l1ns2m" ::
  .label "l1ns2n" :: (setTypeDest 0xC0 ++ (mulL1S2 "tmp1" "tmp2" ++ (mulR3 ++ .ret :: .label "l1ns2m" :: mc11)))
private def mc13 : List Line := .misc (.bt .r8 63) :: .jump .carry "l1" :: .misc (.bt .r9 63) :: .jump .carry "s1l2" :: .label "s1s2" ::
  (mulS1S2 ++ .ret :: .label "l1" :: mc12)

private theorem mulCode_eq : mulCode = [op .mov r8 (.mem .rsi 0), op .mov r9 (.mem .rdx 0)] ++ mc13 := by
  delta mulCode mc13 mc12 mc11 mc10 mc9 mc8 mc7 mc6 mc5 mc4 mc3 mc2 mc1
  simp only [List.append_assoc, List.cons_append, List.nil_append]

private theorem mc4_run (t : State) (ma mb : Bool) (h2 : (t.reg .r8).getLsbD 62 = ma) (h4 : (t.reg .r9).getLsbD 62 = mb) :
    ∃ t' rest, run env ra mc4 t = run env ra (mulCase true ma true mb ++ .ret :: rest) t' ∧ Same t t' := by
  rw [mc4]
  have e1 : dropTo "l1ml2" (.label "l1nl2" :: .misc (.bt .r9 62) :: .jump .carry "l1nl2m" ::
    .label "l1nl2n" :: (setTypeDest 0xC0 ++ (LL ++ (mulR3 ++ .ret :: .label "l1nl2m" :: mc3)))) = mc2 := rfl
  cases ma <;> cases mb
  · rw [run_bt_f h2, run_label, run_bt_f (t := Misc.exec (.bt .r8 62) t) h4, run_label]
    exact ⟨_, _, rfl, rfl, rfl, rfl⟩
  · rw [run_bt_f h2, run_label, run_bt_t (t := Misc.exec (.bt .r8 62) t) h4]
    exact ⟨_, _, rfl, rfl, rfl, rfl⟩
  · rw [run_bt_t h2, e1, mc2, run_bt_f (t := Misc.exec (.bt .r8 62) t) h4, run_label]
    exact ⟨_, _, rfl, rfl, rfl, rfl⟩
  · rw [run_bt_t h2, e1, mc2, run_bt_t (t := Misc.exec (.bt .r8 62) t) h4]
    exact ⟨_, _, rfl, rfl, rfl, rfl⟩

private theorem mc8_run (t : State) (ma mb : Bool) (h2 : (t.reg .r8).getLsbD 62 = ma) (h4 : (t.reg .r9).getLsbD 62 = mb) :
    ∃ t' rest, run env ra mc8 t = run env ra (mulCase false ma true mb ++ .ret :: rest) t' ∧ Same t t' := by
  rw [mc8]
  have e1 : dropTo "s1ml2" (.label "s1nl2" :: .misc (.bt .r9 62) :: .jump .carry "s1nl2m" ::
    .label "s1nl2n" :: (setTypeDest 0xC0 ++ (mulS1L2 "tmp5" "tmp6" ++ (mulR3 ++ .ret :: .label "s1nl2m" :: mc7)))) = mc6 := rfl
  cases ma <;> cases mb
  · rw [run_bt_f h2, run_label, run_bt_f (t := Misc.exec (.bt .r8 62) t) h4, run_label]
    exact ⟨_, _, rfl, rfl, rfl, rfl⟩
  · rw [run_bt_f h2, run_label, run_bt_t (t := Misc.exec (.bt .r8 62) t) h4]
    exact ⟨_, _, rfl, rfl, rfl, rfl⟩
  · rw [run_bt_t h2, e1, mc6, run_bt_f (t := Misc.exec (.bt .r8 62) t) h4, run_label]
    exact ⟨_, _, rfl, rfl, rfl, rfl⟩
  · rw [run_bt_t h2, e1, mc6, run_bt_t (t := Misc.exec (.bt .r8 62) t) h4]
    exact ⟨_, _, rfl, rfl, rfl, rfl⟩

private theorem mc12_run (t : State) (ma lb mb : Bool) (h2 : (t.reg .r8).getLsbD 62 = ma) (h3 : (t.reg .r9).getLsbD 63 = lb)
    (h4 : (t.reg .r9).getLsbD 62 = mb) :
    ∃ t' rest, run env ra mc12 t = run env ra (mulCase true ma lb mb ++ .ret :: rest) t' ∧ Same t t' := by
  rw [mc12]
  have e0 : dropTo "l1l2" (.label "l1s2" :: .misc (.bt .r8 62) :: .jump .carry "l1ms2" ::
    .label "l1ns2" :: .misc (.bt .r9 62) :: .jump .carry "l1ns2m" ::
    .label "l1ns2n" :: (setTypeDest 0xC0 ++ (mulL1S2 "tmp1" "tmp2" ++ (mulR3 ++ .ret :: .label "l1ns2m" :: mc11)))) = mc4 := rfl
  have e1 : dropTo "l1ms2" (.label "l1ns2" :: .misc (.bt .r9 62) :: .jump .carry "l1ns2m" ::
    .label "l1ns2n" :: (setTypeDest 0xC0 ++ (mulL1S2 "tmp1" "tmp2" ++ (mulR3 ++ .ret :: .label "l1ns2m" :: mc11)))) = mc10 := rfl
  cases lb
  · rw [run_bt_f h3, run_label]
    cases ma <;> cases mb
    · rw [run_bt_f (t := Misc.exec (.bt .r9 63) t) h2, run_label, run_bt_f (t := Misc.exec (.bt .r8 62) (Misc.exec (.bt .r9 63) t)) h4, run_label]
      exact ⟨_, _, rfl, rfl, rfl, rfl⟩
    · rw [run_bt_f (t := Misc.exec (.bt .r9 63) t) h2, run_label, run_bt_t (t := Misc.exec (.bt .r8 62) (Misc.exec (.bt .r9 63) t)) h4]
      exact ⟨_, _, rfl, rfl, rfl, rfl⟩
    · rw [run_bt_t (t := Misc.exec (.bt .r9 63) t) h2, e1, mc10, run_bt_f (t := Misc.exec (.bt .r8 62) (Misc.exec (.bt .r9 63) t)) h4, run_label]
      exact ⟨_, _, rfl, rfl, rfl, rfl⟩
    · rw [run_bt_t (t := Misc.exec (.bt .r9 63) t) h2, e1, mc10, run_bt_t (t := Misc.exec (.bt .r8 62) (Misc.exec (.bt .r9 63) t)) h4]
      exact ⟨_, _, rfl, rfl, rfl, rfl⟩
  · rw [run_bt_t h3, e0]
    exact mc4_run (Misc.exec (.bt .r9 63) t) ma mb h2 h4

private theorem mc13_run (t : State) (la ma lb mb : Bool) (h1 : (t.reg .r8).getLsbD 63 = la) (h2 : (t.reg .r8).getLsbD 62 = ma)
    (h3 : (t.reg .r9).getLsbD 63 = lb) (h4 : (t.reg .r9).getLsbD 62 = mb) :
    ∃ t' rest, run env ra mc13 t = run env ra (mulCase la ma lb mb ++ .ret :: rest) t' ∧ Same t t' := by
  rw [mc13]
  have e0 : dropTo "l1" (.misc (.bt .r9 63) :: .jump .carry "s1l2" :: .label "s1s2" :: (mulS1S2 ++ .ret :: .label "l1" :: mc12)) = mc12 := rfl
  have e1 : dropTo "s1l2" (.label "s1s2" :: (mulS1S2 ++ .ret :: .label "l1" :: mc12)) = mc8 := rfl
  cases la
  · rw [run_bt_f h1]
    cases lb
    · rw [run_bt_f (t := Misc.exec (.bt .r8 63) t) h3, run_label]
      exact ⟨_, _, rfl, rfl, rfl, rfl⟩
    · rw [run_bt_t (t := Misc.exec (.bt .r8 63) t) h3, e1]
      exact mc8_run (Misc.exec (.bt .r9 63) (Misc.exec (.bt .r8 63) t)) ma mb h2 h4
  · rw [run_bt_t h1, e0]
    exact mc12_run (Misc.exec (.bt .r8 63) t) ma lb mb h2 h3 h4

/-- The loads and the dispatch. -/
theorem mul_dispatch :
    ∃ t' rest, run env ra mulCode s = run env ra (mulCase (absMem (n64 q) s.mem (s.reg .rsi).toNat).long
        (absMem (n64 q) s.mem (s.reg .rsi).toNat).mont (absMem (n64 q) s.mem (s.reg .rdx).toNat).long
        (absMem (n64 q) s.mem (s.reg .rdx).toNat).mont ++ .ret :: rest) t' ∧ Up q F s t' (absMem (n64 q) s.mem) ∧
      t'.reg .rsi = s.reg .rsi ∧ t'.reg .rdx = s.reg .rdx ∧
      (t'.reg .r8).setWidth 32 = (absMem (n64 q) s.mem (s.reg .rsi).toNat).shortVal ∧
      (t'.reg .r9).setWidth 32 = (absMem (n64 q) s.mem (s.reg .rdx).toNat).shortVal := by
  obtain ⟨t1, ht1⟩ : ∃ t1, t1 = exes [op .mov r8 (.mem .rsi 0), op .mov r9 (.mem .rdx 0)] s := ⟨_, rfl⟩
  have m1 : Move s t1 := ht1 ▸ exes_move rfl
  have k1 : t1.reg .rdi = s.reg .rdi := by asm ht1
  have k2 : t1.reg .rsi = s.reg .rsi := by asm ht1
  have k3 : t1.reg .rdx = s.reg .rdx := by asm ht1
  have k4 : t1.reg .r8 = s.mem (s.reg .rsi) := by asm ht1
  have k5 : t1.reg .r9 = s.mem (s.reg .rdx) := by asm ht1
  obtain ⟨t', rest, e, hs1, hs2, hs3⟩ := mc13_run (env := env) (ra := ra) t1 _ _ _ _ rfl rfl rfl rfl
  rw [absMem_at, absMem_at]
  refine ⟨t', rest, ?_, ⟨?_, fun p hp => ?_⟩, by rw [hs2, k2], by rw [hs2, k3], by rw [hs2, k4]; rfl, by rw [hs2, k5]; rfl⟩
  · rw [mulCode_eq, run_exes _ rfl, ← ht1, e, k4, k5]; rfl
  · exact ⟨fun a _ _ => by rw [hs1, m1.mem], fun r hr => by rw [hs2, m1.saved r hr], by rw [hs2, k1], by rw [hs2, m1.rsp],
      hs3.trans m1.sym⟩
  · rw [hs1, m1.mem, absMem_at]

/-- `mulS1S2` and `squareS1` up to the call: whatever the test for overflow says, the product is stored in the long form. -/
theorem s1s2_core {w : Reg} {pre : List Line} {v : BitVec 64} (he : env "rawCopyS2L" = libRaw q ra "rawCopyS2L") (h : TArgs q (F + 1) t)
    (hF : callCells q ≤ F) (hpl : pre.all Line.plain = true) (hw : within free pre = true)
    (hd : ∀ t' : State, (exes pre t').reg .rdi = t'.reg .rdi)
    (hv : ∀ t' : State, t'.reg .r8 = t.reg .r8 → t'.reg .r9 = t.reg .r9 → (exes pre t').reg .rsi = v) (p : List Line) :
    ∃ t', run env ra ([op .xor rax rax, .misc (.op32 .mov .rax (.reg .r8)), .misc (.imul32 w)] ++ .jump .overflow "overflow" ::
        ([op .mov (.mem .rdi 0) rax] ++ .label "overflow" :: .push .rsi :: (pre ++ .call "rawCopyS2L" :: .pop .rsi :: p))) t = run env ra p t' ∧
      Called (F + 1) (t.reg .rdi) (n64 q + 1) t t' ∧ elemAt (n64 q) t'.mem (t.reg .rdi) = ⟨0, true, false, FF.rawCopyS2L q v⟩ := by
  obtain ⟨t1, ht1⟩ : ∃ t1, t1 = exes [op .xor rax rax, .misc (.op32 .mov .rax (.reg .r8)), .misc (.imul32 w)] t := ⟨_, rfl⟩
  have m1 : Move t t1 := ht1 ▸ exes_move rfl
  have d1 : t1.reg .rdi = t.reg .rdi := by asm ht1
  have d2 : t1.reg .r8 = t.reg .r8 := by asm ht1
  have d3 : t1.reg .r9 = t.reg .r9 := by asm ht1
  have h1 := h.move m1 d1
  have key : ∀ t2, Called (F + 1) (t1.reg .rdi) (n64 q + 1) t1 t2 → t2.reg .r8 = t.reg .r8 → t2.reg .r9 = t.reg .r9 →
      ∃ t', run env ra (.push .rsi :: (pre ++ .call "rawCopyS2L" :: .pop .rsi :: p)) t2 = run env ra p t' ∧
      Called (F + 1) (t.reg .rdi) (n64 q + 1) t t' ∧ elemAt (n64 q) t'.mem (t.reg .rdi) = ⟨0, true, false, FF.rawCopyS2L q v⟩ := by
    intro t2 c2 e1 e2
    obtain ⟨t3, e3, c3, o3⟩ := s2l_run (env := env) (ra := ra) (v := v) he (h1.called c2 le_rfl) hF hpl hw
      (by rw [hd, push_reg _ _ (by decide)]) (hv _ ((push_reg _ _ (by decide)).trans e1) ((push_reg _ _ (by decide)).trans e2))
    rw [c2.rdi, d1] at c3 o3
    rw [d1] at c2
    exact ⟨t3, e3 p, .move m1 (c2.trans c3) d1, o3⟩
  rw [run_exes _ rfl, ← ht1, run_jump]
  split
  · show ∃ t', run env ra (.push .rsi :: (pre ++ .call "rawCopyS2L" :: .pop .rsi :: p)) t1 = _ ∧ _
    exact key t1 ⟨fun _ _ _ => rfl, fun _ _ => rfl, rfl, rfl, rfl⟩ d2 d3
  · obtain ⟨t2, ht2⟩ : ∃ t2, t2 = exes [op .mov (.mem .rdi 0) rax] t1 := ⟨_, rfl⟩
    obtain ⟨c2, _⟩ := store_tag (v := t1.reg .rax) h1 (t' := t2) (by asm ht2) (by asm ht2) (by asm ht2)
    rw [run_exes _ rfl, ← ht2, run_label]
    exact key t2 c2 (by rw [← d2]; asm ht2) (by rw [← d3]; asm ht2)

theorem up_s1s2 (he : env "rawCopyS2L" = libRaw q ra "rawCopyS2L") (h : TArgs q (F + 1) s) (hF : callCells q ≤ F)
    (ht : Up q (F + 1) s t m) {x y : BitVec 32} (hx : (t.reg .r8).setWidth 32 = x) (hy : (t.reg .r9).setWidth 32 = y) (p : List Line) :
    ∃ t', run env ra (mulS1S2 ++ p) t = run env ra p t' ∧
      Up q (F + 1) s t' (m.set (s.reg .rdi).toNat ⟨0, true, false, FF.rawCopyS2L q (sx x * sx y)⟩) := by
  obtain ⟨t', e, c, o⟩ := s1s2_core (env := env) (ra := ra) (w := .r9) (v := sx x * sx y)
    (pre := [.misc (.movsx .rax .r8), .misc (.movsx .rcx .r9), .misc (.imul64 .rcx), op .mov rsi rax]) he (h.called ht.c le_rfl) hF rfl rfl
    (fun t' => by asm (rfl : exes _ t' = exes _ t')) (fun t' h8 h9 => by
      rw [← imul_low]
      asm (rfl : exes _ t' = exes _ t')
      rw [h8, h9, hx, hy]; rfl) p
  exact ⟨t', e, up_next ht c o⟩

theorem up_sqS1 (he : env "rawCopyS2L" = libRaw q ra "rawCopyS2L") (h : TArgs q (F + 1) s) (hF : callCells q ≤ F)
    (ht : Up q (F + 1) s t m) {x : BitVec 32} (hx : (t.reg .r8).setWidth 32 = x) (p : List Line) :
    ∃ t', run env ra (squareS1 ++ p) t = run env ra p t' ∧
      Up q (F + 1) s t' (m.set (s.reg .rdi).toNat ⟨0, true, false, FF.rawCopyS2L q (sx x * sx x)⟩) := by
  obtain ⟨t', e, c, o⟩ := s1s2_core (env := env) (ra := ra) (w := .rax) (v := sx x * sx x)
    (pre := [.misc (.movsx .rax .r8), .misc (.imul64 .rax), op .mov rsi rax]) he (h.called ht.c le_rfl) hF rfl rfl
    (fun t' => by asm (rfl : exes _ t' = exes _ t')) (fun t' h8 h9 => by
      rw [← imul_low]
      asm (rfl : exes _ t' = exes _ t')
      rw [h8, hx]; rfl) p
  exact ⟨t', e, up_next ht c o⟩

end mul

end FF.X86
