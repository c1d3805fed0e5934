import Verif.AsmTagRun

/-!
# The conversions of the generated assembly
-/

namespace FF.X86

/-- What the caller of a tagged routine finds: the result element, every cell outside it and outside `F` stack cells as it
was, the callee-saved registers and the result pointer kept. -/
structure TRet (q F : Nat) (s s' : State) (E : Elem) : Prop where
  elem : elemAt (n64 q) s'.mem (s.reg .rdi) = E
  frame : ∀ a, ¬ InStk (s.reg .rsp) F a → ¬ InArr (s.reg .rdi) (n64 q + 1) a → s'.mem a = s.mem a
  saved : ∀ r ∈ Props.calleeSaved, s'.reg r = s.reg r
  rdi : s'.reg .rdi = s.reg .rdi
  rsp : s'.reg .rsp = s.reg .rsp + 8
  sym : s'.sym = s.sym

section conv

variable {q F : Nat} {ra : BitVec 64} {s t : State} {env : String → Option (State → Option State)}

theorem ret_of {p : List Line} {E : Elem} (h : Called F (s.reg .rdi) (n64 q + 1) s t)
    (he : elemAt (n64 q) t.mem (s.reg .rdi) = E) : ∃ s', run env ra (.ret :: p) t = some s' ∧ TRet q F s s' E := by
  refine ⟨_, run_ret _ _ _ _, he, h.frame, fun r hr => ?_, ?_, ?_, h.sym⟩
  · rw [← h.saved r hr]
    show upd t.reg .rsp _ r = _
    rw [upd_ne]
    rintro rfl; exact absurd hr (by decide)
  · rw [← h.rdi]; rfl
  · rw [← h.rsp]; exact upd_same t.reg .rsp _

theorem called_of {f : String} {g : State → Option State} {E : Elem} {s' : State} (he : env f = some g)
    (hg : g (pushVal ra t) = some s') (h : TRet q F (pushVal ra t) s' E) :
    (∀ p, run env ra (.call f :: p) t = run env ra p s') ∧ Called (F + 1) (t.reg .rdi) (n64 q + 1) t s' ∧
      elemAt (n64 q) s'.mem (t.reg .rdi) = E := by
  refine ⟨run_call he hg, .of (fun a h1 h2 => h.frame a (stackFree_iff.1 h1) ?_) h.saved h.rdi h.rsp h.sym, ?_⟩
  · rintro ⟨i, hi, e⟩; exact h2 i hi e
  · rw [← h.elem, push_reg _ _ (by decide)]

theorem TArgs.push (h : TArgs q (F + 1) t) (hb : callCells q ≤ F) (v : BitVec 64) : TArgs q F (pushVal v t) :=
  ⟨h.ok.push v, hb, by rw [push_reg _ _ (by decide)]; exact h.dst.push v⟩
theorem TOpnd.push {p : BitVec 64} (h : TOpnd q (F + 1) t p) (v : BitVec 64) : TOpnd q F (pushVal v t) p :=
  ⟨by rw [push_reg _ _ (by decide)]; exact h.ali, h.off.push v⟩

theorem TArgs.move (h : TArgs q F s) (hm : Move s t) (hd : t.reg .rdi = s.reg .rdi) : TArgs q F t :=
  ⟨h.ok.move hm, h.big, by rw [hd]; exact h.dst.move hm⟩
theorem TOpnd.move {p : BitVec 64} (h : TOpnd q F s p) (hm : Move s t) (hd : t.reg .rdi = s.reg .rdi) : TOpnd q F t p :=
  ⟨by rw [hd]; exact h.ali, h.off.move hm⟩
theorem TArgs.called {m : Nat} (h : TArgs q F s) (hc : Called F (s.reg .rdi) m s t) (hm : m ≤ n64 q + 1) : TArgs q F t :=
  ⟨h.ok.called hc le_rfl fun a ha => h.dst.data a (ha.mono hm), h.big, by rw [hc.rdi]; exact h.dst.called hc⟩
theorem TOpnd.called {p : BitVec 64} {m : Nat} (h : TOpnd q F s p) (hc : Called F (s.reg .rdi) m s t) : TOpnd q F t p :=
  ⟨by rw [hc.rdi]; exact h.ali, h.off.called hc⟩

theorem Called.move {p : BitVec 64} {m : Nat} {t1 t2 : State} (h : Move t t1) (hc : Called F p m t1 t2)
    (hd : t1.reg .rdi = t.reg .rdi) : Called F p m t t2 :=
  .through h hc ⟨rfl, rfl, rfl, fun _ _ => rfl⟩ (fun _ h => h) (hc.rdi.trans hd)
theorem Called.then_move {p : BitVec 64} {m : Nat} {t1 t2 : State} (hc : Called F p m t t1) (h : Move t1 t2)
    (hd : t2.reg .rdi = t1.reg .rdi) : Called F p m t t2 :=
  .through ⟨rfl, rfl, rfl, fun _ _ => rfl⟩ hc h (fun _ h => h) (hd.trans hc.rdi)

theorem rd_getElem (m : BitVec 64 → BitVec 64) (a : BitVec 64) (n i : Nat) (h : i < (rd m a n).length) :
    (rd m a n)[i] = m (cell a i) := by simp [rd]

theorem rd_get_eq {m m' : BitVec 64 → BitVec 64} {a b : BitVec 64} {n i : Nat} (h : rd m a n = rd m' b n) (hi : i < n) :
    m (cell a i) = m' (cell b i) := by
  have h1 : i < (rd m a n).length := by rw [rd_length]; exact hi
  have h2 : i < (rd m' b n).length := by rw [rd_length]; exact hi
  rw [← rd_getElem m a n i h1, ← rd_getElem m' b n i h2]
  simp only [h]

theorem TRet.move {s' : State} {E : Elem} (h : TRet q F t s' E) (hm : Move s t) (hd : t.reg .rdi = s.reg .rdi) : TRet q F s s' E :=
  ⟨by rw [← hd]; exact h.elem, fun a ha hb => by rw [h.frame a (by rw [hm.rsp]; exact ha) (by rw [hd]; exact hb), hm.mem],
    fun r hr => by rw [h.saved r hr, hm.saved r hr], h.rdi.trans hd, by rw [h.rsp, hm.rsp], by rw [h.sym, hm.sym]⟩

/-- The whole element copied. -/
theorem copy_elem (he : env "copy" = libRaw q ra "copy") (h : TArgs q F t) (ha : TOpnd q F t (t.reg .rsi)) :
    ∃ t', (∀ p, run env ra (.call "copy" :: p) t = run env ra p t') ∧ Called F (t.reg .rdi) (n64 q + 1) t t' ∧
      elemAt (n64 q) t'.mem (t.reg .rdi) = elemAt (n64 q) t.mem (t.reg .rsi) := by
  obtain ⟨t', h1, h2, h3⟩ := call_copy he h.ok (by have := h.big; unfold callCells at this; omega) ha.ali ha.off
  refine ⟨t', h1, h2, ?_⟩
  have hc : ∀ i, i < n64 q + 1 → t'.mem (cell (t.reg .rdi) i) = t.mem (cell (t.reg .rsi) i) := fun i hi => rd_get_eq h3 hi
  have h0 := hc 0 (by omega)
  rw [cell_zero, cell_zero] at h0
  have h4 : rd t'.mem (cell (t.reg .rdi) 1) (n64 q) = rd t.mem (cell (t.reg .rsi) 1) (n64 q) := by
    apply List.ext_getElem (by simp [rd_length])
    intro i h1 h2
    rw [rd_length] at h1
    rw [rd_getElem, rd_getElem, cell_add, cell_add]
    exact hc _ (by omega)
  simp only [elemAt, h0, h4]

/-- `setTypeDest` on the result element. -/
theorem setType_elem (ty : BitVec 8) (h : TArgs q F t) :
    ∃ t', (∀ p, run env ra (setTypeDest ty ++ p) t = run env ra p t') ∧ Called F (t.reg .rdi) (n64 q + 1) t t' ∧
      Regs [.r11] t t' ∧ elemAt (n64 q) t'.mem (t.reg .rdi) =
        { elemAt (n64 q) t.mem (t.reg .rdi) with long := ty.getLsbD 7, mont := ty.getLsbD 6 } := by
  obtain ⟨t', h1, h2, h3, h4⟩ := setType_run (env := env) (ra := ra) (t := t) (n := n64 q) ty h.small
  exact ⟨t', h1, h2.mono (Nat.zero_le _) le_rfl, h3, h4⟩

/-- The tail of a conversion out of Montgomery form. -/
theorem fromMont_run (he : env "rawFromMontgomery" = libRaw q ra "rawFromMontgomery") (hq : q % 2 = 1)
    (h7' : n64 q ≠ 7) (h : TArgs q F s) (ha : TOpnd q F s (s.reg .rsi))
    (p : List Line) :
    ∃ s', run env ra (fromMontLines ++ p) s = some s' ∧ TRet q F s s' { elemAt (n64 q) s.mem (s.reg .rdi) with
      long := true, mont := false, longVal := FF.rawFromMontgomery q (elemAt (n64 q) s.mem (s.reg .rsi)).longVal } := by
  obtain ⟨t1, ht1⟩ : ∃ t1, t1 = exes [op .add rdi (.imm 8), op .add rsi (.imm 8)] s := ⟨_, rfl⟩
  have d1 : t1.reg .rdi = cell (s.reg .rdi) 1 := by asm ht1; rfl
  have d2 : t1.reg .rsi = cell (s.reg .rsi) 1 := by asm ht1; rfl
  have m1 : Move s t1 := ht1 ▸ exes_move rfl
  obtain ⟨t2, e2, c2, o2⟩ := call_rawFromMontgomery he hq h7' (h.args m1 d1) (by rw [d2]; exact ha.off.tail.move m1)
  obtain ⟨t3, ht3⟩ : ∃ t3, t3 = exes [op .sub rsi (.imm 8), op .sub rdi (.imm 8)] t2 := ⟨_, rfl⟩
  have d4 : t3.reg .rdi = t2.reg .rdi - 8 := by asm ht3
  have m3 : Move t2 t3 := ht3 ▸ exes_move rfl
  obtain ⟨c3, o3⟩ := wrap h m1 d1 c2 m3 (by rw [d4, c2.rdi, d1, cell_one_sub]) o2
  obtain ⟨t4, e4, c4, _, o4⟩ := setType_elem (env := env) (ra := ra) 0x80 (h.called c3 le_rfl)
  rw [c3.rdi] at c4 o4
  obtain ⟨s', e5, o5⟩ := ret_of (env := env) (ra := ra) (p := p) (c3.trans c4) rfl
  refine ⟨s', ?_, ?_⟩
  · rw [← e5, ← e4]
    show run env ra ([op .add rdi (.imm 8), op .add rsi (.imm 8)] ++ .call "rawFromMontgomery" ::
      ([op .sub rsi (.imm 8), op .sub rdi (.imm 8)] ++ (setTypeDest 0x80 ++ .ret :: p))) s = _
    rw [run_exes _ rfl, ← ht1, e2, run_exes _ rfl, ← ht3]
  · rw [o4, o3, d2, m1.mem] at o5
    exact o5

/-- The conversion out of Montgomery form, which C55 has for all moduli but those of seven limbs, is right or not needed. -/
def FromOk (q : Nat) (e : Elem) : Prop := e.long = true → e.mont = true → n64 q ≠ 7

theorem FromOk.of_ne (h : n64 q ≠ 7) (e : Elem) : FromOk q e := fun _ _ => h

theorem FromOk.short {e : Elem} (h : e.long = false) : FromOk q e := fun h' _ => by rw [h] at h'; exact absurd h' (by decide)

theorem FromOk.normal {e : Elem} (h : e.mont = false) : FromOk q e := fun _ h' => by rw [h] at h'; exact absurd h' (by decide)

theorem FromOk.setTy {m : Mem} {r p : Nat} (h : FromOk q (m p)) : FromOk q (m.setTy r true false p) := by
  by_cases e : p = r
  · subst e; exact .normal (by rw [Mem.setTy, Mem.set, if_pos rfl])
  · rw [Mem.setTy, Mem.set, if_neg e]; exact h

/-- `toNormal`. -/
theorem toNormal_run (hq : q % 2 = 1) (h7' : FromOk q (elemAt (n64 q) s.mem (s.reg .rsi)))
    (h : TArgs q F s) (ha : TOpnd q F s (s.reg .rsi)) :
    ∃ s', run (libRaw q ra) ra toNormal s = some s' ∧
      TRet q F s s' (toNormalInto q (elemAt (n64 q) s.mem (s.reg .rdi)) (elemAt (n64 q) s.mem (s.reg .rsi))) := by
  obtain ⟨t1, ht1⟩ : ∃ t1, t1 = exes [op .mov rax (.mem .rsi 0), .misc (.bt .rax 62)] s := ⟨_, rfl⟩
  have m1 : Move s t1 := ht1 ▸ exes_move rfl
  have d1 : t1.reg .rdi = s.reg .rdi := by asm ht1
  have d2 : t1.reg .rsi = s.reg .rsi := by asm ht1
  have f1 : t1.fl.cf = (elemAt (n64 q) s.mem (s.reg .rsi)).mont := by asm ht1; rfl
  obtain ⟨t2, ht2⟩ : ∃ t2, t2 = exes [.misc (.bt .rax 63)] t1 := ⟨_, rfl⟩
  have m2 : Move s t2 := by
    have : Move t1 t2 := ht2 ▸ exes_move rfl
    exact ⟨this.mem.trans m1.mem, this.sym.trans m1.sym, this.rsp.trans m1.rsp, fun r hr => (this.saved r hr).trans (m1.saved r hr)⟩
  have d3 : t2.reg .rdi = s.reg .rdi := by asm ht2; exact d1
  have d4 : t2.reg .rsi = s.reg .rsi := by asm ht2; exact d2
  have f2 : t2.fl.cf = (elemAt (n64 q) s.mem (s.reg .rsi)).long := by asm ht2; asm ht1; rfl
  have e : run (libRaw q ra) ra toNormal s =
      if (elemAt (n64 q) s.mem (s.reg .rsi)).mont then
        if (elemAt (n64 q) s.mem (s.reg .rsi)).long then
          run (libRaw q ra) ra (fromMontLines ++ [.label "doNothing", .call "copy", .ret]) t2
        else run (libRaw q ra) ra [.call "copy", .ret] t2
      else run (libRaw q ra) ra [.call "copy", .ret] t1 := by
    show run (libRaw q ra) ra ([op .mov rax (.mem .rsi 0), .misc (.bt .rax 62)] ++ .jump .ncarry "doNothing" ::
      ([.misc (.bt .rax 63)] ++ .jump .ncarry "doNothing" :: (fromMontLines ++ [.label "doNothing", .call "copy", .ret]))) s = _
    rw [run_exes _ rfl, ← ht1, run_jump, Cond.holds, f1, run_exes _ rfl, ← ht2, run_jump, Cond.holds, f2]
    cases (elemAt (n64 q) s.mem (s.reg .rsi)).mont <;> cases (elemAt (n64 q) s.mem (s.reg .rsi)).long <;> rfl
  have hcopy : ∀ t, Move s t → t.reg .rdi = s.reg .rdi → t.reg .rsi = s.reg .rsi →
      ∃ s', run (libRaw q ra) ra [.call "copy", .ret] t = some s' ∧ TRet q F s s' (elemAt (n64 q) s.mem (s.reg .rsi)) := by
    intro t hm hdi hsi
    obtain ⟨t', c1, c2, c3⟩ := copy_elem (env := libRaw q ra) (ra := ra) rfl (h.move hm hdi) (by rw [hsi]; exact ha.move hm hdi)
    rw [hdi] at c2 c3
    rw [c1]
    exact ret_of (.move hm c2 hdi) (by rw [c3, hsi, hm.mem])
  rw [e, toNormalInto]
  cases hmo : (elemAt (n64 q) s.mem (s.reg .rsi)).mont
  · simp only [Bool.and_false, Bool.false_eq_true, if_false]
    exact hcopy t1 m1 d1 d2
  · cases hlo : (elemAt (n64 q) s.mem (s.reg .rsi)).long
    · simp only [Bool.and_true, Bool.false_eq_true, if_false, if_true]
      exact hcopy t2 m2 d3 d4
    · simp only [Bool.and_true, if_true]
      obtain ⟨s', r1, r2⟩ := fromMont_run (env := libRaw q ra) (ra := ra) rfl hq (h7' hlo hmo) (h.move m2 d3)
        (by rw [d4]; exact ha.move m2 d3) [.label "doNothing", .call "copy", .ret]
      refine ⟨s', r1, ?_⟩
      rw [d3, d4, m2.mem] at r2
      exact TRet.move r2 m2 d3

theorem Move.trans {t1 t2 : State} (h1 : Move t t1) (h2 : Move t1 t2) : Move t t2 :=
  ⟨h2.mem.trans h1.mem, h2.sym.trans h1.sym, h2.rsp.trans h1.rsp, fun r hr => (h2.saved r hr).trans (h1.saved r hr)⟩

theorem copy_ret (he : env "copy" = libRaw q ra "copy") (h : TArgs q F s) (ha : TOpnd q F s (s.reg .rsi)) (hm : Move s t)
    (hdi : t.reg .rdi = s.reg .rdi) (hsi : t.reg .rsi = s.reg .rsi) (p : List Line) :
    ∃ s', run env ra (.call "copy" :: .ret :: p) t = some s' ∧ TRet q F s s' (elemAt (n64 q) s.mem (s.reg .rsi)) := by
  obtain ⟨t', c1, c2, c3⟩ := copy_elem (env := env) (ra := ra) he (h.move hm hdi) (by rw [hsi]; exact ha.move hm hdi)
  rw [hdi] at c2 c3
  rw [c1]
  exact ret_of (.move hm c2 hdi) (by rw [c3, hsi, hm.mem])

/-- The tag cell of the result element overwritten. -/
theorem store_tag (h : TArgs q F t) {t' : State} {v : BitVec 64} (hm : t'.mem = upd t.mem (t.reg .rdi) v) (hr : t'.reg = t.reg)
    (hs : t'.sym = t.sym) : Called F (t.reg .rdi) (n64 q + 1) t t' ∧ elemAt (n64 q) t'.mem (t.reg .rdi) =
      ⟨v.setWidth 32, v.getLsbD 63, v.getLsbD 62, (elemAt (n64 q) t.mem (t.reg .rdi)).longVal⟩ := by
  refine ⟨⟨fun a _ ha => ?_, fun r _ => by rw [hr], by rw [hr], by rw [hr], hs⟩, ?_⟩
  · rw [hm, upd_ne]
    exact fun e => ha ⟨0, by omega, by rw [e, cell_zero]⟩
  · have h1 : rd t'.mem (cell (t.reg .rdi) 1) (n64 q) = rd t.mem (cell (t.reg .rdi) 1) (n64 q) := by
      refine rd_congr fun i hi => ?_
      rw [hm, upd_ne]
      rw [cell_add]
      intro e
      have := h.small
      have := cell_inj (i := 1 + i) (j := 0) (by omega) (by omega) (e.trans (cell_zero _).symm)
      omega
    have h0 : t'.mem (t.reg .rdi) = v := by rw [hm, upd_same]
    simp only [elemAt, h1, h0]

/-- An element and the limbs of an operand after the tag cell was overwritten. -/
theorem longVal_called {t' : State} {p : BitVec 64} (h : TOpnd q F t p) (hc : Called F (t.reg .rdi) (n64 q + 1) t t')
    (hl : (elemAt (n64 q) t'.mem (t.reg .rdi)).longVal = (elemAt (n64 q) t.mem (t.reg .rdi)).longVal) :
    (elemAt (n64 q) t'.mem p).longVal = (elemAt (n64 q) t.mem p).longVal := by
  rcases h.ali with rfl | hs
  · exact hl
  · rw [elemAt_called hc hs h.off]

/-- `toLongNormal`. -/
theorem toLongNormal_run (hq : q % 2 = 1) (h7' : FromOk q (elemAt (n64 q) s.mem (s.reg .rsi)))
    (h : TArgs q F s) (ha : TOpnd q F s (s.reg .rsi)) :
    ∃ s', run (libRaw q ra) ra toLongNormal s = some s' ∧
      TRet q F s s' (toLongNormalInto q (elemAt (n64 q) s.mem (s.reg .rdi)) (elemAt (n64 q) s.mem (s.reg .rsi))) := by
  obtain ⟨t1, ht1⟩ : ∃ t1, t1 = exes [op .mov rax (.mem .rsi 0), .misc (.bt .rax 63)] s := ⟨_, rfl⟩
  have m1 : Move s t1 := ht1 ▸ exes_move rfl
  have d1 : t1.reg .rdi = s.reg .rdi := by asm ht1
  have d2 : t1.reg .rsi = s.reg .rsi := by asm ht1
  have d3 : t1.reg .rax = s.mem (s.reg .rsi) := by asm ht1
  have f1 : t1.fl.cf = (elemAt (n64 q) s.mem (s.reg .rsi)).long := by asm ht1; rfl
  obtain ⟨t2, ht2⟩ : ∃ t2, t2 = exes [.misc (.bt .rax 62)] t1 := ⟨_, rfl⟩
  have m2 : Move s t2 := m1.trans (ht2 ▸ exes_move rfl)
  have d4 : t2.reg .rdi = s.reg .rdi := by asm ht2; exact d1
  have d5 : t2.reg .rsi = s.reg .rsi := by asm ht2; exact d2
  have f2 : t2.fl.cf = (elemAt (n64 q) s.mem (s.reg .rsi)).mont := by asm ht2; asm ht1; rfl
  have e : run (libRaw q ra) ra toLongNormal s =
      if (elemAt (n64 q) s.mem (s.reg .rsi)).long then
        if (elemAt (n64 q) s.mem (s.reg .rsi)).mont then
          run (libRaw q ra) ra (fromMontLines ++ [.label "fromShort", op .mov r8 rsi,
            .misc (.movsx .rsi .rax), .call "rawCopyS2L", op .mov rsi r8] ++ setTypeDest 0x80 ++ [.ret]) t2
        else run (libRaw q ra) ra (.call "copy" :: .ret :: (.label "fromMontgomery" :: fromMontLines ++
          [.label "fromShort", op .mov r8 rsi, .misc (.movsx .rsi .rax), .call "rawCopyS2L", op .mov rsi r8] ++
            setTypeDest 0x80 ++ [.ret])) t2
      else run (libRaw q ra) ra ([op .mov r8 rsi, .misc (.movsx .rsi .rax)] ++ .call "rawCopyS2L" :: ([op .mov rsi r8] ++
        (setTypeDest 0x80 ++ [.ret]))) t1 := by
    show run (libRaw q ra) ra ([op .mov rax (.mem .rsi 0), .misc (.bt .rax 63)] ++ .jump .ncarry "fromShort" ::
      ([.misc (.bt .rax 62)] ++ .jump .carry "fromMontgomery" :: .call "copy" :: .ret :: .label "fromMontgomery" ::
      (fromMontLines ++ .label "fromShort" :: ([op .mov r8 rsi, .misc (.movsx .rsi .rax)] ++ .call "rawCopyS2L" ::
        ([op .mov rsi r8] ++ (setTypeDest 0x80 ++ [.ret])))))) s = _
    rw [run_exes _ rfl, ← ht1, run_jump, Cond.holds, f1, run_exes _ rfl, ← ht2, run_jump, Cond.holds, f2]
    cases (elemAt (n64 q) s.mem (s.reg .rsi)).mont <;> cases (elemAt (n64 q) s.mem (s.reg .rsi)).long <;> rfl
  rw [e, toLongNormalInto]
  cases hlo : (elemAt (n64 q) s.mem (s.reg .rsi)).long
  · simp only [Bool.false_eq_true, if_false]
    obtain ⟨t3, ht3⟩ : ∃ t3, t3 = exes [op .mov r8 rsi, .misc (.movsx .rsi .rax)] t1 := ⟨_, rfl⟩
    have m3 : Move s t3 := m1.trans (ht3 ▸ exes_move rfl)
    have d6 : t3.reg .rdi = s.reg .rdi := by asm ht3; exact d1
    have d7 : t3.reg .rsi = sx (elemAt (n64 q) s.mem (s.reg .rsi)).shortVal := by asm ht3; rw [d3]; rfl
    have h3 := h.move m3 d6
    obtain ⟨t4, e4, c4, o4, o4', _⟩ := call_rawCopyS2L (env := libRaw q ra) (ra := ra) rfl h3.ok
      (by have := h3.big; unfold callCells at this; omega) h3.dst
    obtain ⟨t5, ht5⟩ : ∃ t5, t5 = exes [op .mov rsi r8] t4 := ⟨_, rfl⟩
    have m5 : Move t4 t5 := ht5 ▸ exes_move rfl
    have d8 : t5.reg .rdi = t4.reg .rdi := by asm ht5
    have c5 := c4.then_move m5 d8
    obtain ⟨t6, e6, c6, _, o6⟩ := setType_elem (env := libRaw q ra) (ra := ra) 0x80 (h3.called c5 le_rfl)
    rw [c5.rdi] at c6 o6
    have c7 := c5.trans c6
    rw [d6] at c7 o6 o4 o4'
    obtain ⟨s', e7, o7⟩ := ret_of (env := libRaw q ra) (ra := ra) (p := []) (.move m3 c7 d6) rfl
    refine ⟨s', ?_, ?_⟩
    · rw [run_exes _ rfl, ← ht3, e4, run_exes _ rfl, ← ht5, e6, e7]
    · rw [o6, elemAt, m5.mem, o4, o4', d7] at o7
      exact o7
  · simp only [if_true]
    cases hmo : (elemAt (n64 q) s.mem (s.reg .rsi)).mont
    · simp only [Bool.false_eq_true, if_false]
      exact copy_ret rfl h ha m2 d4 d5 _
    · simp only [if_true]
      rw [List.append_assoc, List.append_assoc]
      obtain ⟨s', r1, r2⟩ := fromMont_run (env := libRaw q ra) (ra := ra) rfl hq (h7' hlo hmo) (h.move m2 d4)
        (by rw [d5]; exact ha.move m2 d4) _
      refine ⟨s', r1, ?_⟩
      rw [d4, d5, m2.mem] at r2
      exact TRet.move r2 m2 d4

/-- What the assembly's `toMontgomery` computes: as `toMontgomeryInto`, but the small value is copied as well. -/
def toMontAsm (q : Nat) (a : Elem) : Elem :=
  if a.mont then a
  else if a.long then ⟨a.shortVal, true, true, FF.rawMMul q a.longVal (rawR2 q)⟩
  else ⟨a.shortVal, false, true, if a.shortVal.toInt < 0 then rawNeg q (FF.rawMMul1 q (rawR2 q) (-(sx a.shortVal)))
    else FF.rawMMul1 q (rawR2 q) (sx a.shortVal)⟩

theorem toMontAsm_eq (q : Nat) (r a : Elem) : toMontAsm q a = { toMontgomeryInto q r a with shortVal := a.shortVal } := by
  unfold toMontAsm toMontgomeryInto
  split
  · rfl
  · split
    · rfl
    · split <;> rfl

theorem sx_msb (v : BitVec 32) : (sx v).msb = decide (v.toInt < 0) := by
  rw [msb_toInt, sx, BitVec.toInt_signExtend_of_le (by decide)]

theorem sx_low (v : BitVec 32) : (sx v).setWidth 32 = v := by
  unfold sx
  apply BitVec.eq_of_getLsbD_eq
  intro i hi
  rw [BitVec.getLsbD_setWidth, BitVec.getLsbD_signExtend]
  simp [hi, show i < 64 by omega]

theorem rawR2_lt {q : Nat} (h : 0 < q) : val (rawR2 q) < q := by rw [rawR2_val h]; exact Nat.mod_lt _ h
theorem rawR3_lt {q : Nat} (h : 0 < q) : val (rawR3 q) < q := by rw [rawR3_val h]; exact Nat.mod_lt _ h

theorem hR2 (h : Ok q F t) : Off F t (t.sym .r2) (n64 q) ∧ rd t.mem (t.sym .r2) (n64 q) = rawR2 q :=
  ⟨fun a ha => h.off a (.inr (.inr (.inl ha))), h.data.r2⟩

/-- The long case: from the label `long` on. -/
theorem toMont_long (he : env "rawMMul" = libRaw q ra "rawMMul") (hq : q % 2 = 1) (h : TArgs q F s)
    (ha : TOpnd q F s (s.reg .rsi)) (hax : s.reg .rax = s.mem (s.reg .rsi)) (p : List Line) :
    ∃ s', run env ra ([op .mov (.mem .rdi 0) rax] ++ ([op .add rdi (.imm 8), op .add rsi (.imm 8), .lea .rdx .r2] ++
        .call "rawMMul" :: ([op .sub rsi (.imm 8), op .sub rdi (.imm 8)] ++ (setTypeDest 0xC0 ++ .ret :: p)))) s = some s' ∧
      TRet q F s s' ⟨(elemAt (n64 q) s.mem (s.reg .rsi)).shortVal, true, true,
        FF.rawMMul q (elemAt (n64 q) s.mem (s.reg .rsi)).longVal (rawR2 q)⟩ := by
  have hq0 : 0 < q := by omega
  obtain ⟨u3, hu3⟩ : ∃ u3, u3 = exes [op .mov (.mem .rdi 0) rax] s := ⟨_, rfl⟩
  obtain ⟨c3, o3⟩ := store_tag (v := s.reg .rax) h (t' := u3) (by asm hu3) (by asm hu3) (by asm hu3)
  have h4 := h.called c3 le_rfl
  have a4 := ha.called c3
  have v3 : u3.reg .rsi = s.reg .rsi := by asm hu3
  obtain ⟨u4, hu4⟩ : ∃ u4, u4 = exes [op .add rdi (.imm 8), op .add rsi (.imm 8), .lea .rdx .r2] u3 := ⟨_, rfl⟩
  have mu4 : Move u3 u4 := hu4 ▸ exes_move rfl
  have v4 : u4.reg .rdi = cell (u3.reg .rdi) 1 := by asm hu4; rfl
  have v5 : u4.reg .rsi = cell (u3.reg .rsi) 1 := by asm hu4; rfl
  have v6 : u4.reg .rdx = u4.sym .r2 := by asm hu4
  rw [v3] at v5
  have hR := hR2 (h4.ok.move mu4)
  obtain ⟨u5, e5, c5, o5⟩ := call_rawMMul (env := env) (ra := ra) he hq (h4.args mu4 v4)
    (by rw [v5]; exact a4.off.tail.move mu4) (by rw [v6]; exact hR.1) (by rw [v6, hR.2]; exact rawR2_lt hq0)
  rw [v6, hR.2, v5, mu4.mem] at o5
  obtain ⟨u6, hu6⟩ : ∃ u6, u6 = exes [op .sub rsi (.imm 8), op .sub rdi (.imm 8)] u5 := ⟨_, rfl⟩
  have v7 : u6.reg .rdi = u5.reg .rdi - 8 := by asm hu6
  have mu6 : Move u5 u6 := hu6 ▸ exes_move rfl
  obtain ⟨c6, o6⟩ := wrap h4 mu4 v4 c5 mu6 (by rw [v7, c5.rdi, v4, cell_one_sub]) o5
  obtain ⟨u7, e7, c7, _, o7⟩ := setType_elem (env := env) (ra := ra) 0xC0 (h4.called c6 le_rfl)
  rw [c6.rdi, c3.rdi] at c7 o7
  rw [c3.rdi] at c6 o6
  have hv : rd u3.mem (cell (s.reg .rsi) 1) (n64 q) = rd s.mem (cell (s.reg .rsi) 1) (n64 q) :=
    longVal_called ha c3 (by rw [o3])
  obtain ⟨s', e8, o8⟩ := ret_of (env := env) (ra := ra) (p := p) ((c3.trans c6).trans c7) rfl
  refine ⟨s', ?_, ?_⟩
  · rw [run_exes _ rfl, ← hu3, run_exes _ rfl, ← hu4, e5, run_exes _ rfl, ← hu6, e7, e8]
  · rw [o7, o6, o3, hv, hax] at o8
    exact o8

/-- The words the short case multiplies by. -/
theorem sx_neg_le {v : BitVec 32} (h : v.toInt < 0) : (-(sx v)).toNat ≤ 2 ^ 31 := by
  have h1 := neg_sx_toNat_of_neg h
  have h2 := short_bounds v
  omega

theorem sx_pos_le {v : BitVec 32} (h : ¬ v.toInt < 0) : (sx v).toNat ≤ 2 ^ 31 := by
  have h1 := sx_toNat_of_nonneg (v := v) (by omega)
  have h2 := short_bounds v
  omega

/-- The end of the short case, entered with `rdi` behind the tag: a small value that is not negative. -/
theorem toMont_pos {t5 : State} (he : env "rawMMul1" = libRaw q ra "rawMMul1") (hq : q % 2 = 1)
    (h7 : Props.OneWord q (val (rawR2 q)) (t5.reg .rdx).toNat) (h : TArgs q F t) (m5 : Move t t5)
    (d9 : t5.reg .rdi = cell (t.reg .rdi) 1) (d10 : t5.reg .rsi = t5.sym .r2) (p : List Line) :
    ∃ s', run env ra (.call "rawMMul1" :: ([op .sub rdi (.imm 8)] ++ (setTypeDest 0x40 ++ .ret :: p))) t5 = some s' ∧
      TRet q F t s' ⟨(elemAt (n64 q) t.mem (t.reg .rdi)).shortVal, false, true, FF.rawMMul1 q (rawR2 q) (t5.reg .rdx)⟩ := by
  have hq0 : 0 < q := by omega
  have hR := hR2 (h.ok.move m5)
  obtain ⟨t7, e7, c7, o7⟩ := call_rawMMul1 (env := env) (ra := ra) he hq (by rw [d10, hR.2]; exact h7) (h.args m5 d9)
    (by rw [d10]; exact hR.1) (by rw [d10, hR.2]; exact rawR2_lt hq0)
  rw [d10, hR.2] at o7
  obtain ⟨t10, ht10⟩ : ∃ t10, t10 = exes [op .sub rdi (.imm 8)] t7 := ⟨_, rfl⟩
  have k6 : t10.reg .rdi = t7.reg .rdi - 8 := by asm ht10
  have m10 : Move t7 t10 := ht10 ▸ exes_move rfl
  obtain ⟨c10, o10⟩ := wrap h m5 d9 c7 m10 (by rw [k6, c7.rdi, d9, cell_one_sub]) o7
  obtain ⟨t11, e11, c11, _, o11⟩ := setType_elem (env := env) (ra := ra) 0x40 (h.called c10 le_rfl)
  rw [c10.rdi] at c11 o11
  obtain ⟨s', e12, o12⟩ := ret_of (env := env) (ra := ra) (p := p) (c10.trans c11) rfl
  refine ⟨s', by rw [e7, run_exes _ rfl, ← ht10, e11, e12], ?_⟩
  rw [o11, o10] at o12
  exact o12

/-- The same for a negative small value. -/
theorem toMont_neg {t5 : State} (he : env "rawMMul1" = libRaw q ra "rawMMul1") (he' : env "rawNegL" = libRaw q ra "rawNegL")
    (hq : q % 2 = 1) (h7 : Props.OneWord q (val (rawR2 q)) (-(t5.reg .rdx)).toNat) (h : TArgs q F t) (m5 : Move t t5)
    (d9 : t5.reg .rdi = cell (t.reg .rdi) 1) (d10 : t5.reg .rsi = t5.sym .r2) (p : List Line) :
    ∃ s', run env ra ([.misc (.neg .rdx)] ++ .call "rawMMul1" :: ([op .mov rsi rdi] ++ .call "rawNegL" ::
        ([op .sub rdi (.imm 8)] ++ (setTypeDest 0x40 ++ .ret :: p)))) t5 = some s' ∧
      TRet q F t s' ⟨(elemAt (n64 q) t.mem (t.reg .rdi)).shortVal, false, true,
        rawNeg q (FF.rawMMul1 q (rawR2 q) (-(t5.reg .rdx)))⟩ := by
  have hq0 : 0 < q := by omega
  have hR := hR2 (h.ok.move m5)
  obtain ⟨t6, ht6⟩ : ∃ t6, t6 = exes [.misc (.neg .rdx)] t5 := ⟨_, rfl⟩
  have m6 : Move t5 t6 := ht6 ▸ exes_move rfl
  have k1 : t6.reg .rdi = cell (t.reg .rdi) 1 := by rw [← d9]; asm ht6
  have k2 : t6.reg .rsi = t5.sym .r2 := by rw [← d10]; asm ht6
  have k3 : t6.reg .rdx = -(t5.reg .rdx) := by asm ht6
  have a6 := h.args (m5.trans m6) k1
  obtain ⟨t7, e7, c7, o7⟩ := call_rawMMul1 (env := env) (ra := ra) he hq (by rw [k2, m6.mem, hR.2, k3]; exact h7) a6
    (by rw [k2]; exact hR.1.move m6) (by rw [k2, m6.mem, hR.2]; exact rawR2_lt hq0)
  rw [k2, m6.mem, hR.2, k3] at o7
  obtain ⟨t8, ht8⟩ : ∃ t8, t8 = exes [op .mov rsi rdi] t7 := ⟨_, rfl⟩
  have m8 : Move t7 t8 := ht8 ▸ exes_move rfl
  have k4 : t8.reg .rdi = t6.reg .rdi := by rw [← c7.rdi]; asm ht8
  have k5 : t8.reg .rsi = t6.reg .rdi := by rw [← c7.rdi]; asm ht8
  have c8 := c7.then_move m8 (by rw [k4, c7.rdi])
  have a8 : Args q F t8 := ⟨a6.ok.called c8 le_rfl a6.dst.data, a6.big, by rw [k4]; exact a6.dst.called c8⟩
  obtain ⟨t9, e9, c9, o9⟩ := call_rawNegL (env := env) (ra := ra) he' a8
    ⟨.inl (k5.trans k4.symm), by rw [k5]; exact fun a ha => (a6.dst.called c8).off a ha⟩
  rw [k4] at c9 o9
  have o9' : rd t9.mem (t6.reg .rdi) (n64 q) = rawNeg q (FF.rawMMul1 q (rawR2 q) (-(t5.reg .rdx))) := by
    rw [o9, k5, m8.mem, o7]
  have c9' := c8.trans c9
  obtain ⟨t10, ht10⟩ : ∃ t10, t10 = exes [op .sub rdi (.imm 8)] t9 := ⟨_, rfl⟩
  have k6 : t10.reg .rdi = t9.reg .rdi - 8 := by asm ht10
  have m10 : Move t9 t10 := ht10 ▸ exes_move rfl
  obtain ⟨c10, o10⟩ := wrap h (m5.trans m6) k1 c9' m10 (by rw [k6, c9'.rdi, k1, cell_one_sub]) o9'
  obtain ⟨t11, e11, c11, _, o11⟩ := setType_elem (env := env) (ra := ra) 0x40 (h.called c10 le_rfl)
  rw [c10.rdi] at c11 o11
  obtain ⟨s', e12, o12⟩ := ret_of (env := env) (ra := ra) (p := p) (c10.trans c11) rfl
  refine ⟨s', by rw [run_exes _ rfl, ← ht6, e7, run_exes _ rfl, ← ht8, e9, run_exes _ rfl, ← ht10, e11, e12], ?_⟩
  rw [o11, o10] at o12
  exact o12

theorem TRet.called {s' : State} {E : Elem} (h : TRet q F t s' E) (hc : Called F (s.reg .rdi) (n64 q + 1) s t) : TRet q F s s' E :=
  ⟨by rw [← hc.rdi]; exact h.elem,
    fun a ha hb => by rw [h.frame a (by rw [hc.rsp]; exact ha) (by rw [hc.rdi]; exact hb), hc.frame a ha hb],
    fun r hr => by rw [h.saved r hr, hc.saved r hr], h.rdi.trans hc.rdi, by rw [h.rsp, hc.rsp], by rw [h.sym, hc.sym]⟩

/-- The short case. -/
theorem toMont_short (he : env "rawMMul1" = libRaw q ra "rawMMul1") (he' : env "rawNegL" = libRaw q ra "rawNegL")
    (hq : q % 2 = 1) (h7 : Props.OneWord q (val (rawR2 q)) (2 ^ 31)) (h : TArgs q F s)
    (hax : s.reg .rax = s.mem (s.reg .rsi)) (p : List Line) :
    ∃ s', run env ra ([.misc (.movsx .rdx .rax)] ++ ([op .mov (.mem .rdi 0) rdx] ++
        ([op .add rdi (.imm 8), .lea .rsi .r2, op .cmp rdx (.imm 0)] ++ .jump .sign "neg" :: (.call "rawMMul1" ::
        ([op .sub rdi (.imm 8)] ++ (setTypeDest 0x40 ++ .ret :: .label "neg" :: ([.misc (.neg .rdx)] ++ .call "rawMMul1" ::
        ([op .mov rsi rdi] ++ .call "rawNegL" :: ([op .sub rdi (.imm 8)] ++ (setTypeDest 0x40 ++ .ret :: p)))))))))) s = some s' ∧
      TRet q F s s' ⟨(elemAt (n64 q) s.mem (s.reg .rsi)).shortVal, false, true,
        if (elemAt (n64 q) s.mem (s.reg .rsi)).shortVal.toInt < 0 then
          rawNeg q (FF.rawMMul1 q (rawR2 q) (-(sx (elemAt (n64 q) s.mem (s.reg .rsi)).shortVal)))
        else FF.rawMMul1 q (rawR2 q) (sx (elemAt (n64 q) s.mem (s.reg .rsi)).shortVal)⟩ := by
  obtain ⟨t3, ht3⟩ : ∃ t3, t3 = exes [.misc (.movsx .rdx .rax)] s := ⟨_, rfl⟩
  have m3 : Move s t3 := ht3 ▸ exes_move rfl
  have d6 : t3.reg .rdi = s.reg .rdi := by asm ht3
  have d7 : t3.reg .rdx = sx (elemAt (n64 q) s.mem (s.reg .rsi)).shortVal := by asm ht3; rw [hax]; rfl
  obtain ⟨t4, ht4⟩ : ∃ t4, t4 = exes [op .mov (.mem .rdi 0) rdx] t3 := ⟨_, rfl⟩
  have h3 := h.move m3 d6
  obtain ⟨c4, o4⟩ := store_tag (v := t3.reg .rdx) h3 (t' := t4) (by asm ht4) (by asm ht4) (by asm ht4)
  rw [d6, m3.mem] at o4
  rw [d6] at c4
  have c4' : Called F (s.reg .rdi) (n64 q + 1) s t4 := .move m3 c4 d6
  have h4 := h.called c4' le_rfl
  have d8 : t4.reg .rdi = s.reg .rdi := c4'.rdi
  have d8' : t4.reg .rdx = t3.reg .rdx := by asm ht4
  obtain ⟨t5, ht5⟩ : ∃ t5, t5 = exes [op .add rdi (.imm 8), .lea .rsi .r2, op .cmp rdx (.imm 0)] t4 := ⟨_, rfl⟩
  have m5 : Move t4 t5 := ht5 ▸ exes_move rfl
  have d9 : t5.reg .rdi = cell (t4.reg .rdi) 1 := by asm ht5; rfl
  have d10 : t5.reg .rsi = t5.sym .r2 := by asm ht5
  have d11 : t5.reg .rdx = t4.reg .rdx := by asm ht5
  rw [d8', d7] at d11
  have f5 : t5.fl.sf = (t5.reg .rdx).msb := by asm ht5; simp [subFlags]
  rw [d11, sx_msb] at f5
  rw [run_exes _ rfl, ← ht3, run_exes _ rfl, ← ht4, run_exes _ rfl, ← ht5, run_jump, Cond.holds, f5]
  by_cases hn : (elemAt (n64 q) s.mem (s.reg .rsi)).shortVal.toInt < 0
  · simp only [hn, decide_true, if_true]
    obtain ⟨s', r1, r2⟩ := toMont_neg he he' hq (h7.mono le_rfl (by rw [d11]; exact sx_neg_le hn)) h4 m5 d9 d10 p
    refine ⟨s', r1, ?_⟩
    rw [d11, d8, o4, d7, sx_low] at r2
    exact r2.called c4'
  · simp only [hn, decide_false, Bool.false_eq_true, if_false]
    obtain ⟨s', r1, r2⟩ := toMont_pos he hq (h7.mono le_rfl (by rw [d11]; exact sx_pos_le hn)) h4 m5 d9 d10 _
    refine ⟨s', r1, ?_⟩
    rw [d11, d8, o4, d7, sx_low] at r2
    exact r2.called c4'

/-- The elements `toMontgomery` converts rightly: for the moduli whose one-word multiplication of `rawR2 q` is right (C55) all, for the others
all but the plain short ones. -/
def ToOk (q : Nat) (e : Elem) : Prop := e.long = false → e.mont = false → Props.OneWord q (val (rawR2 q)) (2 ^ 31)

theorem ToOk.of (h : Props.OneWord q (val (rawR2 q)) (2 ^ 31)) (e : Elem) : ToOk q e := fun _ _ => h

theorem ToOk.long {e : Elem} (h : e.long = true) : ToOk q e := fun h' _ => by rw [h] at h'; exact absurd h' (by decide)

theorem ToOk.mont {e : Elem} (h : e.mont = true) : ToOk q e := fun _ h' => by rw [h] at h'; exact absurd h' (by decide)

theorem ToOk.setTy {m : Mem} {r p : Nat} {k : Bool} (h : ToOk q (m p)) : ToOk q (m.setTy r true k p) := by
  by_cases e : p = r
  · subst e
    exact .long (by rw [Mem.setTy, Mem.set, if_pos rfl])
  · rwa [Mem.setTy, Mem.set, if_neg e]

/-- The pairs of operands of which the one to be taken to Montgomery form, because the other one is in it, is converted rightly. -/
def MixOk (q : Nat) (a b : Elem) : Prop := (b.mont = true → ToOk q a) ∧ (a.mont = true → ToOk q b)

theorem MixOk.of (h : Props.OneWord q (val (rawR2 q)) (2 ^ 31)) (a b : Elem) : MixOk q a b := ⟨fun _ => .of h a, fun _ => .of h b⟩

theorem MixOk.long {a b : Elem} (ha : a.long = true) (hb : b.long = true) : MixOk q a b := ⟨fun _ => .long ha, fun _ => .long hb⟩

theorem MixOk.normal {a b : Elem} (ha : a.mont = false) (hb : b.mont = false) : MixOk q a b :=
  ⟨fun h => by rw [hb] at h; exact absurd h (by decide), fun h => by rw [ha] at h; exact absurd h (by decide)⟩

theorem MixOk.mont {a b : Elem} (ha : a.mont = true) (hb : b.mont = true) : MixOk q a b := ⟨fun _ => .mont ha, fun _ => .mont hb⟩

/-- `toMontgomery`. -/
theorem toMontgomery_run (hq : q % 2 = 1) (h7 : ToOk q (elemAt (n64 q) s.mem (s.reg .rsi)))
    (h : TArgs q F s) (ha : TOpnd q F s (s.reg .rsi)) :
    ∃ s', run (libRaw q ra) ra toMontgomery s = some s' ∧
      TRet q F s s' (toMontAsm q (elemAt (n64 q) s.mem (s.reg .rsi))) := by
  obtain ⟨t1, ht1⟩ : ∃ t1, t1 = exes [op .mov rax (.mem .rsi 0), .misc (.bt .rax 62)] s := ⟨_, rfl⟩
  have m1 : Move s t1 := ht1 ▸ exes_move rfl
  have d1 : t1.reg .rdi = s.reg .rdi := by asm ht1
  have d2 : t1.reg .rsi = s.reg .rsi := by asm ht1
  have f1 : t1.fl.cf = (elemAt (n64 q) s.mem (s.reg .rsi)).mont := by asm ht1; rfl
  obtain ⟨t2, ht2⟩ : ∃ t2, t2 = exes [.misc (.bt .rax 63)] t1 := ⟨_, rfl⟩
  have m2 : Move s t2 := m1.trans (ht2 ▸ exes_move rfl)
  have d3 : t2.reg .rdi = s.reg .rdi := by asm ht2; exact d1
  have d4 : t2.reg .rsi = s.reg .rsi := by asm ht2; exact d2
  have d5 : t2.reg .rax = t2.mem (t2.reg .rsi) := by asm ht2; asm ht1
  have f2 : t2.fl.cf = (elemAt (n64 q) s.mem (s.reg .rsi)).long := by asm ht2; asm ht1; rfl
  rw [toMontAsm]
  show ∃ s', run (libRaw q ra) ra ([op .mov rax (.mem .rsi 0), .misc (.bt .rax 62)] ++ .jump .carry "doNothing" ::
    ([.misc (.bt .rax 63)] ++ .jump .carry "long" :: ([.misc (.movsx .rdx .rax)] ++ ([op .mov (.mem .rdi 0) rdx] ++
        ([op .add rdi (.imm 8), .lea .rsi .r2, op .cmp rdx (.imm 0)] ++ .jump .sign "neg" :: (.call "rawMMul1" ::
        ([op .sub rdi (.imm 8)] ++ (setTypeDest 0x40 ++ .ret :: .label "neg" :: ([.misc (.neg .rdx)] ++ .call "rawMMul1" ::
        ([op .mov rsi rdi] ++ .call "rawNegL" :: ([op .sub rdi (.imm 8)] ++ (setTypeDest 0x40 ++ .ret ::
        .label "long" :: ([op .mov (.mem .rdi 0) rax] ++ ([op .add rdi (.imm 8), op .add rsi (.imm 8), .lea .rdx .r2] ++
        .call "rawMMul" :: ([op .sub rsi (.imm 8), op .sub rdi (.imm 8)] ++ (setTypeDest 0xC0 ++ .ret ::
        [.label "doNothing", .call "copy", .ret])))))))))))))))) s = some s' ∧ _
  rw [run_exes _ rfl, ← ht1, run_jump, Cond.holds, f1]
  cases hmo : (elemAt (n64 q) s.mem (s.reg .rsi)).mont
  · simp only [Bool.false_eq_true, if_false]
    rw [run_exes _ rfl, ← ht2, run_jump, Cond.holds, f2]
    cases hlo : (elemAt (n64 q) s.mem (s.reg .rsi)).long
    · simp only [Bool.false_eq_true, if_false]
      obtain ⟨s', r1, r2⟩ := toMont_short (env := libRaw q ra) (ra := ra) rfl rfl hq (h7 hlo hmo) (h.move m2 d3) d5 _
      refine ⟨s', r1, ?_⟩
      rw [d4, m2.mem] at r2
      exact r2.move m2 d3
    · simp only [if_true]
      obtain ⟨s', r1, r2⟩ := toMont_long (env := libRaw q ra) (ra := ra) rfl hq (h.move m2 d3) (by rw [d4]; exact ha.move m2 d3) d5
        [.label "doNothing", .call "copy", .ret]
      refine ⟨s', r1, ?_⟩
      rw [d4, m2.mem] at r2
      exact r2.move m2 d3
  · simp only [if_true]
    exact copy_ret rfl h ha m1 d1 d2 _

end conv

end FF.X86
