import Verif.AsmMul

/-!
# The assembly product, square and negation against the portable ones
-/

namespace FF.X86

section mul

variable {q F : Nat} {ra : BitVec 64} {s t : State} {env : String → Option (State → Option State)} {m : Mem}

theorem setTy_longVal (m : Mem) (p x : Nat) (l k : Bool) : (m.setTy p l k x).longVal = (m x).longVal := by
  by_cases h : x = p
  · subst h; rw [Mem.setTy, set_same]
  · rw [Mem.setTy, set_other _ _ h]

/-- `setTypeDest`, then `callLL "rawMMul"`. -/
theorem mul_ll_run (he : env "rawMMul" = libRaw q ra "rawMMul") (hq : q % 2 = 1) (h : TArgs q F s) (ht : Up q F s t m)
    (ha : TOpnd q F s (s.reg .rsi)) (hb : TOpnd q F s (s.reg .rdx)) (hsi : t.reg .rsi = s.reg .rsi) (hdx : t.reg .rdx = s.reg .rdx)
    (hlt : val (m (s.reg .rdx).toNat).longVal < q) (ty : BitVec 8) (h7 : ty.getLsbD 7 = true) :
    ∃ t', (∀ p, run env ra (setTypeDest ty ++ (callLL "rawMMul" ++ p)) t = run env ra p t') ∧
      Up q F s t' (mul_ll q (ty.getLsbD 6) m (s.reg .rdi).toNat (s.reg .rsi).toNat (s.reg .rdx).toNat) := by
  obtain ⟨t1, e1, u1, r1⟩ := up_setTy (env := env) (ra := ra) h ht ty
  obtain ⟨t2, e2, u2⟩ := up_mmul he hq h u1 ha hb ((r1 _ (by decide)).trans hsi) ((r1 _ (by decide)).trans hdx)
    (by rw [setTy_longVal]; exact hlt)
  rw [h7] at u2
  exact ⟨t2, fun p => by rw [e1, e2], u2⟩

/-- `setTypeDest`, then `mulL1S2` or `mulS1L2`. -/
theorem mul_ls_run {first : Line} {w : Reg} {L S : BitVec 64} (he : env "rawMMul1" = libRaw q ra "rawMMul1")
    (he' : env "rawNegL" = libRaw q ra "rawNegL") (hq : q % 2 = 1) (h7 : Props.OneWord q (q - 1) (2 ^ 31))
    (h : TArgs q (F + 1) s) (hF : callCells q ≤ F) (ht : Up q (F + 1) s t m) (hL : TOpnd q (F + 1) s L)
    (hx : first = op .add rsi (.imm 8) ∧ w = .r9 ∧ L = t.reg .rsi ∨ first = .misc (.lea .rsi .rdx 8) ∧ w = .r8 ∧ L = t.reg .rdx)
    (hv : (t.reg w).setWidth 32 = (m S.toNat).shortVal) (hlt : val (m L.toNat).longVal < q) (pos done : String) (hpd : pos ≠ done)
    (ty : BitVec 8) (h7' : ty.getLsbD 7 = true) :
    ∃ t', (∀ p, run env ra (setTypeDest ty ++ (mulLS first w pos done ++ p)) t = run env ra p t') ∧
      Up q (F + 1) s t' (mul_ls q (ty.getLsbD 6) m (s.reg .rdi).toNat L.toNat S.toNat) := by
  obtain ⟨t1, e1, u1, r1⟩ := up_setTy (env := env) (ra := ra) h ht ty
  rw [h7'] at u1
  obtain ⟨t2, e2, c2, o2⟩ := mulLS_run (env := env) (ra := ra) (F := F) (t := t1) (first := first) (w := w) (P := L)
    (v := (m.setTy (s.reg .rdi).toNat true (ty.getLsbD 6) S.toNat).shortVal) he he' hq h7
    (h.called u1.c le_rfl) hF (hL.called u1.c)
    (by rwa [r1 _ (by decide), r1 _ (by decide)])
    (by rw [setTy_short, ← hv, r1]; rcases hx with ⟨_, rfl, _⟩ | ⟨_, rfl, _⟩ <;> decide)
    (by rw [u1.see _ hL, setTy_longVal]; exact hlt) pos done hpd
  rw [up_r h u1, u1.see _ hL] at o2
  refine ⟨t2, fun p => by rw [e1, e2], ?_⟩
  have := up_next u1 c2 o2
  rw [mul_ls]
  split
  · rename_i hn
    rw [if_pos hn] at this
    convert this using 1
    rw [Mem.setLong, Mem.setLong, set_same]
    funext x
    by_cases hx : x = (s.reg .rdi).toNat
    · subst hx; rw [set_same, set_same]
    · rw [set_other _ _ hx, set_other _ _ hx, set_other _ _ hx]
  · rename_i hn
    rw [if_neg hn] at this
    exact this

/-- The pairs of operands the multiplication is right for: for the moduli whose one-word multiplication is right (C55) all, for the others
all but those of a long element and a plain short one. -/
def MulOk (q : Nat) (a b : Elem) : Prop :=
  (a.long = true ∧ b.long = false ∧ b.mont = false ∨ a.long = false ∧ a.mont = false ∧ b.long = true) → Props.OneWord q (q - 1) (2 ^ 31)

theorem MulOk.of (h : Props.OneWord q (q - 1) (2 ^ 31)) (a b : Elem) : MulOk q a b := fun _ => h

theorem MulOk.same {a b : Elem} (h : a.long = b.long) : MulOk q a b := fun h' => by
  rcases h' with ⟨h1, h2, _⟩ | ⟨h1, _, h2⟩ <;> rw [h1, h2] at h <;> exact absurd h (by decide)

theorem MulOk.mont {a b : Elem} (ha : a.mont = true) (hb : b.mont = true) : MulOk q a b := fun h' => by
  rcases h' with ⟨_, _, h1⟩ | ⟨_, h1, _⟩
  · rw [hb] at h1; exact absurd h1 (by decide)
  · rw [ha] at h1; exact absurd h1 (by decide)

/-- The assembly multiplication computes exactly what the portable multiplication computes. -/
theorem mulCode_run (hq : q % 2 = 1) (h : TArgs q F s)
    (h7 : MulOk q (absMem (n64 q) s.mem (s.reg .rsi).toNat) (absMem (n64 q) s.mem (s.reg .rdx).toNat))
    (ha : TOpnd q F s (s.reg .rsi)) (hb : TOpnd q F s (s.reg .rdx)) (hF : callCells q + 1 ≤ F)
    (hla : (absMem (n64 q) s.mem (s.reg .rsi).toNat).long → val (absMem (n64 q) s.mem (s.reg .rsi).toNat).longVal < q)
    (hlb : (absMem (n64 q) s.mem (s.reg .rdx).toNat).long ∨ (absMem (n64 q) s.mem (s.reg .rdx).toNat).mont →
      val (absMem (n64 q) s.mem (s.reg .rdx).toNat).longVal < q) :
    ∃ s', run (libRaw q ra) ra mulCode s = some s' ∧ TRet q F s s'
      (Fr_mul q (absMem (n64 q) s.mem) (s.reg .rdi).toNat (s.reg .rsi).toNat (s.reg .rdx).toNat (s.reg .rdi).toNat) := by
  obtain ⟨F, rfl⟩ : ∃ F', F = F' + 1 := ⟨F - 1, by omega⟩
  replace hF : callCells q ≤ F := by omega
  obtain ⟨t, rest, e, u, hsi, hdx, h8, h9⟩ := mul_dispatch (env := libRaw q ra) (ra := ra) (q := q) (F := F + 1) (s := s)
  rw [e]
  generalize absMem (n64 q) s.mem = m at *
  unfold Fr_mul
  have k1 := fun hlt => mul_ll_run (env := libRaw q ra) (ra := ra) rfl hq h u ha hb hsi hdx hlt 0xC0 rfl
  have k2 := fun hlt => mul_ll_run (env := libRaw q ra) (ra := ra) rfl hq h u ha hb hsi hdx hlt 0x80 rfl
  have k3 := fun h7 hlt pos done hpd => mul_ls_run (env := libRaw q ra) (ra := ra) rfl rfl hq h7 h hF u ha (.inl ⟨rfl, rfl, hsi.symm⟩) h9 hlt pos done hpd 0xC0 rfl
  have k4 := fun h7 hlt pos done hpd => mul_ls_run (env := libRaw q ra) (ra := ra) rfl rfl hq h7 h hF u ha (.inl ⟨rfl, rfl, hsi.symm⟩) h9 hlt pos done hpd 0x80 rfl
  have k5 := fun h7 hlt pos done hpd => mul_ls_run (env := libRaw q ra) (ra := ra) rfl rfl hq h7 h hF u hb (.inr ⟨rfl, rfl, hdx.symm⟩) h8 hlt pos done hpd 0xC0 rfl
  have k6 := fun h7 hlt pos done hpd => mul_ls_run (env := libRaw q ra) (ra := ra) rfl rfl hq h7 h hF u hb (.inr ⟨rfl, rfl, hdx.symm⟩) h8 hlt pos done hpd 0x80 rfl
  have k7 := up_s1s2 (env := libRaw q ra) (ra := ra) rfl h hF u h8 h9 (.ret :: rest)
  have r3 := fun (t : State) (m : Mem) (u : Up q (F + 1) s t m) => up_r3 (env := libRaw q ra) (ra := ra) rfl hq h hF u
  have fin : ∀ {t'' : State} {m' : Mem}, Up q (F + 1) s t'' m' →
      ∃ s', run (libRaw q ra) ra (.ret :: rest) t'' = some s' ∧ TRet q (F + 1) s s' (m' (s.reg .rdi).toNat) := fun u => up_ret h u rest
  cases hal : (m (s.reg .rsi).toNat).long <;> cases ham : (m (s.reg .rsi).toNat).mont <;>
    cases hbl : (m (s.reg .rdx).toNat).long <;> cases hbm : (m (s.reg .rdx).toNat).mont <;>
    simp only [mulCase, Bool.false_eq_true, if_true, if_false, List.append_assoc]
  all_goals
    first
    | (obtain ⟨t1, e1, u1⟩ := k1 (hlb (by simp [hbl, hbm])); rw [e1]; exact fin u1)
    | (obtain ⟨t1, e1, u1⟩ := k2 (hlb (by simp [hbl, hbm])); rw [e1]; exact fin u1)
    | (obtain ⟨t1, e1, u1⟩ := k4 (h7 (.inl ⟨hal, hbl, hbm⟩)) (hla hal) "tmp3" "tmp4" (by decide); erw [e1]; exact fin u1)
    | (obtain ⟨t1, e1, u1⟩ := k6 (h7 (.inr ⟨hal, ham, hbl⟩)) (hlb (by simp [hbl])) "tmp7" "tmp8" (by decide); erw [e1]; exact fin u1)
    | (obtain ⟨t1, e1, u1⟩ := k1 (hlb (by simp [hbl, hbm])); rw [e1]; obtain ⟨t2, e2, u2⟩ := r3 _ _ u1; rw [e2]; exact fin u2)
    | (obtain ⟨t1, e1, u1⟩ := k3 (h7 (.inl ⟨hal, hbl, hbm⟩)) (hla hal) "tmp1" "tmp2" (by decide); erw [e1]; obtain ⟨t2, e2, u2⟩ := r3 _ _ u1; rw [e2]; exact fin u2)
    | (obtain ⟨t1, e1, u1⟩ := k5 (h7 (.inr ⟨hal, ham, hbl⟩)) (hlb (by simp [hbl])) "tmp5" "tmp6" (by decide); erw [e1]; obtain ⟨t2, e2, u2⟩ := r3 _ _ u1; rw [e2]; exact fin u2)
    | (obtain ⟨t1, e1, u1⟩ := k7; rw [e1, mul_s1s2_elem]; have := fin u1; rw [set_same] at this; exact this)

theorem up_refl {k1 : State} (hm : Move s k1) (hd : k1.reg .rdi = s.reg .rdi) : Up q F s k1 (absMem (n64 q) s.mem) :=
  ⟨⟨fun a _ _ => by rw [hm.mem], hm.saved, hd, hm.rsp, hm.sym⟩, fun p _ => by rw [hm.mem, absMem_at]⟩

theorem sq_s1_elem (q : Nat) (m : Mem) (r : Nat) (v : BitVec 64) :
    (if hasMul32Overflow v then storeS2L q m r v
    else
      let m := m.setShort r (v.truncate 32)
      let m := m.setTy r false false
      storeS2L q m r v) r = ⟨0, true, false, FF.rawCopyS2L q v⟩ := by
  split <;> simp [storeS2L, Mem.setShort, Mem.setTy, Mem.setLong, set_same]

/-- The assembly square computes exactly what the portable square computes. -/
theorem squareCode_run (hq : q % 2 = 1) (h : TArgs q F s)
    (ha : TOpnd q F s (s.reg .rsi)) (hF : callCells q + 1 ≤ F)
    (hla : (absMem (n64 q) s.mem (s.reg .rsi).toNat).long → val (absMem (n64 q) s.mem (s.reg .rsi).toNat).longVal < q) :
    ∃ s', run (libRaw q ra) ra squareCode s = some s' ∧ TRet q F s s'
      (Fr_square q (absMem (n64 q) s.mem) (s.reg .rdi).toNat (s.reg .rsi).toNat (s.reg .rdi).toNat) := by
  obtain ⟨F, rfl⟩ : ∃ F', F = F' + 1 := ⟨F - 1, by omega⟩
  replace hF : callCells q ≤ F := by omega
  obtain ⟨t1, ht1⟩ : ∃ t1, t1 = exes [op .mov r8 (.mem .rsi 0)] s := ⟨_, rfl⟩
  have m1 : Move s t1 := ht1 ▸ exes_move rfl
  have k1 : t1.reg .rdi = s.reg .rdi := by asm ht1
  have k2 : t1.reg .rsi = s.reg .rsi := by asm ht1
  have k4 : t1.reg .r8 = s.mem (s.reg .rsi) := by asm ht1
  have hl : (t1.reg .r8).getLsbD 63 = (absMem (n64 q) s.mem (s.reg .rsi).toNat).long := by rw [k4, absMem_at]; rfl
  have hm : (t1.reg .r8).getLsbD 62 = (absMem (n64 q) s.mem (s.reg .rsi).toNat).mont := by rw [k4, absMem_at]; rfl
  have hv : (t1.reg .r8).setWidth 32 = (absMem (n64 q) s.mem (s.reg .rsi).toNat).shortVal := by rw [k4, absMem_at]; rfl
  have u1 : Up q (F + 1) s t1 (absMem (n64 q) s.mem) := up_refl m1 k1
  show ∃ s', run (libRaw q ra) ra ([op .mov r8 (.mem .rsi 0)] ++ .misc (.bt .r8 63) :: .jump .carry "l1" :: .label "s1" ::
    (squareS1 ++ (.ret :: .label "l1" :: .misc (.bt .r8 62) :: .jump .carry "l1m" :: .label "l1n" :: (setTypeDest 0xC0 ++ (squareL1 ++
    (mulR3 ++ .ret :: .label "l1m" :: (setTypeDest 0xC0 ++ (squareL1 ++ [.ret])))))))) s = some s' ∧ _
  rw [run_exes _ rfl, ← ht1]
  generalize absMem (n64 q) s.mem = m at *
  have ub : ∀ {k : Nat} {t : State}, Up q (F + 1) s t m → Up q (F + 1) s (Misc.exec (.bt .r8 k) t) m := fun u => ⟨⟨u.c.1, u.c.2, u.c.3, u.c.4, u.c.5⟩, u.2⟩
  unfold Fr_square
  cases hal : (m (s.reg .rsi).toNat).long
  · rw [run_bt_f (hl.trans hal), run_label]
    obtain ⟨t2, e2, u2⟩ := up_sqS1 (env := libRaw q ra) (ra := ra) rfl h hF (ub u1 (k := 63)) hv (.ret :: .label "l1" :: .misc (.bt .r8 62) ::
      .jump .carry "l1m" :: .label "l1n" :: (setTypeDest 0xC0 ++ (squareL1 ++
      (mulR3 ++ .ret :: .label "l1m" :: (setTypeDest 0xC0 ++ (squareL1 ++ [.ret]))))))
    simp only [Bool.false_eq_true, if_false]
    rw [e2, sq_s1_elem]
    have := up_ret (env := libRaw q ra) (ra := ra) h u2 (.label "l1" :: .misc (.bt .r8 62) ::
      .jump .carry "l1m" :: .label "l1n" :: (setTypeDest 0xC0 ++ (squareL1 ++
      (mulR3 ++ .ret :: .label "l1m" :: (setTypeDest 0xC0 ++ (squareL1 ++ [.ret]))))))
    rwa [set_same] at this
  · rw [run_bt_t (hl.trans hal)]
    show ∃ s', run (libRaw q ra) ra (.misc (.bt .r8 62) :: .jump .carry "l1m" :: .label "l1n" :: (setTypeDest 0xC0 ++ (squareL1 ++
      (mulR3 ++ .ret :: .label "l1m" :: (setTypeDest 0xC0 ++ (squareL1 ++ [.ret])))))) (Misc.exec (.bt .r8 63) t1) = some s' ∧ _
    have sq := fun (t : State) (hsi : t.reg .rsi = s.reg .rsi) (u : Up q (F + 1) s t m) (p : List Line) =>
      show ∃ t', run (libRaw q ra) ra (setTypeDest 0xC0 ++ (squareL1 ++ p)) t = run (libRaw q ra) ra p t' ∧
        Up q (F + 1) s t' ((m.setTy (s.reg .rdi).toNat true true).setLong (s.reg .rdi).toNat
          (FF.rawMSquare q ((m.setTy (s.reg .rdi).toNat true true) (s.reg .rsi).toNat).longVal)) by
        obtain ⟨t2, e2, u2, r2⟩ := up_setTy (env := libRaw q ra) (ra := ra) h u 0xC0
        obtain ⟨t3, e3, u3⟩ := up_square (env := libRaw q ra) (ra := ra) rfl hq h u2 ha ((r2 _ (by decide)).trans hsi)
          (by rw [setTy_longVal]; exact hla hal)
        exact ⟨t3, by rw [e2, e3], u3⟩
    cases ham : (m (s.reg .rsi).toNat).mont
    · rw [run_bt_f (t := Misc.exec (.bt .r8 63) t1) (hm.trans ham), run_label]
      obtain ⟨t2, e2, u2⟩ := sq (Misc.exec (.bt .r8 62) (Misc.exec (.bt .r8 63) t1)) k2 (ub (ub u1))
        (mulR3 ++ .ret :: .label "l1m" :: (setTypeDest 0xC0 ++ (squareL1 ++ [.ret])))
      obtain ⟨t3, e3, u3⟩ := up_r3 (env := libRaw q ra) (ra := ra) rfl hq h hF u2
      rw [e2, e3]
      exact up_ret h u3 _
    · rw [run_bt_t (t := Misc.exec (.bt .r8 63) t1) (hm.trans ham)]
      show ∃ s', run (libRaw q ra) ra (setTypeDest 0xC0 ++ (squareL1 ++ [.ret])) (Misc.exec (.bt .r8 62) (Misc.exec (.bt .r8 63) t1)) = some s' ∧ _
      obtain ⟨t2, e2, u2⟩ := sq (Misc.exec (.bt .r8 62) (Misc.exec (.bt .r8 63) t1)) k2 (ub (ub u1)) [.ret]
      rw [e2]
      exact up_ret h u2 _

theorem neg_oF (x : BitVec 32) : (x.msb && (-x).msb) = hasAdd32Overflow (-(sx x)) := by
  have h1 := short_bounds x
  have hz : -(sx x) = sx (0#32) - sx x := by
    rw [show sx (0#32) = 0#64 from by decide, BitVec.zero_sub]
  rw [hz, ← oF_sub, BitVec.zero_sub]
  cases x.msb <;> cases (-x).msb <;> rfl

theorem neg_self_of {x : BitVec 32} (h : hasAdd32Overflow (-(sx x)) = true) : -x = x := by
  rw [← neg_oF, Bool.and_eq_true, BitVec.msb_eq_decide, BitVec.msb_eq_decide, decide_eq_true_eq, decide_eq_true_eq, BitVec.toNat_neg] at h
  apply BitVec.eq_of_toNat_eq
  rw [BitVec.toNat_neg]
  have := x.isLt
  omega

/-- The assembly negation computes exactly what the portable negation computes. -/
theorem negCode_run (h : TArgs q F s) (ha : TOpnd q F s (s.reg .rsi)) (hF : callCells q + 1 ≤ F) :
    ∃ s', run (libRaw q ra) ra negCode s = some s' ∧ TRet q F s s'
      (Fr_neg q (absMem (n64 q) s.mem) (s.reg .rdi).toNat (s.reg .rsi).toNat (s.reg .rdi).toNat) := by
  obtain ⟨F, rfl⟩ : ∃ F', F = F' + 1 := ⟨F - 1, by omega⟩
  replace hF : callCells q ≤ F := by omega
  obtain ⟨t1, ht1⟩ : ∃ t1, t1 = exes [op .mov rax (.mem .rsi 0), .misc (.bt .rax 63)] s := ⟨_, rfl⟩
  have m1 : Move s t1 := ht1 ▸ exes_move rfl
  have k1 : t1.reg .rdi = s.reg .rdi := by asm ht1
  have k2 : t1.reg .rsi = s.reg .rsi := by asm ht1
  have k4 : t1.reg .rax = s.mem (s.reg .rsi) := by asm ht1
  have f1 : t1.fl.cf = (absMem (n64 q) s.mem (s.reg .rsi).toNat).long := by rw [absMem_at]; asm ht1; rfl
  have hv : (t1.reg .rax).setWidth 32 = (absMem (n64 q) s.mem (s.reg .rsi).toNat).shortVal := by rw [k4, absMem_at]; rfl
  have h1 := h.move m1 k1
  show ∃ s', run (libRaw q ra) ra ([op .mov rax (.mem .rsi 0), .misc (.bt .rax 63)] ++ .jump .carry "l" ::
    ([.misc (.neg32 .rax)] ++ .jump .overflow "overflow" :: ([op .mov (.mem .rdi 0) rax] ++ .ret ::
    .label "overflow" :: .push .rsi :: ([.misc (.movsx .rsi .rax), .misc (.neg .rsi)] ++ .call "rawCopyS2L" :: .pop .rsi :: .ret ::
    .label "l" :: ([op .mov (.mem .rdi 0) rax] ++ ([op .add rdi (.imm 8), op .add rsi (.imm 8)] ++ .call "rawNegL" ::
    ([op .sub rdi (.imm 8), op .sub rsi (.imm 8)] ++ [.ret]))))))) s = some s' ∧ _
  rw [run_exes _ rfl, ← ht1, run_jump, Cond.holds, f1, Fr_neg]
  cases hal : (absMem (n64 q) s.mem (s.reg .rsi).toNat).long
  · simp only [Bool.false_eq_true, if_false]
    obtain ⟨t2, ht2⟩ : ∃ t2, t2 = exes [.misc (.neg32 .rax)] t1 := ⟨_, rfl⟩
    have m2 : Move s t2 := m1.trans (ht2 ▸ exes_move rfl)
    have j1 : t2.reg .rdi = s.reg .rdi := by rw [← k1]; asm ht2
    have j2 : t2.reg .rax = (-(absMem (n64 q) s.mem (s.reg .rsi).toNat).shortVal).setWidth 64 := by rw [← hv]; asm ht2
    have f2 : t2.fl.oF = hasAdd32Overflow (-(sx (absMem (n64 q) s.mem (s.reg .rsi).toNat).shortVal)) := by
      rw [← neg_oF, ← hv]; asm ht2
    have h2 := h.move m2 j1
    rw [run_exes _ rfl, ← ht2, run_jump, Cond.holds, f2, storeSum_elem]
    cases ho : hasAdd32Overflow (-(sx (absMem (n64 q) s.mem (s.reg .rsi).toNat).shortVal))
    · simp only [Bool.false_eq_true, if_false]
      obtain ⟨t3, ht3⟩ : ∃ t3, t3 = exes [op .mov (.mem .rdi 0) rax] t2 := ⟨_, rfl⟩
      obtain ⟨c3, o3⟩ := store_tag (v := t2.reg .rax) h2 (t' := t3) (by asm ht3) (by asm ht3) (by asm ht3)
      rw [j1] at c3 o3
      rw [run_exes _ rfl, ← ht3]
      obtain ⟨z1, z2, z3⟩ := zext_bits (-(absMem (n64 q) s.mem (s.reg .rsi).toNat).shortVal)
      refine ret_of (.move m2 c3 j1) ?_
      rw [o3, j2, z1, z2, z3, m2.mem, absMem_at, absMem_at, BitVec.setWidth_neg_of_le (by decide), sx_low]
    · simp only [if_true]
      show ∃ s', run (libRaw q ra) ra (.push .rsi :: ([.misc (.movsx .rsi .rax), .misc (.neg .rsi)] ++ .call "rawCopyS2L" :: .pop .rsi :: .ret :: _)) t2 = some s' ∧ _
      obtain ⟨t3, e3, c3, o3⟩ := s2l_run (env := libRaw q ra) (ra := ra) (F := F) (t := t2)
        (v := -(sx (absMem (n64 q) s.mem (s.reg .rsi).toNat).shortVal))
        (pre := [.misc (.movsx .rsi .rax), .misc (.neg .rsi)]) rfl h2 hF rfl rfl
        (by rw [← push_reg (t2.reg .rsi) t2 (by decide : Reg.rdi ≠ .rsp)]; asm (rfl : exes _ (pushVal (t2.reg .rsi) t2) = exes _ _))
        (by
          have j3 : ((pushVal (t2.reg .rsi) t2).reg .rax).setWidth 32 = (absMem (n64 q) s.mem (s.reg .rsi).toNat).shortVal := by
            rw [push_reg _ _ (by decide), j2, neg_self_of ho]; simp
          rw [← j3]; asm (rfl : exes _ (pushVal (t2.reg .rsi) t2) = exes _ _); rfl)
      rw [j1] at c3 o3
      rw [e3]
      exact ret_of (.move m2 c3 j1) o3
  · simp only [if_true]
    show ∃ s', run (libRaw q ra) ra ([op .mov (.mem .rdi 0) rax] ++ ([op .add rdi (.imm 8), op .add rsi (.imm 8)] ++ .call "rawNegL" ::
      ([op .sub rdi (.imm 8), op .sub rsi (.imm 8)] ++ [.ret]))) t1 = some s' ∧ _
    obtain ⟨t2, ht2⟩ : ∃ t2, t2 = exes [op .mov (.mem .rdi 0) rax] t1 := ⟨_, rfl⟩
    obtain ⟨c2, o2⟩ := store_tag (v := t1.reg .rax) h1 (t' := t2) (by asm ht2) (by asm ht2) (by asm ht2)
    have o2' : elemAt (n64 q) t2.mem (t1.reg .rdi) = { elemAt (n64 q) s.mem (s.reg .rsi) with
        longVal := (elemAt (n64 q) s.mem (s.reg .rdi)).longVal } := by rw [o2, k4, m1.mem, k1]; rfl
    have c2' : Called (F + 1) (s.reg .rdi) (n64 q + 1) s t2 := .move m1 (k1 ▸ c2) k1
    have u2 : Up q (F + 1) s t2 ((absMem (n64 q) s.mem).set (s.reg .rdi).toNat { elemAt (n64 q) s.mem (s.reg .rsi) with
        longVal := (elemAt (n64 q) s.mem (s.reg .rdi)).longVal }) := up_next (up_refl m1 k1) c2 o2'
    obtain ⟨t3, ht3⟩ : ∃ t3, t3 = exes [op .add rdi (.imm 8), op .add rsi (.imm 8)] t2 := ⟨_, rfl⟩
    have d1 : t3.reg .rdi = cell (t2.reg .rdi) 1 := by asm ht3; rfl
    have d2 : t3.reg .rsi = cell (s.reg .rsi) 1 := by
      rw [← k2, show t1.reg .rsi = t2.reg .rsi from by asm ht2]; asm ht3; rfl
    have m3 : Move t2 t3 := ht3 ▸ exes_move rfl
    have h2 := h.called c2' le_rfl
    obtain ⟨t4, e4, c4, o4⟩ := call_rawNegL (env := libRaw q ra) (ra := ra) rfl (h2.args m3 d1) ((ha.called c2').opnd m3 d1 d2)
    obtain ⟨t5, ht5⟩ : ∃ t5, t5 = exes [op .sub rdi (.imm 8), op .sub rsi (.imm 8)] t4 := ⟨_, rfl⟩
    have d4 : t5.reg .rdi = t4.reg .rdi - 8 := by asm ht5
    have m5 : Move t4 t5 := ht5 ▸ exes_move rfl
    obtain ⟨c5, o5⟩ := wrap h2 m3 d1 c4 m5 (by rw [d4, c4.rdi, d1, cell_one_sub]) o4
    have el : rd t3.mem (t3.reg .rsi) (n64 q) = (elemAt (n64 q) s.mem (s.reg .rsi)).longVal := by
      rw [d2, m3.mem]
      have := congrArg Elem.longVal (u2.see _ ha)
      by_cases e : (s.reg .rsi).toNat = (s.reg .rdi).toNat
      · rw [e, set_same] at this
        rw [show s.reg .rsi = s.reg .rdi from BitVec.eq_of_toNat_eq e] at this ⊢
        exact this
      · rw [set_other _ _ e, absMem_at] at this
        exact this
    rw [el, up_r h u2, set_same] at o5
    rw [run_exes _ rfl, ← ht2, run_exes _ rfl, ← ht3, e4, run_exes _ rfl, ← ht5]
    have u5 := up_next u2 c5 o5
    obtain ⟨s', r1, r2⟩ := up_ret (env := libRaw q ra) (ra := ra) h u5 []
    refine ⟨s', r1, ?_⟩
    rw [set_same] at r2
    convert r2 using 1
    have sv : ∀ (l k : Bool) (x : Nat), ((absMem (n64 q) s.mem).setTy (s.reg .rdi).toNat l k x).shortVal = (absMem (n64 q) s.mem x).shortVal :=
      fun l k x => setTy_short _ _ _ _ _
    have lv : ∀ (l k : Bool) (v : BitVec 32) (x : Nat), ((((absMem (n64 q) s.mem).setTy (s.reg .rdi).toNat l k).setShort (s.reg .rdi).toNat v) x).longVal =
        (absMem (n64 q) s.mem x).longVal := by
      intro l k v x
      rw [← setTy_longVal (absMem (n64 q) s.mem) (s.reg .rdi).toNat x l k]
      by_cases e : x = (s.reg .rdi).toNat
      · subst e; rw [Mem.setShort, set_same]
      · rw [Mem.setShort, set_other _ _ e]
    rw [Mem.setLong, set_same, lv, sv]
    simp only [Mem.setShort, set_same, Mem.setTy, absMem_at]
    rw [absMem_at] at hal
    simp [hal]

end mul

end FF.X86
