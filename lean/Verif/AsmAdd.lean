import Verif.AsmFrame
import Verif.LRep

/-!
# Addition and subtraction in the generated assembly
-/

namespace FF.X86

/-- Inside a routine with a frame, before any temporary is reserved: the pointers are as they were on entry and the three
elements are what the portable program has in its memory `m`. -/
structure At (q F : Nat) (s t : State) (m : Mem) : Prop where
  inn : In q F s t
  rsp : t.reg .rsp = stk (s.reg .rsp) 3
  rdi : t.reg .rdi = s.reg .rdi
  rsi : t.reg .rsi = s.reg .rsi
  rdx : t.reg .rdx = s.reg .rdx
  r : elemAt (n64 q) t.mem (s.reg .rdi) = m (s.reg .rdi).toNat
  a : elemAt (n64 q) t.mem (s.reg .rsi) = m (s.reg .rsi).toNat
  b : elemAt (n64 q) t.mem (s.reg .rdx) = m (s.reg .rdx).toNat

/-- A raw routine with two limb operands. -/
def LLSpec (q F : Nat) (ra : BitVec 64) (env : String → Option (State → Option State)) (f : String)
    (G : Limbs → Limbs → Limbs) : Prop :=
  ∀ t, Args q F t → Opnd q F t (t.reg .rsi) → Opnd q F t (t.reg .rdx) → True →
      ∃ t', (∀ p, run env ra (.call f :: p) t = run env ra p t') ∧ Called F (t.reg .rdi) (n64 q) t t' ∧
        rd t'.mem (t.reg .rdi) (n64 q) = G (rd t.mem (t.reg .rsi) (n64 q)) (rd t.mem (t.reg .rdx) (n64 q))

/-- A raw routine with a limb operand and a word. -/
def LSSpec (q F : Nat) (ra : BitVec 64) (env : String → Option (State → Option State)) (f : String)
    (G : Limbs → BitVec 64 → Limbs) : Prop :=
  ∀ t, Args q F t → Opnd q F t (t.reg .rsi) →
      ∃ t', (∀ p, run env ra (.call f :: p) t = run env ra p t') ∧ Called F (t.reg .rdi) (n64 q) t t' ∧
        rd t'.mem (t.reg .rdi) (n64 q) = G (rd t.mem (t.reg .rsi) (n64 q)) (t.reg .rdx)

section add

variable {q F F' k : Nat} {ra : BitVec 64} {s t : State} {env : String → Option (State → Option State)} {m : Mem}

theorem set_same (m : Mem) (p : Nat) (e : Elem) : m.set p e p = e := by simp [Mem.set]
theorem set_other (m : Mem) {p x : Nat} (e : Elem) (h : x ≠ p) : m.set p e x = m x := by simp [Mem.set, h]

/-- An operand after the result element was overwritten. -/
theorem sees_set {p : BitVec 64} {t' : State} {e : Elem} (hp : TOpnd q F t p)
    (hc : Called F (t.reg .rdi) (n64 q + 1) t t') (he : elemAt (n64 q) t'.mem (t.reg .rdi) = e)
    (hm : elemAt (n64 q) t.mem p = m p.toNat) : elemAt (n64 q) t'.mem p = m.set (t.reg .rdi).toNat e p.toNat := by
  by_cases h : p = t.reg .rdi
  · rw [h, set_same, he]
  · rw [set_other _ _ (fun h' => h (BitVec.eq_of_toNat_eq h'))]
    rcases hp.ali with h' | hs
    · exact absurd h' h
    · rw [elemAt_called hc hs hp.off, hm]

theorem At.args (h : TArgs q F s) (ht : At q F s t m) (hF : 3 + callCells q ≤ F) : TArgs q (callCells q) t :=
  ht.inn.args h ht.rsp hF le_rfl ht.rdi

theorem At.opnd {p : BitVec 64} (ht : At q F s t m) (ha : TOpnd q F s p) (hF : 3 + callCells q ≤ F) : TOpnd q (callCells q) t p :=
  In.opnd ha ht.rsp hF ht.rdi

/-- `setTypeDest`. -/
theorem At.setTy (h : TArgs q F s) (ha : TOpnd q F s (s.reg .rsi)) (hb : TOpnd q F s (s.reg .rdx)) (ht : At q F s t m)
    (hF : 3 + callCells q ≤ F) (ty : BitVec 8) :
    ∃ t', (∀ p, run env ra (setTypeDest ty ++ p) t = run env ra p t') ∧
      At q F s t' (m.setTy (s.reg .rdi).toNat (ty.getLsbD 7) (ty.getLsbD 6)) ∧ t'.reg .rax = t.reg .rax ∧ t'.reg .rcx = t.reg .rcx := by
  obtain ⟨t', h1, h2, h3, h4⟩ := setType_elem (env := env) (ra := ra) ty (ht.args h hF)
  have e : ∀ p, TOpnd q F s p → elemAt (n64 q) t.mem p = m p.toNat → elemAt (n64 q) t'.mem p =
      (m.setTy (s.reg .rdi).toNat (ty.getLsbD 7) (ty.getLsbD 6)) p.toNat := by
    intro p hp hm
    have := sees_set (ht.opnd hp hF) h2 h4 hm
    rw [this, ht.rdi, ht.r]
    rfl
  refine ⟨t', h1, ⟨ht.inn.tcalled h ht.rsp (by omega) hF ht.rdi h2, h2.rsp.trans ht.rsp, h2.rdi.trans ht.rdi,
    (h3 _ (by decide)).trans ht.rsi, (h3 _ (by decide)).trans ht.rdx, ?_, e _ ha ht.a, e _ hb ht.b⟩, h3 _ (by decide),
    h3 _ (by decide)⟩
  exact e _ ⟨.inl rfl, h.dst.off⟩ ht.r

/-- `callLL`, then the end of the routine. -/
theorem ll_gen {f : String} {G : Limbs → Limbs → Limbs} (hf : LLSpec q F' ra env f G) (h : TArgs q F s) (hi : In q F s t)
    (hk : t.reg .rsp = stk (s.reg .rsp) k) (h3 : 1 ≤ k) (hF : k + F' ≤ F) (hb : callCells q ≤ F') (hd : t.reg .rdi = s.reg .rdi)
    (h1 : TOpnd q F' t (t.reg .rsi)) (h2 : TOpnd q F' t (t.reg .rdx)) (p : List Line) :
    ∃ s', run env ra (l1l2Lines f ++ p) t = some s' ∧ TRet q F s s' { elemAt (n64 q) t.mem (s.reg .rdi) with
      longVal := G (elemAt (n64 q) t.mem (t.reg .rsi)).longVal (elemAt (n64 q) t.mem (t.reg .rdx)).longVal } := by
  obtain ⟨t', e1, c1, o1⟩ := callLL_run (P := fun _ => True) hf (hi.args h hk hF hb hd) h1 h2 trivial
  obtain ⟨s', r1, r2⟩ := leave_run (env := env) (ra := ra) (hi.tcalled h hk h3 hF hd c1) (c1.rdi.trans hd) p
  refine ⟨s', ?_, ?_⟩
  · rw [l1l2Lines, List.append_assoc, e1, r1]
  · rw [← hd, o1] at r2
    rw [← hd]; exact r2

/-- Two long operands of the same kind. -/
theorem ll_tail {f : String} {G : Limbs → Limbs → Limbs} (hf : LLSpec q (callCells q) ra env f G) (h : TArgs q F s)
    (ha : TOpnd q F s (s.reg .rsi)) (hb : TOpnd q F s (s.reg .rdx)) (ht : At q F s t m) (hF : 3 + callCells q ≤ F) (p : List Line) :
    ∃ s', run env ra (l1l2Lines f ++ p) t = some s' ∧ TRet q F s s' ((m.setLong (s.reg .rdi).toNat
      (G (m (s.reg .rsi).toNat).longVal (m (s.reg .rdx).toNat).longVal)) (s.reg .rdi).toNat) := by
  obtain ⟨s', r1, r2⟩ := ll_gen hf h ht.inn ht.rsp (by omega) hF le_rfl ht.rdi (by rw [ht.rsi]; exact ht.opnd ha hF)
    (by rw [ht.rdx]; exact ht.opnd hb hF) p
  refine ⟨s', r1, ?_⟩
  rw [ht.rsi, ht.rdx, ht.r, ht.a, ht.b] at r2
  rw [Mem.setLong, set_same]
  exact r2

/-- The second operand converted first. -/
theorem convB_tail {f g : String} {G : Limbs → Limbs → Limbs} {R : Elem → Elem → Prop} {P : Elem → Prop} (hf : LLSpec q (callCells q) ra env f G)
    (hg : ConvSpec q (callCells q + 1) ra env g R P) (h : TArgs q F s)
    (ha : TOpnd q F s (s.reg .rsi)) (hb : TOpnd q F s (s.reg .rdx)) (ht : At q F s t m) (hF : n64 q + 7 + callCells q ≤ F) (hP : P (m (s.reg .rdx).toNat))
    (p : List Line) :
    ∃ s' e, R (m (s.reg .rdx).toNat) e ∧ run env ra (convB (n64 q) g ++ (l1l2Lines f ++ p)) t = some s' ∧
      TRet q F s s' ((m.setLong (s.reg .rdi).toNat (G (m (s.reg .rsi).toNat).longVal e.longVal)) (s.reg .rdi).toNat) := by
  obtain ⟨t', e1, c1, d1⟩ := convB_run hg h (by rw [ht.rdx]; exact In.off hb.off ht.rsp (by omega)) ht.inn ht.rsp (by omega) (by omega) (by omega)
    (by rw [ht.rdx, ht.b]; exact hP)
  obtain ⟨s', r1, r2⟩ := ll_gen hf h c1.inn c1.rsp (by omega) (F := F) (by omega) le_rfl (c1.rdi.trans ht.rdi)
    (by rw [d1, ht.rsi]; exact In.opnd ha c1.rsp (by omega) (c1.rdi.trans ht.rdi))
    (c1.opnd h ht.rdi (by omega)) p
  have hk : ∀ p, TOpnd q F s p → elemAt (n64 q) t'.mem p = elemAt (n64 q) t.mem p := fun p hp =>
    elemAt_congr fun a h' => c1.mem ht.rsp (by omega) a (hp.off a h')
  have o := c1.elem
  rw [ht.rdx, ht.b] at o
  refine ⟨s', _, o, by rw [e1, r1], ?_⟩
  rw [d1, ht.rsi, hk _ ha, c1.tmp, ht.a, hk _ ⟨.inl rfl, h.dst.off⟩, ht.r] at r2
  rw [Mem.setLong, set_same]
  exact r2

/-- The first operand converted first. -/
theorem convA_tail {f g : String} {G : Limbs → Limbs → Limbs} {R : Elem → Elem → Prop} {P : Elem → Prop} (hf : LLSpec q (callCells q) ra env f G)
    (hg : ConvSpec q (callCells q + 1) ra env g R P) (h : TArgs q F s)
    (ha : TOpnd q F s (s.reg .rsi)) (hb : TOpnd q F s (s.reg .rdx)) (ht : At q F s t m) (hF : n64 q + 7 + callCells q ≤ F) (hP : P (m (s.reg .rsi).toNat))
    (p : List Line) :
    ∃ s' e, R (m (s.reg .rsi).toNat) e ∧ run env ra (convA (n64 q) g ++ (l1l2Lines f ++ p)) t = some s' ∧
      TRet q F s s' ((m.setLong (s.reg .rdi).toNat (G e.longVal (m (s.reg .rdx).toNat).longVal)) (s.reg .rdi).toNat) := by
  obtain ⟨t', e1, c1, d1⟩ := convA_run hg h (by rw [ht.rsi]; exact In.off ha.off ht.rsp (by omega)) ht.inn ht.rsp (by omega) (by omega) (by omega)
    (by rw [ht.rsi, ht.a]; exact hP)
  obtain ⟨s', r1, r2⟩ := ll_gen hf h c1.inn c1.rsp (by omega) (F := F) (by omega) le_rfl (c1.rdi.trans ht.rdi)
    (c1.opnd h ht.rdi (by omega))
    (by rw [d1, ht.rdx]; exact In.opnd hb c1.rsp (by omega) (c1.rdi.trans ht.rdi)) p
  have hk : ∀ p, TOpnd q F s p → elemAt (n64 q) t'.mem p = elemAt (n64 q) t.mem p := fun p hp =>
    elemAt_congr fun a h' => c1.mem ht.rsp (by omega) a (hp.off a h')
  have o := c1.elem
  rw [ht.rsi, ht.a] at o
  refine ⟨s', _, o, by rw [e1, r1], ?_⟩
  rw [d1, ht.rdx, hk _ hb, c1.tmp, ht.b, hk _ ⟨.inl rfl, h.dst.off⟩, ht.r] at r2
  rw [Mem.setLong, set_same]
  exact r2

/-! ## A long and a short operand -/

theorem dropTo_self (l : String) (p : List Line) : dropTo l (.label l :: p) = p := by simp [dropTo]

/-- `lsLines`, entered with the address of the limbs in `rsi` and the tag cell of the short operand in `w`. -/
theorem ls_run {fN fP : String} {GN GP : Limbs → BitVec 64 → Limbs} (hN : LSSpec q (callCells q) ra env fN GN)
    (hP : LSSpec q (callCells q) ra env fP GP) {w : Reg} {pl : BitVec 64} {v : BitVec 32} (h : TArgs q F s)
    (hi : In q F s t) (hk : t.reg .rsp = stk (s.reg .rsp) 3) (hF : 3 + callCells q ≤ F) (hd : t.reg .rdi = s.reg .rdi)
    (hl : TOpnd q F s pl) (hsi : t.reg .rsi = cell pl 1) (hv : (t.reg w).setWidth 32 = v) (lab : String) (p : List Line) :
    ∃ s', run env ra (lsLines w fN fP lab ++ p) t = some s' ∧ TRet q F s s' { elemAt (n64 q) t.mem (s.reg .rdi) with
      longVal := if v.toInt < 0 then GN (elemAt (n64 q) t.mem pl).longVal (-(sx v)) else GP (elemAt (n64 q) t.mem pl).longVal (sx v) } := by
  have ht := hi.args h hk hF le_rfl hd
  have hlt : TOpnd q (callCells q) t pl := In.opnd hl hk hF hd
  obtain ⟨t1, ht1⟩ : ∃ t1, t1 = exes [.misc (.movsx .rdx w), op .add rdi (.imm 8), op .cmp rdx (.imm 0)] t := ⟨_, rfl⟩
  have m1 : Move t t1 := by rw [ht1]; exact exes_move rfl
  have d1 : t1.reg .rdi = cell (t.reg .rdi) 1 := by asm ht1; rfl
  have d2 : t1.reg .rsi = cell pl 1 := by asm ht1; exact hsi
  have d3 : t1.reg .rdx = sx v := by rw [← hv]; asm ht1; rfl
  have f1 : t1.fl.sf = (t1.reg .rdx).msb := by asm ht1; simp [subFlags]
  rw [d3, sx_msb] at f1
  have fin : ∀ {t2 t3 : State} {l : Limbs} (p : List Line), Move t t2 → t2.reg .rdi = cell (t.reg .rdi) 1 →
      Called (callCells q) (t2.reg .rdi) (n64 q) t2 t3 →
      rd t3.mem (t2.reg .rdi) (n64 q) = l → ∃ s', run env ra ([op .sub rdi (.imm 8), op .sub rsi (.imm 8)] ++ (leave ++ p)) t3 = some s' ∧
        TRet q F s s' { elemAt (n64 q) t.mem (s.reg .rdi) with longVal := l } := by
    intro t2 t3 l p m2 e2 c3 o3
    obtain ⟨t4, ht4⟩ : ∃ t4, t4 = exes [op .sub rdi (.imm 8), op .sub rsi (.imm 8)] t3 := ⟨_, rfl⟩
    have d4 : t4.reg .rdi = t3.reg .rdi - 8 := by asm ht4
    have m4 : Move t3 t4 := ht4 ▸ exes_move rfl
    obtain ⟨c4, o4⟩ := wrap ht m2 e2 c3 m4 (by rw [d4, c3.rdi, e2, cell_one_sub]) o3
    obtain ⟨s', r1, r2⟩ := leave_run (env := env) (ra := ra) (hi.tcalled h hk (by omega) hF hd c4) (c4.rdi.trans hd) p
    refine ⟨s', by rw [run_exes _ rfl, ← ht4, r1], ?_⟩
    rw [← hd, o4] at r2
    rw [← hd]; exact r2
  show ∃ s', run env ra ([.misc (.movsx .rdx w), op .add rdi (.imm 8), op .cmp rdx (.imm 0)] ++ .jump .nsign lab ::
    ([.misc (.neg .rdx)] ++ .call fN :: ([op .sub rdi (.imm 8), op .sub rsi (.imm 8)] ++ (leave ++ .label lab :: .call fP ::
      ([op .sub rdi (.imm 8), op .sub rsi (.imm 8)] ++ (leave ++ p)))))) t = some s' ∧ _
  rw [run_exes _ rfl, ← ht1, run_jump, Cond.holds, f1]
  by_cases hn : v.toInt < 0
  · simp only [hn, decide_true, Bool.not_true, Bool.false_eq_true, if_false, if_true]
    obtain ⟨t2, ht2⟩ : ∃ t2, t2 = exes [.misc (.neg .rdx)] t1 := ⟨_, rfl⟩
    have m2 : Move t t2 := m1.trans (ht2 ▸ exes_move rfl)
    have k1 : t2.reg .rdi = cell (t.reg .rdi) 1 := by rw [← d1]; asm ht2
    have k2 : t2.reg .rsi = cell pl 1 := by rw [← d2]; asm ht2
    have k3 : t2.reg .rdx = -(sx v) := by rw [← d3]; asm ht2
    obtain ⟨t3, e3, c3, o3⟩ := hN t2 (ht.args m2 k1) (by rw [k2]; exact hlt.opnd m2 k1 rfl)
    rw [k2, k3, m2.mem] at o3
    obtain ⟨s', r1, r2⟩ := fin _ m2 k1 c3 o3
    exact ⟨s', by rw [run_exes _ rfl, ← ht2, e3, r1], r2⟩
  · simp only [hn, decide_false, Bool.not_false, if_true, if_false]
    obtain ⟨t3, e3, c3, o3⟩ := hP t1 (ht.args m1 d1) (by rw [d2]; exact hlt.opnd m1 d1 rfl)
    rw [d2, d3, m1.mem] at o3
    obtain ⟨s', r1, r2⟩ := fin _ m1 d1 c3 o3
    refine ⟨s', ?_, r2⟩
    rw [← r1, ← e3]
    have : dropTo lab ([.misc (.neg .rdx)] ++ .call fN :: ([op .sub rdi (.imm 8), op .sub rsi (.imm 8)] ++ (leave ++ .label lab :: .call fP ::
      ([op .sub rdi (.imm 8), op .sub rsi (.imm 8)] ++ (leave ++ p))))) = dropTo lab (.label lab :: .call fP ::
      ([op .sub rdi (.imm 8), op .sub rsi (.imm 8)] ++ (leave ++ p))) := rfl
    rw [this, dropTo_self]

theorem ite_elem (c : Prop) [Decidable c] (e : Elem) (l l' : Limbs) :
    ({ e with longVal := if c then l else l' } : Elem) = if c then { e with longVal := l } else { e with longVal := l' } := by
  split <;> rfl

/-- `l1s2Lines`: the first operand is long, the tag cell of the second is in `rcx`. -/
theorem l1s2_tail {fN fP : String} {GN GP : Limbs → BitVec 64 → Limbs} (hN : LSSpec q (callCells q) ra env fN GN)
    (hP : LSSpec q (callCells q) ra env fP GP) (h : TArgs q F s) (ha : TOpnd q F s (s.reg .rsi)) (ht : At q F s t m)
    (hF : 3 + callCells q ≤ F) (hv : (t.reg .rcx).setWidth 32 = (m (s.reg .rdx).toNat).shortVal) (lab : String) (p : List Line) :
    ∃ s', run env ra (l1s2Lines fN fP lab ++ p) t = some s' ∧ TRet q F s s'
      ((if (m (s.reg .rdx).toNat).shortVal.toInt < 0 then
          m.setLong (s.reg .rdi).toNat (GN (m (s.reg .rsi).toNat).longVal (-(sx (m (s.reg .rdx).toNat).shortVal)))
        else m.setLong (s.reg .rdi).toNat (GP (m (s.reg .rsi).toNat).longVal (sx (m (s.reg .rdx).toNat).shortVal)))
        (s.reg .rdi).toNat) := by
  obtain ⟨t1, ht1⟩ : ∃ t1, t1 = exes [op .add rsi (.imm 8)] t := ⟨_, rfl⟩
  have m1 : Move t t1 := ht1 ▸ exes_move rfl
  have d1 : t1.reg .rdi = t.reg .rdi := by asm ht1
  have d2 : t1.reg .rsi = cell (s.reg .rsi) 1 := by rw [← ht.rsi]; asm ht1; rfl
  have d3 : t1.reg .rcx = t.reg .rcx := by asm ht1
  obtain ⟨s', r1, r2⟩ := ls_run hN hP (w := .rcx) (v := (m (s.reg .rdx).toNat).shortVal) h (ht.inn.move m1) (m1.rsp.trans ht.rsp) hF (d1.trans ht.rdi) ha d2
    (by rw [d3]; exact hv) lab p
  refine ⟨s', ?_, ?_⟩
  · show run env ra ([op .add rsi (.imm 8)] ++ (lsLines .rcx fN fP lab ++ p)) t = _
    rw [run_exes _ rfl, ← ht1, r1]
  · rw [m1.mem, ht.r, ht.a, ite_elem] at r2
    split at r2
    · rename_i hn; rw [if_pos hn, Mem.setLong, set_same]; exact r2
    · rename_i hn; rw [if_neg hn, Mem.setLong, set_same]; exact r2

/-- `s1l2Lines`: the second operand is long, the tag cell of the first is in `rax`. -/
theorem s1l2_tail {fN fP : String} {GN GP : Limbs → BitVec 64 → Limbs} (hN : LSSpec q (callCells q) ra env fN GN)
    (hP : LSSpec q (callCells q) ra env fP GP) (h : TArgs q F s) (hb : TOpnd q F s (s.reg .rdx)) (ht : At q F s t m)
    (hF : 3 + callCells q ≤ F) (hv : (t.reg .rax).setWidth 32 = (m (s.reg .rsi).toNat).shortVal) (lab : String) (p : List Line) :
    ∃ s', run env ra (s1l2Lines fN fP lab ++ p) t = some s' ∧ TRet q F s s'
      ((if (m (s.reg .rsi).toNat).shortVal.toInt < 0 then
          m.setLong (s.reg .rdi).toNat (GN (m (s.reg .rdx).toNat).longVal (-(sx (m (s.reg .rsi).toNat).shortVal)))
        else m.setLong (s.reg .rdi).toNat (GP (m (s.reg .rdx).toNat).longVal (sx (m (s.reg .rsi).toNat).shortVal)))
        (s.reg .rdi).toNat) := by
  obtain ⟨t1, ht1⟩ : ∃ t1, t1 = exes [.misc (.lea .rsi .rdx 8)] t := ⟨_, rfl⟩
  have m1 : Move t t1 := ht1 ▸ exes_move rfl
  have d1 : t1.reg .rdi = t.reg .rdi := by asm ht1
  have d2 : t1.reg .rsi = cell (s.reg .rdx) 1 := by rw [← ht.rdx]; asm ht1; rfl
  have d3 : t1.reg .rax = t.reg .rax := by asm ht1
  obtain ⟨s', r1, r2⟩ := ls_run hN hP (w := .rax) (v := (m (s.reg .rsi).toNat).shortVal) h (ht.inn.move m1) (m1.rsp.trans ht.rsp) hF (d1.trans ht.rdi) hb d2
    (by rw [d3]; exact hv) lab p
  refine ⟨s', ?_, ?_⟩
  · show run env ra ([.misc (.lea .rsi .rdx 8)] ++ (lsLines .rax fN fP lab ++ p)) t = _
    rw [run_exes _ rfl, ← ht1, r1]
  · rw [m1.mem, ht.r, ht.b, ite_elem] at r2
    split at r2
    · rename_i hn; rw [if_pos hn, Mem.setLong, set_same]; exact r2
    · rename_i hn; rw [if_neg hn, Mem.setLong, set_same]; exact r2

/-! ## Blocks that push a register -/

/-- Pushing below the frame. -/
theorem In.push (h : TArgs q F s) (hi : In q F s t) (hk : t.reg .rsp = stk (s.reg .rsp) k) (h3 : 1 ≤ k) (hF : k < F) (v : BitVec 64) :
    In q F s (pushVal v t) ∧ (pushVal v t).reg .rsp = stk (s.reg .rsp) (k + 1) ∧
      (∀ a, ¬ InStk (s.reg .rsp) F a → (pushVal v t).mem a = t.mem a) := by
  have hfit := h.ok.fits
  have hsp : (pushVal v t).reg .rsp = stk (s.reg .rsp) (k + 1) := by rw [push_rsp, hk, stk_stk]
  have hm : ∀ a, ¬ InStk (s.reg .rsp) F a → (pushVal v t).mem a = t.mem a := fun a ha =>
    push_mem v t fun e => ha ⟨k, hF, by rw [e, hk, stk_stk]⟩
  refine ⟨⟨by rw [push_reg _ _ (by decide), hi.rbp], ?_, fun a ha hb => by rw [hm a ha, hi.frame a ha hb],
    fun r hr hb => ?_, hi.sym⟩, hsp, hm⟩
  · rw [push_mem, hi.old]
    intro e
    rw [hk, stk_stk] at e
    have := stk_inj (by omega) (by omega) e
    omega
  · rw [push_reg, hi.saved r hr hb]
    rintro rfl; exact absurd hr (by decide)

/-- After a call, `pop` and the end of the routine. -/
theorem pop_leave (hi : In q F s t) (hd : t.reg .rdi = s.reg .rdi) (p : List Line) :
    ∃ s', run env ra ([.pop .rsi] ++ (leave ++ p)) t = some s' ∧ TRet q F s s' (elemAt (n64 q) t.mem (s.reg .rdi)) := by
  obtain ⟨t1, ht1⟩ : ∃ t1, t1 = exes [.pop .rsi] t := ⟨_, rfl⟩
  have hm : t1.mem = t.mem := by rw [ht1]; rfl
  have i1 : In q F s t1 := by
    refine ⟨by rw [← hi.rbp, ht1]; rfl, by rw [hm, hi.old], by rw [hm]; exact hi.frame, fun r hr hb => ?_, by rw [← hi.sym, ht1]; rfl⟩
    rw [← hi.saved r hr hb, ht1]
    simp [Props.calleeSaved] at hr
    rcases hr with rfl | rfl | rfl | rfl | rfl | rfl <;> rfl
  obtain ⟨s', r1, r2⟩ := leave_run (env := env) (ra := ra) i1 (by rw [← hd, ht1]; rfl) p
  refine ⟨s', by rw [run_exes _ rfl, ← ht1, r1], by rw [← hm]; exact r2⟩

/-- `subS1L2`: the second operand is long, the tag cell of the first is in `rax`. -/
theorem subS1L2_tail (he : env "rawSubSL" = libRaw q ra "rawSubSL") (he' : env "rawNegLS" = libRaw q ra "rawNegLS")
    (h : TArgs q F s) (hb : TOpnd q F s (s.reg .rdx)) (ht : At q F s t m) (hF : 4 + callCells q ≤ F)
    (hv : (t.reg .rax).setWidth 32 = (m (s.reg .rsi).toNat).shortVal) (lab : String) (p : List Line) :
    ∃ s', run env ra (subS1L2 lab ++ p) t = some s' ∧ TRet q F s s'
      ((if 0 ≤ (m (s.reg .rsi).toNat).shortVal.toInt then
          m.setLong (s.reg .rdi).toNat (FF.rawSubSL q (sx (m (s.reg .rsi).toNat).shortVal) (m (s.reg .rdx).toNat).longVal)
        else m.setLong (s.reg .rdi).toNat (FF.rawNegLS q ((s.reg .rdi).toNat == (s.reg .rdx).toNat) (m (s.reg .rdx).toNat).longVal
          (-(sx (m (s.reg .rsi).toNat).shortVal)))) (s.reg .rdi).toNat) := by
  obtain ⟨t1, ht1⟩ : ∃ t1, t1 = exes [.misc (.op32 .cmp .rax (.imm 0))] t := ⟨_, rfl⟩
  have m1 : Move t t1 := ht1 ▸ exes_move rfl
  have d1 : t1.reg .rdi = s.reg .rdi := by rw [← ht.rdi]; asm ht1
  have d2 : t1.reg .rdx = s.reg .rdx := by rw [← ht.rdx]; asm ht1
  have d3 : (t1.reg .rax).setWidth 32 = (m (s.reg .rsi).toNat).shortVal := by rw [← hv]; asm ht1
  have f1 : t1.fl.sf = decide ((m (s.reg .rsi).toNat).shortVal.toInt < 0) := by
    rw [← BitVec.msb_eq_toInt, ← hv]; asm ht1
  obtain ⟨i2, sp2, mm2⟩ := (ht.inn.move m1).push h (m1.rsp.trans ht.rsp) (by omega) (by omega) (t1.reg .rsi)
  set t2 := pushVal (t1.reg .rsi) t1 with ht2
  have k1 : t2.reg .rdi = s.reg .rdi := (push_reg _ _ (by decide)).trans d1
  have k2 : t2.reg .rdx = s.reg .rdx := (push_reg _ _ (by decide)).trans d2
  have k3 : (t2.reg .rax).setWidth 32 = (m (s.reg .rsi).toNat).shortVal := by rw [ht2, push_reg _ _ (by decide)]; exact d3
  have e2 : ∀ p, TOpnd q F s p → elemAt (n64 q) t2.mem p = elemAt (n64 q) t.mem p := fun p hp =>
    elemAt_congr fun a h' => by rw [mm2 a (hp.off a h'), m1.mem]
  have a2 := i2.args h sp2 hF le_rfl k1
  have o2 : TOpnd q (callCells q) t2 (s.reg .rdx) := In.opnd hb sp2 hF k1
  have fin : ∀ {t3 t4 : State} {l : Limbs} (p : List Line), Move t2 t3 → t3.reg .rdi = cell (t2.reg .rdi) 1 →
      Called (callCells q) (t3.reg .rdi) (n64 q) t3 t4 →
      rd t4.mem (t3.reg .rdi) (n64 q) = l → ∃ s', run env ra ([op .sub rdi (.imm 8)] ++ ([.pop .rsi] ++ (leave ++ p))) t4 = some s' ∧
        TRet q F s s' ((m.setLong (s.reg .rdi).toNat l) (s.reg .rdi).toNat) := by
    intro t3 t4 l p m3 e3 c4 o4
    obtain ⟨t5, ht5⟩ : ∃ t5, t5 = exes [op .sub rdi (.imm 8)] t4 := ⟨_, rfl⟩
    have d5 : t5.reg .rdi = t4.reg .rdi - 8 := by asm ht5
    have m5 : Move t4 t5 := ht5 ▸ exes_move rfl
    obtain ⟨c5, o5⟩ := wrap a2 m3 e3 c4 m5 (by rw [d5, c4.rdi, e3, cell_one_sub]) o4
    obtain ⟨s', r1, r2⟩ := pop_leave (env := env) (ra := ra) (i2.tcalled h sp2 (by omega) hF k1 c5) (c5.rdi.trans k1) p
    refine ⟨s', by rw [run_exes _ rfl, ← ht5, r1], ?_⟩
    rw [k1, e2 _ ⟨.inl rfl, h.dst.off⟩, ht.r] at o5
    rw [Mem.setLong, set_same, ← o5]; exact r2
  show ∃ s', run env ra ([.misc (.op32 .cmp .rax (.imm 0))] ++ .jump .sign lab :: ([.push .rsi] ++ ([op .add rdi (.imm 8), .misc (.movsx .rsi .rax),
   op .add rdx (.imm 8)] ++ .call "rawSubSL" :: ([op .sub rdi (.imm 8)] ++ ([.pop .rsi] ++ (leave ++ .label lab :: ([.push .rsi] ++
   ([.misc (.lea .rsi .rdx 8), .misc (.movsx .rdx .rax), op .add rdi (.imm 8), .misc (.neg .rdx)] ++ .call "rawNegLS" ::
   ([op .sub rdi (.imm 8)] ++ ([.pop .rsi] ++ (leave ++ p))))))))))) t = some s' ∧ _
  rw [run_exes _ rfl, ← ht1, run_jump, Cond.holds, f1]
  by_cases hn : (m (s.reg .rsi).toNat).shortVal.toInt < 0
  · simp only [hn, decide_true, if_true, show ¬ (0 ≤ (m (s.reg .rsi).toNat).shortVal.toInt) by omega, if_false]
    obtain ⟨t3, ht3⟩ : ∃ t3, t3 = exes [.misc (.lea .rsi .rdx 8), .misc (.movsx .rdx .rax), op .add rdi (.imm 8), .misc (.neg .rdx)] t2 := ⟨_, rfl⟩
    have m3 : Move t2 t3 := ht3 ▸ exes_move rfl
    have j1 : t3.reg .rdi = cell (t2.reg .rdi) 1 := by asm ht3; rfl
    have j2 : t3.reg .rsi = cell (s.reg .rdx) 1 := by rw [← k2]; asm ht3; rfl
    have j3 : t3.reg .rdx = -(sx (m (s.reg .rsi).toNat).shortVal) := by rw [← k3]; asm ht3; rfl
    obtain ⟨t4, e4, c4, o4⟩ := call_rawNegLS he' (a2.args m3 j1) (by rw [j2]; exact o2.opnd m3 j1 rfl)
    have hc : decide (t3.reg .rsi = t3.reg .rdi) = ((s.reg .rdi).toNat == (s.reg .rdx).toNat) := by
      rw [j2, j1, k1, beq_eq_decide]
      congr 1
      apply propext
      constructor
      · intro e; rw [← cell_one_sub (s.reg .rdi), ← cell_one_sub (s.reg .rdx), e]
      · intro e; rw [BitVec.eq_of_toNat_eq e]
    rw [hc, j2, j3, m3.mem] at o4
    have e5 : rd t2.mem (cell (s.reg .rdx) 1) (n64 q) = (m (s.reg .rdx).toNat).longVal := by
      rw [← ht.b, ← e2 _ hb]; rfl
    rw [e5] at o4
    obtain ⟨s', r1, r2⟩ := fin p m3 j1 c4 o4
    refine ⟨s', ?_, r2⟩
    have e6 : dropTo lab ([.push .rsi] ++ ([op .add rdi (.imm 8), .misc (.movsx .rsi .rax),
      op .add rdx (.imm 8)] ++ .call "rawSubSL" :: ([op .sub rdi (.imm 8)] ++ ([.pop .rsi] ++ (leave ++ .label lab :: ([.push .rsi] ++
      ([.misc (.lea .rsi .rdx 8), .misc (.movsx .rdx .rax), op .add rdi (.imm 8), .misc (.neg .rdx)] ++ .call "rawNegLS" ::
      ([op .sub rdi (.imm 8)] ++ ([.pop .rsi] ++ (leave ++ p)))))))))) = dropTo lab (.label lab :: ([.push .rsi] ++
      ([.misc (.lea .rsi .rdx 8), .misc (.movsx .rdx .rax), op .add rdi (.imm 8), .misc (.neg .rdx)] ++ .call "rawNegLS" ::
      ([op .sub rdi (.imm 8)] ++ ([.pop .rsi] ++ (leave ++ p)))))) := rfl
    rw [e6, dropTo_self, run_exes _ rfl, show exes [.push .rsi] t1 = t2 from rfl, run_exes _ rfl, ← ht3, e4, r1]
  · simp only [hn, decide_false, Bool.false_eq_true, if_false, show 0 ≤ (m (s.reg .rsi).toNat).shortVal.toInt by omega, if_true]
    obtain ⟨t3, ht3⟩ : ∃ t3, t3 = exes [op .add rdi (.imm 8), .misc (.movsx .rsi .rax), op .add rdx (.imm 8)] t2 := ⟨_, rfl⟩
    have m3 : Move t2 t3 := ht3 ▸ exes_move rfl
    have j1 : t3.reg .rdi = cell (t2.reg .rdi) 1 := by asm ht3; rfl
    have j2 : t3.reg .rdx = cell (s.reg .rdx) 1 := by rw [← k2]; asm ht3; rfl
    have j3 : t3.reg .rsi = sx (m (s.reg .rsi).toNat).shortVal := by rw [← k3]; asm ht3; rfl
    obtain ⟨t4, e4, c4, o4⟩ := call_rawSubSL he (a2.args m3 j1) (by rw [j2]; exact o2.opnd m3 j1 rfl)
    rw [j2, j3, m3.mem] at o4
    have e5 : rd t2.mem (cell (s.reg .rdx) 1) (n64 q) = (m (s.reg .rdx).toNat).longVal := by
      rw [← ht.b, ← e2 _ hb]; rfl
    rw [e5] at o4
    obtain ⟨s', r1, r2⟩ := fin _ m3 j1 c4 o4
    refine ⟨s', ?_, r2⟩
    rw [run_exes _ rfl, show exes [.push .rsi] t1 = t2 from rfl, run_exes _ rfl, ← ht3, e4, r1]

/-! ## Two short operands -/

theorem oF_add (x y : BitVec 32) : ((x.msb == y.msb) && ((x + y).msb != x.msb)) = hasAdd32Overflow (sx x + sx y) := by
  have h1 := short_bounds x
  have h2 := short_bounds y
  rw [hasAdd32_eq (by rw [sx_add_toInt]; omega) (by rw [sx_add_toInt]; omega), sx_add_toInt]
  rw [BitVec.msb_eq_toInt, BitVec.msb_eq_toInt, BitVec.msb_eq_toInt, BitVec.toInt_add]
  have h3 : (x.toInt + y.toInt).bmod (2 ^ 32) = x.toInt + y.toInt ∨ (x.toInt + y.toInt).bmod (2 ^ 32) = x.toInt + y.toInt - 2 ^ 32
      ∧ 2 ^ 31 ≤ x.toInt + y.toInt ∨ (x.toInt + y.toInt).bmod (2 ^ 32) = x.toInt + y.toInt + 2 ^ 32 ∧ x.toInt + y.toInt < - 2 ^ 31 := by
    rw [Int.bmod_def]; split <;> omega
  have h4 := Int.bmod_lt (x := x.toInt + y.toInt) (m := 2 ^ 32) (by decide)
  have h5 := Int.le_bmod (x := x.toInt + y.toInt) (m := 2 ^ 32) (by decide)
  generalize (x.toInt + y.toInt).bmod (2 ^ 32) = z at *
  norm_num at h3 h4 h5
  rw [Bool.eq_iff_iff]
  simp
  omega

theorem oF_sub (x y : BitVec 32) : ((x.msb != y.msb) && ((x - y).msb != x.msb)) = hasAdd32Overflow (sx x - sx y) := by
  have h1 := short_bounds x
  have h2 := short_bounds y
  rw [hasAdd32_eq (by rw [sx_sub_toInt]; omega) (by rw [sx_sub_toInt]; omega), sx_sub_toInt]
  rw [BitVec.msb_eq_toInt, BitVec.msb_eq_toInt, BitVec.msb_eq_toInt, BitVec.toInt_sub]
  have h3 : (x.toInt - y.toInt).bmod (2 ^ 32) = x.toInt - y.toInt ∨ (x.toInt - y.toInt).bmod (2 ^ 32) = x.toInt - y.toInt - 2 ^ 32
      ∧ 2 ^ 31 ≤ x.toInt - y.toInt ∨ (x.toInt - y.toInt).bmod (2 ^ 32) = x.toInt - y.toInt + 2 ^ 32 ∧ x.toInt - y.toInt < - 2 ^ 31 := by
    rw [Int.bmod_def]; split <;> omega
  have h4 := Int.bmod_lt (x := x.toInt - y.toInt) (m := 2 ^ 32) (by decide)
  have h5 := Int.le_bmod (x := x.toInt - y.toInt) (m := 2 ^ 32) (by decide)
  generalize (x.toInt - y.toInt).bmod (2 ^ 32) = z at *
  norm_num at h3 h4 h5
  rw [Bool.eq_iff_iff]
  simp
  omega

theorem low_add (x y : BitVec 32) : (sx x + sx y).setWidth 32 = x + y := by
  rw [BitVec.setWidth_add _ _ (by decide), sx_low, sx_low]
theorem low_sub (x y : BitVec 32) : (sx x - sx y).setWidth 32 = x - y := by
  rw [BitVec.sub_eq_add_neg, BitVec.setWidth_add _ _ (by decide), BitVec.setWidth_neg_of_le (by decide), sx_low, sx_low, BitVec.sub_eq_add_neg]

/-- The result element after `storeSum`. -/
theorem storeSum_elem (q : Nat) (m : Mem) (r : Nat) (v : BitVec 64) : storeSum q m r v r =
    if hasAdd32Overflow v then ⟨0, true, false, FF.rawCopyS2L q v⟩ else ⟨v.setWidth 32, false, false, (m r).longVal⟩ := by
  unfold storeSum
  split
  · simp [storeS2L, Mem.setShort, Mem.setTy, Mem.setLong, set_same]
  · simp [Mem.setShort, Mem.setTy, set_same]

/-- The end of `s1s2Lines`: the sum is stored in the long form. -/
theorem s2l_tail (he : env "rawCopyS2L" = libRaw q ra "rawCopyS2L") (h : TArgs q F s) (hi : In q F s t)
    (hk : t.reg .rsp = stk (s.reg .rsp) 3) (hd : t.reg .rdi = s.reg .rdi) (hF : 4 + callCells q ≤ F) (o' : Op2)
    {v : BitVec 64} (hv : (o'.eval (sx ((t.reg .rax).setWidth 32)) (sx ((t.reg .rcx).setWidth 32)) t.fl).1 = v) (ho : o' = .add ∨ o' = .sub) (p : List Line) :
    ∃ s', run env ra ([.push .rsi] ++ ([.misc (.movsx .rsi .rax), .misc (.movsx .rdx .rcx), op o' rsi rdx] ++ .call "rawCopyS2L" ::
      ([.pop .rsi] ++ (leave ++ p)))) t = some s' ∧ TRet q F s s' ⟨0, true, false, FF.rawCopyS2L q v⟩ := by
  obtain ⟨i2, sp2, mm2⟩ := hi.push h hk (by omega) (by omega) (t.reg .rsi)
  set t2 := pushVal (t.reg .rsi) t with ht2
  obtain ⟨t3, ht3⟩ : ∃ t3, t3 = exes [.misc (.movsx .rsi .rax), .misc (.movsx .rdx .rcx), op o' rsi rdx] t2 := ⟨_, rfl⟩
  have k1 : t2.reg .rdi = s.reg .rdi := (push_reg _ _ (by decide)).trans hd
  have m3 : Move t2 t3 := by
    rw [ht3]
    rcases ho with rfl | rfl <;> exact exes_move rfl
  have j1 : t3.reg .rdi = t2.reg .rdi := by
    rcases ho with rfl | rfl <;> asm ht3
  have j2 : t3.reg .rsi = v := by
    rw [← hv, ht3]
    rcases ho with rfl | rfl <;> rfl
  have a2 := i2.args h sp2 hF le_rfl k1
  have a3 := a2.move m3 j1
  obtain ⟨t4, e4, c4, o4, o4', _⟩ := call_rawCopyS2L (env := env) (ra := ra) he a3.ok a3.one a3.dst
  have c4' : Called (callCells q) (t2.reg .rdi) (n64 q + 1) t2 t4 := by rw [← j1]; exact .move m3 c4 j1
  obtain ⟨s', r1, r2⟩ := pop_leave (env := env) (ra := ra) (i2.tcalled h sp2 (by omega) hF k1 c4') (c4'.rdi.trans k1) p
  refine ⟨s', ?_, ?_⟩
  · rw [run_exes _ rfl, show exes [.push .rsi] t = t2 from rfl, run_exes _ rfl, ← ht3, e4, r1]
  · rw [j1, k1] at o4 o4'
    rw [j2] at o4'
    rw [elemAt, o4, o4'] at r2
    exact r2

theorem op32_fl (o : Op32) (d b : Reg) (h : o.writes = true) (t : State) :
    (Misc.exec (.op32 o d (.reg b)) t).fl = (o.eval ((t.reg d).setWidth 32) ((t.reg b).setWidth 32) t.fl).2 ∧
    (Misc.exec (.op32 o d (.reg b)) t).reg d = (o.eval ((t.reg d).setWidth 32) ((t.reg b).setWidth 32) t.fl).1.setWidth 64 := by
  simp [Misc.exec, h, Opd32.get, upd_same]

/-- The result element with its tag cell overwritten, then the end of the routine. -/
theorem tag_tail (h : TArgs q F s) (hi : In q F s t) (hk : t.reg .rsp = stk (s.reg .rsp) 3) (hd : t.reg .rdi = s.reg .rdi)
    (hF : 3 + callCells q ≤ F) (p : List Line) :
    ∃ s', run env ra ([op .mov (.mem .rdi 0) rdx] ++ (leave ++ p)) t = some s' ∧
      TRet q F s s' ⟨(t.reg .rdx).setWidth 32, (t.reg .rdx).getLsbD 63, (t.reg .rdx).getLsbD 62,
        (elemAt (n64 q) t.mem (s.reg .rdi)).longVal⟩ := by
  have ht := hi.args h hk hF le_rfl hd
  obtain ⟨t1, ht1⟩ : ∃ t1, t1 = exes [op .mov (.mem .rdi 0) rdx] t := ⟨_, rfl⟩
  obtain ⟨c1, o1⟩ := store_tag (v := t.reg .rdx) ht (t' := t1) (by asm ht1) (by asm ht1) (by asm ht1)
  obtain ⟨s', r1, r2⟩ := leave_run (env := env) (ra := ra) (hi.tcalled h hk (by omega) hF hd c1) (c1.rdi.trans hd) p
  refine ⟨s', by rw [run_exes _ rfl, ← ht1, r1], ?_⟩
  rw [hd] at o1
  rw [o1] at r2
  exact r2

theorem zext_bits (x : BitVec 32) : (x.setWidth 64).setWidth 32 = x ∧ (x.setWidth 64).getLsbD 63 = false ∧
    (x.setWidth 64).getLsbD 62 = false := by
  refine ⟨by simp, by simp, by simp⟩

/-- `s1s2Lines`: the tag cells of the operands are in `rax` and `rcx`. -/
theorem s1s2_tail (he : env "rawCopyS2L" = libRaw q ra "rawCopyS2L") (h : TArgs q F s) (ht : At q F s t m)
    (hF : 4 + callCells q ≤ F) (o : Op32) (o' : Op2) {v : BitVec 64}
    (hv : (o'.eval (sx ((t.reg .rax).setWidth 32)) (sx ((t.reg .rcx).setWidth 32)) t.fl).1 = v)
    (hx : o = .add ∧ o' = .add ∨ o = .sub ∧ o' = .sub) (lab : String) (p : List Line) :
    ∃ s', run env ra (s1s2Lines o o' lab ++ p) t = some s' ∧ TRet q F s s' (storeSum q m (s.reg .rdi).toNat v (s.reg .rdi).toNat) := by
  obtain ⟨t1, ht1⟩ : ∃ t1, t1 = exes [op .xor rdx rdx, .misc (.op32 .mov .rdx (.reg .rax)), .misc (.op32 o .rdx (.reg .rcx))] t := ⟨_, rfl⟩
  have m1 : Move t t1 := by
    rw [ht1]
    rcases hx with ⟨rfl, rfl⟩ | ⟨rfl, rfl⟩ <;> exact exes_move rfl
  have d1 : t1.reg .rdi = s.reg .rdi := by
    rw [← ht.rdi]
    rcases hx with ⟨rfl, rfl⟩ | ⟨rfl, rfl⟩ <;> asm ht1
  have d2 : t1.reg .rax = t.reg .rax := by rcases hx with ⟨rfl, rfl⟩ | ⟨rfl, rfl⟩ <;> asm ht1
  have d3 : t1.reg .rcx = t.reg .rcx := by rcases hx with ⟨rfl, rfl⟩ | ⟨rfl, rfl⟩ <;> asm ht1
  have d4 : t1.reg .rdx = (v.setWidth 32).setWidth 64 := by
    rw [← hv]
    rcases hx with ⟨rfl, rfl⟩ | ⟨rfl, rfl⟩
    · show _ = BitVec.setWidth 64 (BitVec.setWidth 32 (_ + _))
      rw [low_add]; asm ht1
    · show _ = BitVec.setWidth 64 (BitVec.setWidth 32 (_ - _))
      rw [low_sub]; asm ht1
  have f1 : t1.fl.oF = hasAdd32Overflow v := by
    rw [← hv]
    rcases hx with ⟨rfl, rfl⟩ | ⟨rfl, rfl⟩
    · show _ = hasAdd32Overflow (_ + _)
      rw [← oF_add]; asm ht1
    · show _ = hasAdd32Overflow (_ - _)
      rw [← oF_sub]; asm ht1
  have i1 := ht.inn.move m1
  have sp1 := m1.rsp.trans ht.rsp
  show ∃ s', run env ra ([op .xor rdx rdx, .misc (.op32 .mov .rdx (.reg .rax)), .misc (.op32 o .rdx (.reg .rcx))] ++ .jump .overflow lab ::
    ([op .mov (.mem .rdi 0) rdx] ++ (leave ++ .label lab :: ([.push .rsi] ++ ([.misc (.movsx .rsi .rax), .misc (.movsx .rdx .rcx),
    op o' rsi rdx] ++ .call "rawCopyS2L" :: ([.pop .rsi] ++ (leave ++ p))))))) t = some s' ∧ _
  rw [run_exes _ rfl, ← ht1, run_jump, Cond.holds, f1, storeSum_elem]
  cases hasAdd32Overflow v
  · simp only [Bool.false_eq_true, if_false]
    obtain ⟨s', r1, r2⟩ := tag_tail (env := env) (ra := ra) h i1 sp1 d1 (by omega) _
    refine ⟨s', r1, ?_⟩
    obtain ⟨z1, z2, z3⟩ := zext_bits (v.setWidth 32)
    rw [d4, z1, z2, z3, m1.mem, ht.r] at r2
    exact r2
  · simp only [if_true]
    obtain ⟨s', r1, r2⟩ := s2l_tail he h i1 sp1 d1 hF o' (v := v)
      (by rw [← hv, d2, d3]; rcases hx with ⟨_, rfl⟩ | ⟨_, rfl⟩ <;> rfl) (hx.imp And.right And.right) p
    refine ⟨s', ?_, r2⟩
    rw [← r1]
    have e6 : dropTo lab ([op .mov (.mem .rdi 0) rdx] ++ (leave ++ .label lab :: ([.push .rsi] ++ ([.misc (.movsx .rsi .rax),
      .misc (.movsx .rdx .rcx), op o' rsi rdx] ++ .call "rawCopyS2L" :: ([.pop .rsi] ++ (leave ++ p)))))) =
      dropTo lab (.label lab :: ([.push .rsi] ++ ([.misc (.movsx .rsi .rax), .misc (.movsx .rdx .rcx),
      op o' rsi rdx] ++ .call "rawCopyS2L" :: ([.pop .rsi] ++ (leave ++ p))))) := rfl
    rw [e6, dropTo_self]

end add

end FF.X86
