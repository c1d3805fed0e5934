import Verif.AsmRawRun

/-!
# Results of the raw listings with a short operand
-/

namespace FF.X86

theorem addNC_zeros : ∀ (xs : Limbs) (c : Nat), addNC xs (List.replicate xs.length 0) c = addNC xs [] c
  | [], c => by simp [addNC]
  | x :: xs, c => by
    simp only [List.length_cons, List.replicate_succ, addNC]
    rw [show (0 : BitVec 64).toNat = 0 from rfl, Nat.add_zero, addNC_zeros xs]

theorem subNC_zeros : ∀ (xs : Limbs) (c : Nat), subNC xs (List.replicate xs.length 0) c = subNC xs [] c
  | [], c => by simp [subNC]
  | x :: xs, c => by
    simp only [List.length_cons, List.replicate_succ, subNC]
    rw [show (0 : BitVec 64).toNat = 0 from rfl, Nat.zero_add, subNC_zeros xs]
    simp

theorem addNC_short (xs : Limbs) (w : BitVec 64) (c n : Nat) (h : xs.length = n + 1) :
    addNC xs (w :: List.replicate n 0) c = addNC xs [w] c := by
  cases xs with
  | nil => simp at h
  | cons x xs =>
    have : xs.length = n := by simpa using h
    subst this
    simp only [addNC, addNC_zeros]

theorem subNC_short (xs : Limbs) (w : BitVec 64) (c n : Nat) (h : xs.length = n + 1) :
    subNC xs (w :: List.replicate n 0) c = subNC xs [w] c := by
  cases xs with
  | nil => simp at h
  | cons x xs =>
    have : xs.length = n := by simpa using h
    subst this
    simp only [subNC, subNC_zeros]

/-- The number `w` as a source of limbs. -/
def shortSrc (w : BitVec 64) : Src := .cst fun i => if i = 0 then w else 0

theorem shortSrc_lims (m : BitVec 64 → BitVec 64) (w : BitVec 64) (n : Nat) :
    (shortSrc w).lims m 0 (n + 1) = w :: List.replicate n 0 := by
  rw [lims_cons]
  congr 1
  rw [Src.lims, List.eq_replicate_iff]
  refine ⟨by simp, ?_⟩
  intro b hb
  rw [List.mem_map] at hb
  obtain ⟨i, hi, rfl⟩ := hb
  rw [List.mem_range'_1] at hi
  simp only [shortSrc, Src.at]
  rw [if_neg (by omega)]

section
variable (env : String → Option (State → Option State)) (ra : BitVec 64) {q : Nat} (s : State)

/-- Neither the scratch registers `rax`, `rdx` nor the stack pointer. -/
def keepLS (r : Reg) : Prop := r ≠ .rax ∧ r ≠ .rdx

theorem rawAddLS_run (hn : 8 * n64 q ≤ 2 ^ 64) (hQ : QLabel q s) (hs : Sep (s.sym .q) (s.reg .rdi) (n64 q))
    (ha : Alias (s.reg .rsi) (s.reg .rdi) (n64 q)) :
    ∃ s', run env ra (rawAddLS (n64 q)) s = some s' ∧
      RawPost (n64 q) (fun r => r ≠ .rax ∧ r ≠ .rdx ∧ r ≠ .rsp) s s'
        (FF.rawAddLS q (rd s.mem (s.reg .rsi) (n64 q)) (s.reg .rdx)) := by
  obtain ⟨m, hm⟩ : ∃ m, n64 q = m + 1 := ⟨n64 q - 1, by have := n64_pos q; omega⟩
  generalize hs1 : steps [i2 .add rdx (.mem .rsi 0), i2 .mov (.mem .rdi 0) rdx] s = s1
  have hcell : ∀ r : Reg, s.reg r + BitVec.ofNat 64 0 = cell (s.reg r) 0 := fun _ => rfl
  have h1 : s1.mem = upd s.mem (cell (s.reg .rdi) 0) (addF (s.mem (cell (s.reg .rsi) 0)) (s.reg .rdx) false).1 := by
    rw [← hs1]
    simp [steps, step, i2, Ins.exec, Op2.writes, Opd.get, Opd.set, Op2.eval, upd, addF, b2n, cell, BitVec.add_comm]
  have h2 : s1.fl.cf = (addF (s.mem (cell (s.reg .rsi) 0)) (s.reg .rdx) false).2 := by
    rw [← hs1]
    simp [steps, step, i2, Ins.exec, Op2.writes, Opd.get, Opd.set, Op2.eval, addF, b2n, cell, addFlags, Nat.add_comm]
  have h3 : ∀ t, keepLS t → s1.reg t = s.reg t := by
    intro t ht
    rw [← hs1]
    simp [steps, step, i2, Ins.exec, Op2.writes, Opd.get, Opd.set, upd, ht.2]
  have h4 : s1.sym = s.sym := by rw [← hs1]; rfl
  have hI : ∀ i, 1 ≤ i → i < 1 + m → Iter addF (.arr (s.reg .rsi)) (shortSrc (s.reg .rdx)) (s.reg .rdi) none keepLS s.reg
      s.sym [i2 .mov rdx (.imm 0), i2 .adc rdx (.mem .rsi (8 * i)), i2 .mov (.mem .rdi (8 * i)) rdx] i false := by
    intro i hi _ t hr hs'
    have hdi : t.reg .rdi = s.reg .rdi := hr _ (by simp [keepLS])
    have hsi : t.reg .rsi = s.reg .rsi := hr _ (by simp [keepLS])
    have h0 : (shortSrc (s.reg .rdx)).at t.mem i = 0 := by simp only [shortSrc, Src.at]; rw [if_neg (by omega)]
    rw [h0]
    simp only [steps, List.foldl_cons, List.foldl_nil]
    rw [step_mov, step_op2 _ _ _ _ rfl, step_mov]
    simp only [Opd.get, Opd.set, upd_same, addr_eq, upd_ne _ _ (show Reg.rdi ≠ Reg.rdx by decide),
      upd_ne _ _ (show Reg.rsi ≠ Reg.rdx by decide), hdi, hsi, Src.at, Bool.false_eq_true, if_false]
    refine ⟨?_, ?_, fun r hr => ?_, trivial, by simp⟩
    · simp [Op2.eval, addF]
    · simp [Op2.eval, addF, addFlags]
    · rw [upd_ne _ _ hr.2, upd_ne _ _ hr.2]
  have hx : (Src.arr (s.reg .rsi)).ok (s.reg .rdi) 0 (m + 1) := ha.ok hn 0 (m + 1) (by omega)
  have L := loop_run (fst := fun _ => false) m 1 (by omega) hI (fun _ _ => rfl) (Src.ok_tail hx) trivial s1 h3 h4
    (fun _ => rfl)
  have L' := LoopPost.cons (y := shortSrc (s.reg .rdx)) (c := false) (by omega) hx trivial rfl h1 h2 h3 h4 (by simp) L
    (by rintro rfl; simp [steps])
  rw [← hm] at L'
  obtain ⟨s', e1, e2⟩ := comp_sub env ra hn rfl L' ⟨by simp [keepLS], by simp [keepLS]⟩ hQ hs
  have hp := pass_addF ((Src.arr (s.reg .rsi)).lims s.mem 0 (n64 q)) ((shortSrc (s.reg .rdx)).lims s.mem 0 (n64 q)) false
    (by rw [lims_length, lims_length])
  refine ⟨s', ?_, ?_⟩
  · rw [← e1, ← hs1, ← steps_append, ← run_code, rawAddLS, hm, tailSub]
    simp
  · rw [← bne_zero_b2n (pass _ _ _ _).2, hp.2, hp.1] at e2
    have e : (shortSrc (s.reg .rdx)).lims s.mem 0 (n64 q) = s.reg .rdx :: List.replicate m 0 := by
      rw [hm, shortSrc_lims]
    rw [e, addNC_short _ _ _ _ (by rw [lims_length, hm])] at e2
    exact ⟨e2.out, e2.frame, fun r hr => e2.regs r ⟨⟨hr.1, hr.2.1⟩, hr.1, hr.2.2⟩, e2.rsp⟩

theorem rawSubLS_run (hn : 8 * n64 q ≤ 2 ^ 64) (hQ : QLabel q s) (hs : Sep (s.sym .q) (s.reg .rdi) (n64 q))
    (ha : Alias (s.reg .rsi) (s.reg .rdi) (n64 q)) :
    ∃ s', run env ra (rawSubLS (n64 q)) s = some s' ∧
      RawPost (n64 q) (fun r => r ≠ .rax ∧ r ≠ .rdx ∧ r ≠ .rsp) s s'
        (FF.rawSubLS q (rd s.mem (s.reg .rsi) (n64 q)) (s.reg .rdx)) := by
  obtain ⟨m, hm⟩ : ∃ m, n64 q = m + 1 := ⟨n64 q - 1, by have := n64_pos q; omega⟩
  generalize hs1 : steps [i2 .mov rax (.mem .rsi 0), i2 .sub rax rdx, i2 .mov (.mem .rdi 0) rax, i2 .mov rdx (.imm 0)] s = s1
  have h1 : s1.mem = upd s.mem (cell (s.reg .rdi) 0) (subF (s.mem (cell (s.reg .rsi) 0)) (s.reg .rdx) false).1 := by
    rw [← hs1]
    simp [steps, step, i2, Ins.exec, Op2.writes, Opd.get, Opd.set, Op2.eval, upd, subF, b2n, cell]
  have h2 : s1.fl.cf = (subF (s.mem (cell (s.reg .rsi) 0)) (s.reg .rdx) false).2 := by
    rw [← hs1]
    simp [steps, step, i2, Ins.exec, Op2.writes, Opd.get, Opd.set, Op2.eval, subF, b2n, cell, subFlags, upd]
  have h3 : ∀ t, keepLS t → s1.reg t = s.reg t := by
    intro t ht
    rw [← hs1]
    simp [steps, step, i2, Ins.exec, Op2.writes, Opd.get, Opd.set, upd, ht.1, ht.2]
  have hdx : s1.reg .rdx = 0 := by rw [← hs1]; rfl
  have h4 : s1.sym = s.sym := by rw [← hs1]; rfl
  have hI : ∀ i, 1 ≤ i → i < 1 + m → Iter subF (.arr (s.reg .rsi)) (shortSrc (s.reg .rdx)) (s.reg .rdi) none notRax s1.reg
      s.sym [i2 .mov rax (.mem .rsi (8 * i)), i2 .sbb rax rdx, i2 .mov (.mem .rdi (8 * i)) rax] i false := by
    intro i hi _ t hr hs'
    have hdi : t.reg .rdi = s.reg .rdi := by rw [hr _ (by simp [notRax]), h3 _ (by simp [keepLS])]
    have hsi : t.reg .rsi = s.reg .rsi := by rw [hr _ (by simp [notRax]), h3 _ (by simp [keepLS])]
    have hdx' : t.reg .rdx = 0 := by rw [hr _ (by simp [notRax]), hdx]
    have h0 : (shortSrc (s.reg .rdx)).at t.mem i = 0 := by simp only [shortSrc, Src.at]; rw [if_neg (by omega)]
    rw [h0]
    simp only [steps, List.foldl_cons, List.foldl_nil]
    rw [step_mov, step_op2 _ _ _ _ rfl, step_mov]
    simp only [Opd.get, Opd.set, upd_same, addr_eq, upd_ne _ _ (show Reg.rdi ≠ Reg.rax by decide),
      upd_ne _ _ (show Reg.rdx ≠ Reg.rax by decide), hdi, hsi, hdx', Src.at, Bool.false_eq_true, if_false]
    refine ⟨rfl, rfl, fun r hr => ?_, trivial, by simp⟩
    rw [upd_ne _ _ hr, upd_ne _ _ hr]
  have hx : (Src.arr (s.reg .rsi)).ok (s.reg .rdi) 0 (m + 1) := ha.ok hn 0 (m + 1) (by omega)
  have L := loop_run (fst := fun _ => false) m 1 (by omega) hI (fun _ _ => rfl) (Src.ok_tail hx) trivial s1 (fun _ _ => rfl) h4
    (fun _ => rfl)
  have L' := LoopPost.cons (y := shortSrc (s.reg .rdx)) (c := false) (by omega) hx trivial rfl h1 h2 h3 h4 (by simp)
    (L.mono (fun r hr => hr.1)) (by rintro rfl; simp [steps])
  rw [← hm] at L'
  obtain ⟨s', e1, e2⟩ := comp_add env ra hn rfl L' ⟨by simp [keepLS], by simp [keepLS]⟩ hQ hs
  have hp := pass_subF ((Src.arr (s.reg .rsi)).lims s.mem 0 (n64 q)) ((shortSrc (s.reg .rdx)).lims s.mem 0 (n64 q)) false
    (by rw [lims_length, lims_length])
  refine ⟨s', ?_, ?_⟩
  · rw [← e1, ← hs1, ← steps_append, ← run_code, rawSubLS, hm]
    simp
  · rw [← bne_zero_b2n (pass _ _ _ _).2, hp.2, hp.1] at e2
    have e : (shortSrc (s.reg .rdx)).lims s.mem 0 (n64 q) = s.reg .rdx :: List.replicate m 0 := by
      rw [hm, shortSrc_lims]
    rw [e, subNC_short _ _ _ _ (by rw [lims_length, hm])] at e2
    exact ⟨e2.out, e2.frame, fun r hr => e2.regs r ⟨⟨hr.1, hr.2.1⟩, hr.1, hr.2.2⟩, e2.rsp⟩

/-- Neither `rax` nor `rsi`. -/
def keepSL (r : Reg) : Prop := r ≠ .rax ∧ r ≠ .rsi

theorem rawSubSL_run (hn : 8 * n64 q ≤ 2 ^ 64) (hQ : QLabel q s) (hs : Sep (s.sym .q) (s.reg .rdi) (n64 q))
    (ha : Alias (s.reg .rdx) (s.reg .rdi) (n64 q)) :
    ∃ s', run env ra (rawSubSL (n64 q)) s = some s' ∧
      RawPost (n64 q) (fun r => r ≠ .rax ∧ r ≠ .rsi ∧ r ≠ .rsp) s s'
        (FF.rawSubSL q (s.reg .rsi) (rd s.mem (s.reg .rdx) (n64 q))) := by
  obtain ⟨m, hm⟩ : ∃ m, n64 q = m + 1 := ⟨n64 q - 1, by have := n64_pos q; omega⟩
  generalize hs1 : steps [i2 .sub rsi (.mem .rdx 0), i2 .mov (.mem .rdi 0) rsi] s = s1
  have h1 : s1.mem = upd s.mem (cell (s.reg .rdi) 0) (subF (s.reg .rsi) (s.mem (cell (s.reg .rdx) 0)) false).1 := by
    rw [← hs1]
    simp [steps, step, i2, Ins.exec, Op2.writes, Opd.get, Opd.set, Op2.eval, upd, subF, b2n, cell]
  have h2 : s1.fl.cf = (subF (s.reg .rsi) (s.mem (cell (s.reg .rdx) 0)) false).2 := by
    rw [← hs1]
    simp [steps, step, i2, Ins.exec, Op2.writes, Opd.get, Opd.set, Op2.eval, subF, b2n, cell, subFlags]
  have h3 : ∀ t, keepSL t → s1.reg t = s.reg t := by
    intro t ht
    rw [← hs1]
    simp [steps, step, i2, Ins.exec, Op2.writes, Opd.get, Opd.set, upd, ht.2]
  have h4 : s1.sym = s.sym := by rw [← hs1]; rfl
  have hI : ∀ i, 1 ≤ i → i < 1 + m → Iter subF (shortSrc (s.reg .rsi)) (.arr (s.reg .rdx)) (s.reg .rdi) none keepSL s.reg
      s.sym [i2 .mov rax (.imm 0), i2 .sbb rax (.mem .rdx (8 * i)), i2 .mov (.mem .rdi (8 * i)) rax] i false := by
    intro i hi _ t hr hs'
    have hdi : t.reg .rdi = s.reg .rdi := hr _ (by simp [keepSL])
    have hdx : t.reg .rdx = s.reg .rdx := hr _ (by simp [keepSL])
    have h0 : (shortSrc (s.reg .rsi)).at t.mem i = 0 := by simp only [shortSrc, Src.at]; rw [if_neg (by omega)]
    rw [h0]
    simp only [steps, List.foldl_cons, List.foldl_nil]
    rw [step_mov, step_op2 _ _ _ _ rfl, step_mov]
    simp only [Opd.get, Opd.set, upd_same, addr_eq, upd_ne _ _ (show Reg.rdi ≠ Reg.rax by decide),
      upd_ne _ _ (show Reg.rdx ≠ Reg.rax by decide), hdi, hdx, Src.at, Bool.false_eq_true, if_false]
    refine ⟨rfl, rfl, fun r hr => ?_, trivial, by simp⟩
    rw [upd_ne _ _ hr.1, upd_ne _ _ hr.1]
  have hy : (Src.arr (s.reg .rdx)).ok (s.reg .rdi) 0 (m + 1) := ha.ok hn 0 (m + 1) (by omega)
  have L := loop_run (fst := fun _ => false) m 1 (by omega) hI (fun _ _ => rfl) trivial (Src.ok_tail hy) s1 h3 h4
    (fun _ => rfl)
  have L' := LoopPost.cons (x := shortSrc (s.reg .rsi)) (c := false) (by omega) trivial hy rfl h1 h2 h3 h4 (by simp) L
    (by rintro rfl; simp [steps])
  rw [← hm] at L'
  obtain ⟨s', e1, e2⟩ := comp_add env ra hn rfl L' ⟨by simp [keepSL], by simp [keepSL]⟩ hQ hs
  have hp := pass_subF ((shortSrc (s.reg .rsi)).lims s.mem 0 (n64 q)) ((Src.arr (s.reg .rdx)).lims s.mem 0 (n64 q)) false
    (by rw [lims_length, lims_length])
  refine ⟨s', ?_, ?_⟩
  · rw [← e1, ← hs1, ← steps_append, ← run_code, rawSubSL, hm]
    simp
  · rw [← bne_zero_b2n (pass _ _ _ _).2, hp.2, hp.1] at e2
    have e : (shortSrc (s.reg .rsi)).lims s.mem 0 (n64 q) = FF.shortLimbs q (s.reg .rsi) := by
      rw [hm, shortSrc_lims, shortLimbs, hm]; rfl
    rw [e] at e2
    exact ⟨e2.out, e2.frame, fun r hr => e2.regs r ⟨⟨hr.1, hr.2.1⟩, hr.1, hr.2.2⟩, e2.rsp⟩

end

end FF.X86
