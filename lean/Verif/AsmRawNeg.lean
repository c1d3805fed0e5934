import Verif.AsmRawMisc

/-!
# Results of the raw listings: negation with a short operand and conversion of an integer
-/

namespace FF.X86

theorem setLow8_low (x : BitVec 64) (b : BitVec 8) : (setLow8 x b).setWidth 8 = b := by
  apply BitVec.eq_of_toNat_eq
  have := b.isLt
  have := x.isLt
  rw [setLow8, BitVec.toNat_setWidth, BitVec.toNat_ofNat]
  omega

theorem setHigh8_low (x : BitVec 64) (b : BitVec 8) : (setHigh8 x b).setWidth 8 = x.setWidth 8 := by
  apply BitVec.eq_of_toNat_eq
  have := b.isLt
  have := x.isLt
  rw [setHigh8, BitVec.toNat_setWidth, BitVec.toNat_ofNat, BitVec.toNat_setWidth]
  omega

theorem setHigh8_high (x : BitVec 64) (b : BitVec 8) : (setHigh8 x b >>> 8).setWidth 8 = b := by
  apply BitVec.eq_of_toNat_eq
  have := b.isLt
  have := x.isLt
  rw [setHigh8, BitVec.toNat_setWidth, BitVec.toNat_ushiftRight, BitVec.toNat_ofNat, Nat.shiftRight_eq_div_pow]
  omega

section
variable (env : String → Option (State → Option State)) (ra : BitVec 64) {q : Nat} (s : State)

theorem run_setcDl (p : List Line) : run env ra (.setcDl :: p) s = run env ra p (Line.setcDl.exec s) := by
  rw [run] <;> simp
theorem run_setcDh (p : List Line) : run env ra (.setcDh :: p) s = run env ra p (Line.setcDh.exec s) := by
  rw [run] <;> simp
theorem run_orDlDh (p : List Line) : run env ra (.orDlDh :: p) s = run env ra p (Line.orDlDh.exec s) := by
  rw [run] <;> simp
theorem run_movAl (b : BitVec 8) (p : List Line) : run env ra (.movAl b :: p) s = run env ra p ((Line.movAl b).exec s) := by
  rw [run] <;> simp
theorem run_shlRax (k : Nat) (p : List Line) : run env ra (.shlRax k :: p) s = run env ra p ((Line.shlRax k).exec s) := by
  rw [run] <;> simp

/-- First loop of `rawNegLS`. -/
theorem negLS_loop1 (hn : 8 * n64 q ≤ 2 ^ 64) (hs : Sep (s.sym .q) (s.reg .rdi) (n64 q)) :
    LoopPost subF (.arr (s.sym .q)) (shortSrc (s.reg .rdx)) (s.reg .rdi) none notRax 0 (n64 q) false s
      (steps ([i2 .mov rax (.sym .q 0), i2 .sub rax rdx, i2 .mov (.mem .rdi 0) rax] ++
    (List.range' 1 (n64 q - 1)).flatMap fun i =>
      [i2 .mov rax (.sym .q (8 * i)), i2 .sbb rax (.imm 0), i2 .mov (.mem .rdi (8 * i)) rax]) s) := by
  obtain ⟨m, hm⟩ : ∃ m, n64 q = m + 1 := ⟨n64 q - 1, by have := n64_pos q; omega⟩
  rw [steps_append]
  generalize hs1 : steps [i2 .mov rax (.sym .q 0), i2 .sub rax rdx, i2 .mov (.mem .rdi 0) rax] s = s1
  have h1 : s1.mem = upd s.mem (cell (s.reg .rdi) 0) (subF (s.mem (cell (s.sym .q) 0)) (s.reg .rdx) false).1 := by
    rw [← hs1]
    simp [steps, step, i2, Ins.exec, Op2.writes, Opd.get, Opd.set, Op2.eval, upd, subF, b2n, cell]
  have h2 : s1.fl.cf = (subF (s.mem (cell (s.sym .q) 0)) (s.reg .rdx) false).2 := by
    rw [← hs1]
    simp [steps, step, i2, Ins.exec, Op2.writes, Opd.get, Opd.set, Op2.eval, subF, b2n, cell, subFlags, upd]
  have h3 : ∀ t, notRax t → s1.reg t = s.reg t := by
    intro t ht
    rw [← hs1]
    have ht' : t ≠ .rax := ht
    simp [steps, step, i2, Ins.exec, Op2.writes, Opd.get, Opd.set, upd, ht']
  have h4 : s1.sym = s.sym := by rw [← hs1]; rfl
  have hI : ∀ i, 1 ≤ i → i < 1 + m → Iter subF (.arr (s.sym .q)) (shortSrc (s.reg .rdx)) (s.reg .rdi) none notRax s.reg
      s.sym [i2 .mov rax (.sym .q (8 * i)), i2 .sbb rax (.imm 0), i2 .mov (.mem .rdi (8 * i)) rax] i false := by
    intro i hi _ t hr hs'
    have hdi : t.reg .rdi = s.reg .rdi := hr _ (by simp [notRax])
    have h0 : (shortSrc (s.reg .rdx)).at t.mem i = 0 := by simp only [shortSrc, Src.at]; rw [if_neg (by omega)]
    rw [h0]
    simp only [steps, List.foldl_cons, List.foldl_nil]
    rw [step_mov, step_op2 _ _ _ _ rfl, step_mov]
    simp only [Opd.get, Opd.set, upd_same, addr_eq, upd_ne _ _ (show Reg.rdi ≠ Reg.rax by decide),
      hdi, hs', Src.at, Bool.false_eq_true, if_false]
    refine ⟨rfl, rfl, fun r hr => ?_, trivial, by simp⟩
    rw [upd_ne _ _ hr, upd_ne _ _ hr]
  have hx : (Src.arr (s.sym .q)).ok (s.reg .rdi) 0 (m + 1) := Alias.ok hn (.inr hs) 0 (m + 1) (by omega)
  have L := loop_run (fst := fun _ => false) m 1 (by omega) hI (fun _ _ => rfl) (Src.ok_tail hx) trivial s1 h3 h4
    (fun _ => rfl)
  have L' := LoopPost.cons (y := shortSrc (s.reg .rdx)) (c := false) (by omega) hx trivial rfl h1 h2 h3 h4 (by simp) L
    (by rintro rfl; simp [steps])
  rw [hm]
  exact L'

/-- Not the scratch registers `rax`, `rdx` nor the stack pointer. -/
def keepNeg (r : Reg) : Prop := r ≠ .rax ∧ r ≠ .rdx ∧ r ≠ .rsp

theorem zf_or (x : BitVec 64) (c1 c2 : Bool) :
    decide ((setHigh8 x (BitVec.ofNat 8 (b2n c2))).setWidth 8 ||| ((setHigh8 x (BitVec.ofNat 8 (b2n c2))) >>> 8).setWidth 8 = 0#8)
      = !(c1 || c2) ∨ x.setWidth 8 ≠ BitVec.ofNat 8 (b2n c1) := by
  by_cases h : x.setWidth 8 = BitVec.ofNat 8 (b2n c1)
  · left
    rw [setHigh8_low, setHigh8_high, h]
    cases c1 <;> cases c2 <;> decide
  · exact .inr h

theorem rawNegLS_run (hn : 8 * n64 q ≤ 2 ^ 64) (hQ : QLabel q s) (hs : Sep (s.sym .q) (s.reg .rdi) (n64 q))
    (ha : Alias (s.reg .rsi) (s.reg .rdi) (n64 q)) :
    ∃ s', run env ra (rawNegLS (n64 q)) s = some s' ∧ RawPost (n64 q) keepNeg s s'
      (FF.rawNegLS q (decide (s.reg .rsi = s.reg .rdi)) (rd s.mem (s.reg .rsi) (n64 q)) (s.reg .rdx)) := by
  have L1 := negLS_loop1 s hn hs
  set n := n64 q with hq
  obtain ⟨m, hm⟩ : ∃ m, n = m + 1 := ⟨n - 1, by have := n64_pos q; omega⟩
  have e : rawNegLS n = code ([i2 .mov rax (.sym .q 0), i2 .sub rax rdx, i2 .mov (.mem .rdi 0) rax] ++
      (List.range' 1 (n - 1)).flatMap fun i =>
        [i2 .mov rax (.sym .q (8 * i)), i2 .sbb rax (.imm 0), i2 .mov (.mem .rdi (8 * i)) rax]) ++
      (.setcDl :: (code ((List.range n).flatMap fun i =>
        [i2 .mov rax (.mem .rdi (8 * i)), i2 (if i = 0 then .sub else .sbb) rax (.mem .rsi (8 * i)),
          i2 .mov (.mem .rdi (8 * i)) rax]) ++ (.setcDh :: .orDlDh :: .jump .zero "done" ::
        (code (loopQ .add .adc n) ++ (.label "done" :: .ret :: []))))) := by
    simp [rawNegLS, code]
  rw [e, run_code, run_setcDl, run_code, run_setcDh, run_orDlDh, run_jump, dropTo_code, run_code, run_label, run_ret]
  simp only [dropTo, if_true, run_ret]
  generalize steps ([i2 .mov rax (.sym .q 0), i2 .sub rax rdx, i2 .mov (.mem .rdi 0) rax] ++
      (List.range' 1 (n - 1)).flatMap fun i =>
        [i2 .mov rax (.sym .q (8 * i)), i2 .sbb rax (.imm 0), i2 .mov (.mem .rdi (8 * i)) rax]) s = s1 at L1 ⊢
  generalize hs2 : Line.setcDl.exec s1 = s2
  have hm2 : s2.mem = s1.mem := by rw [← hs2]; rfl
  have hsy2 : s2.sym = s.sym := by rw [← hs2, ← L1.sym]; rfl
  have hr2 : ∀ r, r ≠ .rax → r ≠ .rdx → s2.reg r = s.reg r := by
    intro r h h'
    rw [← hs2, ← L1.regs r h]
    exact upd_ne _ _ h'
  have hdx2 : (s2.reg .rdx).setWidth 8 = BitVec.ofNat 8 (b2n s1.fl.cf) := by
    rw [← hs2]
    simp only [Line.exec, upd_same]
    exact setLow8_low _ _
  have hdi2 := hr2 .rdi (by decide) (by decide)
  have hsi2 := hr2 .rsi (by decide) (by decide)
  have L2 := loop_run (F := subF) (x := .arr (s2.reg .rdi)) (y := .arr (s2.reg .rsi)) (d := s2.reg .rdi)
    (fst := fun i => decide (i = 0)) n 0 (by omega)
    (fun i _ _ => loopN_iter (.mem .rdi (8 * i)) (.arr (s2.reg .rdi)) (.mem .rsi (8 * i)) (.arr (s2.reg .rsi)) s2 i
      (fun t hr hs => by simp only [Opd.get, hr .rdi (by simp [notRax])]; rfl)
      (fun t hr hs => by simp only [Opd.get, hr .rsi (by simp [notRax])]; rfl))
    (fun i hi => by simp; omega) (Alias.ok hn (.inl rfl) 0 n (by omega))
    (Alias.ok hn (by rw [hsi2, hdi2]; exact ha) 0 n (by omega)) s2
    (fun _ _ => rfl) rfl (fun h => absurd h (by omega))
  simp only [decide_true, if_true, ← List.range_eq_range'] at L2
  generalize steps ((List.range n).flatMap fun i =>
        [i2 .mov rax (.mem .rdi (8 * i)), i2 (if i = 0 then .sub else .sbb) rax (.mem .rsi (8 * i)),
          i2 .mov (.mem .rdi (8 * i)) rax]) s2 = s3 at L2 ⊢
  generalize hs4 : Line.orDlDh.exec (Line.setcDh.exec s3) = s4
  have hm4 : s4.mem = s3.mem := by rw [← hs4]; rfl
  have hsy4 : s4.sym = s.sym := by rw [← hs4, ← hsy2, ← L2.sym]; rfl
  have hr4 : ∀ r, r ≠ .rax → r ≠ .rdx → s4.reg r = s.reg r := by
    intro r h h'
    rw [← hr2 r h h', ← L2.regs r h, ← hs4]
    simp only [Line.exec]
    rw [upd_ne _ _ h', upd_ne _ _ h']
  have hzf4 : s4.fl.zf = !(s1.fl.cf || s3.fl.cf) := by
    rw [← hs4]
    simp only [Line.exec, upd_same]
    rcases zf_or (s3.reg .rdx) s1.fl.cf s3.fl.cf with h | h
    · exact h
    · exact absurd (by rw [L2.regs .rdx (by simp [notRax]), hdx2]) h
  have hdi4 := hr4 .rdi (by decide) (by decide)
  -- values
  have hp1 := pass_subF ((Src.arr (s.sym .q)).lims s.mem 0 n) ((shortSrc (s.reg .rdx)).lims s.mem 0 n) false
    (by rw [lims_length, lims_length])
  have e1 : subNC ((Src.arr (s.sym .q)).lims s.mem 0 n) ((shortSrc (s.reg .rdx)).lims s.mem 0 n) (b2n false)
      = mpn_sub_1 (rawq q) (s.reg .rdx) := by
    rw [← rd_eq_lims, hQ, hm, shortSrc_lims, subNC_short _ _ _ _ (by rw [← hQ, rd_length, ← hm])]; rfl
  rw [e1] at hp1
  have o1 : (Src.arr (s2.reg .rdi)).lims s2.mem 0 n = (mpn_sub_1 (rawq q) (s.reg .rdx)).1 := by
    rw [hdi2, hm2, L1.out, hp1.1]
  have c1 : s1.fl.cf = ((mpn_sub_1 (rawq q) (s.reg .rdx)).2 != 0) := by
    rw [L1.carry, ← hp1.2, bne_zero_b2n]
  have o2 : (Src.arr (s2.reg .rsi)).lims s2.mem 0 n
      = if decide (s.reg .rsi = s.reg .rdi) then (mpn_sub_1 (rawq q) (s.reg .rdx)).1 else rd s.mem (s.reg .rsi) n := by
    by_cases h : s.reg .rsi = s.reg .rdi
    · simp only [h, decide_true, if_true]
      rw [← o1, hsi2, h, hdi2]
    · simp only [h, decide_false, Bool.false_eq_true, if_false]
      have hsep := ha.resolve_left h
      rw [hsi2, hm2, ← rd_eq_lims]
      exact rd_congr fun i hi => L1.frame _ fun j _ hj => hsep i j hi (by omega)
  have hp2 := pass_subF ((Src.arr (s2.reg .rdi)).lims s2.mem 0 n) ((Src.arr (s2.reg .rsi)).lims s2.mem 0 n) false
    (by rw [lims_length, lims_length])
  have o3 := L2.out.trans hp2.1
  have c3 := L2.carry
  rw [← bne_zero_b2n (pass _ _ _ _).2, hp2.2] at c3
  rw [o1, o2] at o3 c3
  rw [← rd_eq_lims] at o3
  have hd4 : rd s4.mem (s4.reg .rdi) n = (mpn_sub_n (mpn_sub_1 (rawq q) (s.reg .rdx)).1
      (if decide (s.reg .rsi = s.reg .rdi) then (mpn_sub_1 (rawq q) (s.reg .rdx)).1 else rd s.mem (s.reg .rsi) n)).1 := by
    rw [hm4, hdi4]; rw [hdi2] at o3; exact o3
  have hfr4 : ∀ a, (∀ i, i < n → a ≠ cell (s.reg .rdi) i) → s4.mem a = s.mem a := by
    intro a ha
    rw [hm4, L2.frame a (fun i _ h => by rw [hdi2]; exact ha i (by omega)), hm2,
      L1.frame a (fun i _ h => ha i (by omega))]
  have hb : (s1.fl.cf || s3.fl.cf) = ((mpn_sub_1 (rawq q) (s.reg .rdx)).2 != 0 ||
      (mpn_sub_n (mpn_sub_1 (rawq q) (s.reg .rdx)).1
      (if decide (s.reg .rsi = s.reg .rdi) then (mpn_sub_1 (rawq q) (s.reg .rdx)).1 else rd s.mem (s.reg .rsi) n)).2 != 0) := by
    rw [c1, c3]; rfl
  have hQ4 : QLabel q s4 := by
    unfold QLabel
    rw [hsy4, ← hQ, ← hq]
    exact rd_congr fun i hi => hfr4 _ fun j hj => hs i j hi (by omega)
  unfold FF.rawNegLS
  simp only
  rw [← hb, ← hd4]
  rw [Cond.holds, hzf4]
  cases hc : (s1.fl.cf || s3.fl.cf) with
  | false =>
    simp only [Bool.not_false, if_true]
    refine ⟨_, rfl, ?_, ?_, ?_, ?_⟩
    · rw [condAdd, hdi4]; rfl
    · exact hfr4
    · intro r hr; simp only [upd_ne _ _ hr.2.2]; exact hr4 r hr.1 hr.2.1
    · simp only [upd_same]; rw [hr4 _ (by decide) (by decide)]
  | true =>
    simp only [Bool.not_true, Bool.false_eq_true, if_false]
    have L := loopQ_run arith_add n hn (by omega) s4 (by rw [hsy4, hdi4]; exact hs)
    refine ⟨_, rfl, ?_, ?_, ?_, ?_⟩
    · rw [rd_eq_lims]
      have := L.out
      rw [(pass_addF _ _ _ (by rw [lims_length, lims_length])).1] at this
      rw [condAdd, if_pos rfl]
      simp only
      rw [← hdi4]
      refine this.trans ?_
      rw [mpn_add_n, ← hQ4]; rfl
    · intro a ha
      rw [← hfr4 a ha]
      exact L.frame a (fun i _ h => by rw [hdi4]; exact ha i (by omega))
    · intro r hr; simp only [upd_ne _ _ hr.2.2]; rw [L.regs r hr.1, hr4 r hr.1 hr.2.1]
    · simp only [upd_same]; rw [L.regs .rsp (by simp [notRax]), hr4 _ (by decide) (by decide)]

/-! ## `rawCopyS2L` -/

/-- All ones above the low word. -/
def negSrc (w : BitVec 64) : Src := .cst fun i => if i = 0 then w else -1

theorem negSrc_lims (m : BitVec 64 → BitVec 64) (w : BitVec 64) (n : Nat) :
    (negSrc w).lims m 0 (n + 1) = w :: List.replicate n (-1) := by
  rw [lims_cons]
  congr 1
  rw [Src.lims, List.eq_replicate_iff]
  refine ⟨by simp, ?_⟩
  intro b hb
  rw [List.mem_map] at hb
  obtain ⟨i, hi, rfl⟩ := hb
  rw [List.mem_range'_1] at hi
  simp only [negSrc, Src.at]
  rw [if_neg (by omega)]

/-- The tag word of a long, not Montgomery, element. -/
def longTag : BitVec 64 := 0x8000000000000000

theorem shl_tag (x : BitVec 64) : setLow8 x 0x80 <<< 56 = longTag := by
  apply BitVec.eq_of_toNat_eq
  rw [BitVec.toNat_shiftLeft, setLow8, BitVec.toNat_ofNat, Nat.shiftLeft_eq]
  have := x.isLt
  have h1 : (0x80 : BitVec 8).toNat = 128 := rfl
  have h2 : longTag.toNat = 9223372036854775808 := rfl
  rw [h1, h2]
  omega

theorem msb_toInt (v : BitVec 64) : v.msb = decide (v.toInt < 0) := by
  rw [Bool.eq_iff_iff, decide_eq_true_eq, BitVec.toInt_neg_iff, BitVec.msb_eq_decide, decide_eq_true_eq]
  omega

/-- What `rawCopyS2L` leaves behind. -/
structure S2LPost (q : Nat) (s s' : State) : Prop where
  tag : s'.mem (s.reg .rdi) = longTag
  out : rd s'.mem (cell (s.reg .rdi) 1) (n64 q) = FF.rawCopyS2L q (s.reg .rsi)
  frame : ∀ a, (∀ i, i < n64 q + 1 → a ≠ cell (s.reg .rdi) i) → s'.mem a = s.mem a
  regs : ∀ r, r ≠ .rax → r ≠ .rsi → r ≠ .rsp → s'.reg r = s.reg r
  rsp : s'.reg .rsp = s.reg .rsp + 8

/-- Neither `rax` nor `rsi`. -/
def keepS2L (r : Reg) : Prop := r ≠ .rax ∧ r ≠ .rsi

theorem s2l_post {s1 s' : State} (hn : 8 * (n64 q + 1) ≤ 2 ^ 64) {F : BitVec 64 → BitVec 64 → Bool → BitVec 64 × Bool}
    {x y : Src} {c : Bool}
    (hm : s1.mem = upd s.mem (s.reg .rdi) longTag) (hr : ∀ r, r ≠ .rax → s1.reg r = s.reg r)
    (L : LoopPost F x y (cell (s.reg .rdi) 1) none keepS2L 0 (n64 q) c s1 s')
    (ho : (pass F (x.lims s1.mem 0 (n64 q)) (y.lims s1.mem 0 (n64 q)) c).1 = FF.rawCopyS2L q (s.reg .rsi)) :
    S2LPost q s { s' with reg := upd s'.reg .rsp (s'.reg .rsp + 8) } := by
  refine ⟨?_, ?_, ?_, ?_, ?_⟩
  · have := L.frame (s.reg .rdi) (fun i _ h => by
      rw [cell_add]
      intro e
      have e : cell (s.reg .rdi) 0 = cell (s.reg .rdi) (1 + i) := by rw [cell_zero]; exact e
      have := cell_inj (by omega) (by omega) e
      omega)
    simp only
    rw [this, hm, upd_same]
  · rw [rd_eq_lims]; exact L.out.trans ho
  · intro a ha
    simp only
    rw [L.frame a (fun i _ h => by rw [cell_add]; exact ha _ (by omega)), hm, upd_ne]
    have := ha 0 (by omega)
    rwa [cell_zero] at this
  · intro r h1 h2 h3; simp only [upd_ne _ _ h3]; rw [L.regs r ⟨h1, h2⟩, hr r h1]
  · simp only [upd_same]; rw [L.regs _ ⟨by decide, by decide⟩, hr _ (by decide)]

theorem rawCopyS2L_run (hn : 8 * (n64 q + 1) ≤ 2 ^ 64) (hQ : QLabel q s)
    (hs : ∀ i j, i < n64 q → j < n64 q + 1 → cell (s.sym .q) i ≠ cell (s.reg .rdi) j) :
    ∃ s', run env ra (rawCopyS2L (n64 q)) s = some s' ∧ S2LPost q s s' := by
  obtain ⟨m, hm⟩ : ∃ m, n64 q = m + 1 := ⟨n64 q - 1, by have := n64_pos q; omega⟩
  have e : rawCopyS2L (n64 q) = .movAl 0x80 :: .shlRax 56 ::
      (code [i2 .mov (.mem .rdi 0) rax, i2 .cmp rsi (.imm 0)] ++ .jump .sign "adjust_neg" ::
      (code ([i2 .mov (.mem .rdi 8) rsi, i2 .xor rax rax] ++
        (List.range' 1 m).flatMap fun i => [i2 .mov (.mem .rdi (8 + 8 * i)) rax]) ++ .ret :: .label "adjust_neg" ::
      (code ([i2 .add rsi (.sym .q 0), i2 .mov (.mem .rdi 8) rsi, i2 .mov rsi (.imm (-1))] ++
        (List.range' 1 m).flatMap fun i =>
          [i2 .mov rax rsi, i2 .adc rax (.sym .q (8 * i)), i2 .mov (.mem .rdi (8 * (i + 1))) rax]) ++ .ret :: []))) := by
    rw [rawCopyS2L, hm]; simp [code]
  rw [e, run_movAl, run_shlRax, run_code, run_jump, dropTo_code]
  simp only [dropTo, if_true]
  rw [run_code_ret, run_code_ret]
  generalize hs1 : steps [i2 .mov (.mem .rdi 0) rax, i2 .cmp rsi (.imm 0)] ((Line.shlRax 56).exec ((Line.movAl 0x80).exec s)) = s1
  have hm1 : s1.mem = upd s.mem (s.reg .rdi) longTag := by
    rw [← hs1, ← shl_tag (s.reg .rax)]
    simp [steps, step, i2, Ins.exec, Op2.writes, Opd.get, Opd.set, Line.exec, upd, Op2.eval]
  have hr1 : ∀ r, r ≠ .rax → s1.reg r = s.reg r := by
    intro r hr
    rw [← hs1]
    simp [steps, step, i2, Ins.exec, Op2.writes, Opd.get, Opd.set, Line.exec, upd, hr]
  have hsy1 : s1.sym = s.sym := by rw [← hs1]; rfl
  have hsf1 : s1.fl.sf = decide ((s.reg .rsi).toInt < 0) := by
    rw [← hs1, ← msb_toInt]
    simp [steps, step, i2, Ins.exec, Op2.writes, Opd.get, Opd.set, Line.exec, upd, Op2.eval, subFlags]
  have hdi1 := hr1 .rdi (by decide)
  have hsi1 := hr1 .rsi (by decide)
  rw [Cond.holds, hsf1]
  by_cases hneg : (s.reg .rsi).toInt < 0
  · simp only [hneg, decide_true, if_true]
    refine ⟨_, rfl, ?_⟩
    rw [steps_append]
    generalize hs2 : steps [i2 .add rsi (.sym .q 0), i2 .mov (.mem .rdi 8) rsi, i2 .mov rsi (.imm (-1))] s1 = s2
    have h1 : s2.mem = upd s1.mem (cell (cell (s.reg .rdi) 1) 0) (addF (s.reg .rsi) (s1.mem (cell (s.sym .q) 0)) false).1 := by
      rw [← hs2, ← hsi1, ← hdi1, ← hsy1, cell_zero]
      simp [steps, step, i2, Ins.exec, Op2.writes, Opd.get, Opd.set, Op2.eval, upd, addF, b2n, cell]
    have h2 : s2.fl.cf = (addF (s.reg .rsi) (s1.mem (cell (s.sym .q) 0)) false).2 := by
      rw [← hs2, ← hsi1, ← hsy1]
      simp [steps, step, i2, Ins.exec, Op2.writes, Opd.get, Opd.set, Op2.eval, addF, b2n, cell, addFlags]
    have h3 : ∀ t, keepS2L t → s2.reg t = s1.reg t := by
      intro t ht
      rw [← hs2]
      simp [steps, step, i2, Ins.exec, Op2.writes, Opd.get, Opd.set, upd, ht.2]
    have h4 : s2.sym = s1.sym := by rw [← hs2]; rfl
    have hsi2 : s2.reg .rsi = -1 := by rw [← hs2]; rfl
    have hI : ∀ i, 1 ≤ i → i < 1 + m → Iter addF (negSrc (s.reg .rsi)) (.arr (s.sym .q)) (cell (s.reg .rdi) 1) none
        notRax s2.reg s.sym
        [i2 .mov rax rsi, i2 .adc rax (.sym .q (8 * i)), i2 .mov (.mem .rdi (8 * (i + 1))) rax] i false := by
      intro i hi _ t hr hs'
      have hdi : t.reg .rdi = s.reg .rdi := by
        rw [hr _ (by simp [notRax]), h3 _ ⟨by decide, by decide⟩, hdi1]
      have hsi : t.reg .rsi = -1 := by rw [hr _ (by simp [notRax]), hsi2]
      have h0 : (negSrc (s.reg .rsi)).at t.mem i = -1 := by simp only [negSrc, Src.at]; rw [if_neg (by omega)]
      rw [h0]
      simp only [steps, List.foldl_cons, List.foldl_nil]
      rw [step_mov, step_op2 _ _ _ _ rfl, step_mov]
      simp only [Opd.get, Opd.set, upd_same, addr_eq, upd_ne _ _ (show Reg.rdi ≠ Reg.rax by decide),
        hdi, hsi, hs', Src.at, Bool.false_eq_true, if_false, cell_add, Nat.add_comm 1 i]
      refine ⟨rfl, rfl, fun r hr => ?_, trivial, by simp⟩
      rw [upd_ne _ _ hr, upd_ne _ _ hr]
    have hy : (Src.arr (s.sym .q)).ok (cell (s.reg .rdi) 1) 0 (m + 1) := by
      intro i j _ h2 h3
      rw [cell_add]
      exact hs j (1 + i) (by omega) (by omega)
    have L := loop_run (fst := fun _ => false) m 1 (by omega) hI (fun _ _ => rfl) trivial (Src.ok_tail hy) s2
      (fun _ _ => rfl) (h4.trans hsy1) (fun _ => rfl)
    have L' := LoopPost.cons (x := negSrc (s.reg .rsi)) (c := false) (by omega) trivial hy rfl h1 h2 h3 h4 (by simp)
      (L.mono (fun r hr => hr.1)) (by rintro rfl; simp [steps])
    rw [← hm] at L'
    refine s2l_post s hn hm1 hr1 L' ?_
    rw [(pass_addF _ _ _ (by rw [lims_length, lims_length])).1, FF.rawCopyS2L, if_pos hneg, mpn_add_n, ← hQ, hm, negSrc_lims,
      ← rd_eq_lims]
    rw [rd_congr (m := s1.mem) (m' := s.mem) fun i hi => by
      rw [hm1, upd_ne]
      have := hs i 0 (by omega) (by omega)
      rwa [cell_zero] at this]
    rfl
  · simp only [hneg, decide_false, Bool.false_eq_true, if_false]
    refine ⟨_, rfl, ?_⟩
    rw [steps_append]
    generalize hs2 : steps [i2 .mov (.mem .rdi 8) rsi, i2 .xor rax rax] s1 = s2
    have h1 : s2.mem = upd s1.mem (cell (cell (s.reg .rdi) 1) 0) (s.reg .rsi) := by
      rw [← hs2, ← hsi1, ← hdi1, cell_zero]
      simp [steps, step, i2, Ins.exec, Op2.writes, Opd.get, Opd.set, cell, Op2.eval]
    have h3 : ∀ t, keepS2L t → s2.reg t = s1.reg t := by
      intro t ht
      rw [← hs2]
      simp [steps, step, i2, Ins.exec, Op2.writes, Opd.get, Opd.set, upd, ht.1]
    have h4 : s2.sym = s1.sym := by rw [← hs2]; rfl
    have hax2 : s2.reg .rax = 0 := by
      rw [← hs2]
      simp [steps, step, i2, Ins.exec, Op2.writes, Opd.get, Opd.set, Op2.eval, upd]
    have hI : ∀ i, 1 ≤ i → i < 1 + m → Iter movF (shortSrc (s.reg .rsi)) zeroSrc (cell (s.reg .rdi) 1) none
        (fun _ => True) s2.reg s.sym [i2 .mov (.mem .rdi (8 + 8 * i)) rax] i false := by
      intro i hi _ t hr hs'
      have hdi : t.reg .rdi = s.reg .rdi := by
        rw [hr _ trivial, h3 _ ⟨by decide, by decide⟩, hdi1]
      have hax : t.reg .rax = 0 := by rw [hr _ trivial, hax2]
      have h0 : (shortSrc (s.reg .rsi)).at t.mem i = 0 := by simp only [shortSrc, Src.at]; rw [if_neg (by omega)]
      rw [h0, show 8 + 8 * i = 8 * (1 + i) by omega]
      simp only [steps, List.foldl_cons, List.foldl_nil]
      rw [step_mov]
      simp only [Opd.get, Opd.set, addr_eq, hdi, hax, Bool.false_eq_true, if_false, cell_add]
      exact ⟨rfl, rfl, fun _ _ => trivial, trivial, by simp⟩
    have L := loop_run (F := movF) (fst := fun _ => false) m 1 (by omega) hI (fun _ _ => rfl) trivial trivial s2
      (fun _ _ => rfl) (h4.trans hsy1) (fun _ => rfl)
    have L' := LoopPost.cons (x := shortSrc (s.reg .rsi)) (y := zeroSrc) (F := movF) (c := s2.fl.cf) (by omega) trivial trivial rfl h1 rfl h3 h4
      (by simp) (L.mono (fun r hr => trivial)) (by rintro rfl; simp [steps])
    rw [← hm] at L'
    refine s2l_post s hn hm1 hr1 L' ?_
    rw [pass_movF _ _ _ (by rw [lims_length, lims_length]), FF.rawCopyS2L, if_neg hneg, hm, shortSrc_lims]
    rfl

end

end FF.X86
