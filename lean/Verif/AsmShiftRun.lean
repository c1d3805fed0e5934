import Verif.AsmShift

/-!
# The raw shifts of the generated assembly equal the portable ones
-/

namespace FF.X86

section shift

variable {q n k w i : Nat} {ra : BitVec 64} {s t : State} {env : String → Option (State → Option State)}

/-- Registers no round changes. -/
def keepSh (r : Reg) : Prop := r ≠ .rax ∧ r ≠ .r11

theorem load_addr (a : BitVec 64) (w i : Nat) : a + 8#64 * BitVec.ofNat 64 w + BitVec.ofNat 64 (8 * i) = cell a (w + i) := by
  rw [← BitVec.ofNat_mul, BitVec.add_assoc, ← BitVec.ofNat_add, cell, Nat.mul_add]

theorem cmp_cf {a b : Nat} (ha : a < 2 ^ 64) (hb : b < 2 ^ 64) :
    (subFlags (BitVec.ofNat 64 a) (BitVec.ofNat 64 b) 0 (BitVec.ofNat 64 a - BitVec.ofNat 64 b)).cf = decide (a < b) := by
  simp only [subFlags, BitVec.toNat_ofNat, Nat.mod_eq_of_lt ha, Nat.mod_eq_of_lt hb, Nat.add_zero]

theorem cmp_zf {a b : Nat} (ha : a < 2 ^ 64) (hb : b < 2 ^ 64) :
    (subFlags (BitVec.ofNat 64 a) (BitVec.ofNat 64 b) 0 (BitVec.ofNat 64 a - BitVec.ofNat 64 b)).zf = decide (a = b) := by
  simp only [subFlags, sub_eq_zero_iff]
  congr 1
  refine propext ⟨fun h => ?_, fun h => by rw [h]⟩
  have := congrArg BitVec.toNat h
  rwa [BitVec.toNat_ofNat, BitVec.toNat_ofNat, Nat.mod_eq_of_lt ha, Nat.mod_eq_of_lt hb] at this

/-- Limb `j` of the source. -/
def srcAt (n : Nat) (t : State) (j : Nat) : BitVec 64 := if j < n then t.mem (cell (t.reg .rsi) j) else 0

theorem shrRound_run (hn : 8 * n ≤ 2 ^ 64) (hi : i < n) (hw : w < n) (h0 : 0 < k) (hk : k < 64) (h8 : t.reg .r8 = BitVec.ofNat 64 w)
    (hc : t.reg .rcx = cx k) (h9 : t.reg .r9 = lowMask (64 - k)) (h10 : t.reg .r10 = ~~~ lowMask (64 - k)) :
    ∃ t', (∀ p, run env ra (shrRound n i ++ p) t = run env ra p t') ∧
      Round keepSh (t.reg .rdi) i (BitVec.ofNat 64 (((srcAt n t (w + i)).toNat + 2 ^ 64 * (srcAt n t (w + i + 1)).toNat) / 2 ^ k)) t t' := by
  obtain ⟨t1, ht1⟩ : ∃ t1, t1 = exes [op .cmp r8 (.imm (BitVec.ofNat 64 (n - 1 - i)))] t := ⟨_, rfl⟩
  have r1 : t1.reg = t.reg := by rw [ht1]; rfl
  have m1 : t1.mem = t.mem := by rw [ht1]; rfl
  have y1 : t1.sym = t.sym := by rw [ht1]; rfl
  have f1 : t1.fl = subFlags (BitVec.ofNat 64 w) (BitVec.ofNat 64 (n - 1 - i)) 0 (BitVec.ofNat 64 w - BitVec.ofNat 64 (n - 1 - i)) := by
    rw [← h8, ht1]; rfl
  have cf : t1.fl.cf = decide (w < n - 1 - i) := by rw [f1, cmp_cf (by omega) (by omega)]
  have zf : t1.fl.zf = decide (w = n - 1 - i) := by rw [f1, cmp_zf (by omega) (by omega)]
  have la : ∀ i, t.reg .rsi + 8#64 * BitVec.ofNat 64 w + BitVec.ofNat 64 (8 * i) = cell (t.reg .rsi) (w + i) := load_addr _ w
  have st : ∀ p, run env ra (shrRound n i ++ p) t = run env ra ((shrRound n i).tail ++ p) t1 := fun p => by
    rw [show shrRound n i ++ p = [op .cmp r8 (.imm (BitVec.ofNat 64 (n - 1 - i)))] ++ ((shrRound n i).tail ++ p) from rfl,
      run_exes _ rfl, ← ht1]
  by_cases hA : w < n - 1 - i
  · set L : List Line := [.misc (.load .rax .rsi .r8 (8 * i)), .misc (.shrCl .rax), op .and rax r9,
      .misc (.load .r11 .rsi .r8 (8 * (i + 1))), .misc .rolCx8, .misc (.shlCl .r11), .misc .rolCx8, op .and r11 r10, op .or rax r11,
      op .mov (.mem .rdi (8 * i)) rax] with hL
    refine ⟨exes L t1, fun p => ?_, ?_, fun r hr => ?_, ?_⟩
    · rw [st, show (shrRound n i).tail ++ p = .jump .ncarry "if2" :: (L ++ .jump .always "endif" ::
        ([.label "if2", .jump .nzero "else", .misc (.load .rax .rsi .r8 (8 * i)), .misc (.shrCl .rax), op .and rax r9,
          op .mov (.mem .rdi (8 * i)) rax, .jump .always "endif", .label "else", op .xor rax rax, op .mov (.mem .rdi (8 * i)) rax] ++
          .label "endif" :: p)) from rfl,
        run_jump, Cond.holds, cf, if_neg (by simp [hA]), run_exes _ rfl, run_always, dropTo_skip (by simp [labels]), dropTo_self]
    · rw [srcAt, srcAt, if_pos (by omega), if_pos (by omega), ← shr_word h0 hk]
      rw [hL]
      simp [exes, Line.exec, Misc.exec, step, i2, Ins.exec, Op2.eval, Op2.writes, Opd.get, Opd.set, upd_apply, r1, m1, h8, hc, h9, h10, la,
        clCount, cx_rol hk, cx_back hk, cx_cl hk, cx_cl (show 64 - k < 64 by omega)]
      rfl
    · rw [hL]
      by_cases e : r = .rcx
      · subst e
        simp [exes, Line.exec, Misc.exec, step, i2, Ins.exec, Op2.eval, Op2.writes, Opd.get, Opd.set, upd_apply, r1, hc, cx_rol hk, cx_back hk]
      · simp [exes, Line.exec, Misc.exec, step, i2, Ins.exec, Op2.eval, Op2.writes, Opd.get, Opd.set, upd_apply, r1, hr.1, hr.2, e]
    · rw [hL, ← y1]; rfl
  have eA : ∀ p, run env ra (shrRound n i ++ p) t = run env ra (.jump .nzero "else" :: ([.misc (.load .rax .rsi .r8 (8 * i)),
      .misc (.shrCl .rax), op .and rax r9, op .mov (.mem .rdi (8 * i)) rax] ++ (.jump .always "endif" :: ([.label "else", op .xor rax rax,
      op .mov (.mem .rdi (8 * i)) rax] ++ .label "endif" :: p)))) t1 := fun p => by
    rw [st, show (shrRound n i).tail ++ p = .jump .ncarry "if2" :: ((shrRound n i).tail.tail ++ p) from rfl, run_jump, Cond.holds, cf,
      if_pos (by simp [hA])]
    rfl
  by_cases hB : w = n - 1 - i
  · set L : List Line := [.misc (.load .rax .rsi .r8 (8 * i)), .misc (.shrCl .rax), op .and rax r9, op .mov (.mem .rdi (8 * i)) rax] with hL
    refine ⟨exes L t1, fun p => ?_, ?_, fun r hr => ?_, ?_⟩
    · rw [eA, run_jump, Cond.holds, zf, if_neg (by simp [hB]), run_exes _ rfl, run_always, dropTo_skip (by simp [labels]), dropTo_self]
    · rw [srcAt, srcAt, if_pos (by omega), if_neg (by omega), show (0 : BitVec 64).toNat = 0 from rfl, Nat.mul_zero, Nat.add_zero, ← shr_top h0 hk]
      rw [hL]
      simp [exes, Line.exec, Misc.exec, step, i2, Ins.exec, Op2.eval, Op2.writes, Opd.get, Opd.set, upd_apply, r1, m1, h8, hc, h9, la,
        clCount, cx_cl hk]
      rfl
    · rw [hL]
      simp [exes, Line.exec, Misc.exec, step, i2, Ins.exec, Op2.eval, Op2.writes, Opd.get, Opd.set, upd_apply, r1, hr.1]
    · rw [hL, ← y1]; rfl
  · refine ⟨exes [op .xor rax rax, op .mov (.mem .rdi (8 * i)) rax] t1, fun p => ?_, ?_, fun r hr => ?_, ?_⟩
    · rw [eA, run_jump, Cond.holds, zf, if_pos (by simp [hB]), dropTo_skip (by simp [labels])]
      show run env ra (dropTo "else" (.label "else" :: ([op .xor rax rax, op .mov (.mem .rdi (8 * i)) rax] ++ .label "endif" :: p))) t1 = _
      rw [dropTo_self, run_exes _ rfl, run_label]
    · rw [srcAt, srcAt, if_neg (by omega), if_neg (by omega)]
      simp [exes, Line.exec, Misc.exec, step, i2, Ins.exec, Op2.eval, Op2.writes, Opd.get, Opd.set, upd_apply, r1, m1]
      rfl
    · simp [exes, Line.exec, Misc.exec, step, i2, Ins.exec, Op2.eval, Op2.writes, Opd.get, Opd.set, upd_apply, r1, hr.1]
    · rw [← y1]; rfl

theorem shrWords_run (hn : 8 * n ≤ 2 ^ 64) (hi : i < n) (hw : w < n) (h8 : t.reg .r8 = BitVec.ofNat 64 w) :
    ∃ t', (∀ p, run env ra (shrWords n i ++ p) t = run env ra p t') ∧ Round keepSh (t.reg .rdi) i (srcAt n t (w + i)) t t' := by
  obtain ⟨t1, ht1⟩ : ∃ t1, t1 = exes [op .cmp r8 (.imm (BitVec.ofNat 64 (n - 1 - i)))] t := ⟨_, rfl⟩
  have r1 : t1.reg = t.reg := by rw [ht1]; rfl
  have m1 : t1.mem = t.mem := by rw [ht1]; rfl
  have y1 : t1.sym = t.sym := by rw [ht1]; rfl
  have f1 : t1.fl = subFlags (BitVec.ofNat 64 w) (BitVec.ofNat 64 (n - 1 - i)) 0 (BitVec.ofNat 64 w - BitVec.ofNat 64 (n - 1 - i)) := by
    rw [← h8, ht1]; rfl
  have cf : t1.fl.cf = decide (w < n - 1 - i) := by rw [f1, cmp_cf (by omega) (by omega)]
  have zf : t1.fl.zf = decide (w = n - 1 - i) := by rw [f1, cmp_zf (by omega) (by omega)]
  have la : ∀ i, t.reg .rsi + 8#64 * BitVec.ofNat 64 w + BitVec.ofNat 64 (8 * i) = cell (t.reg .rsi) (w + i) := load_addr _ w
  have st : ∀ p, run env ra (shrWords n i ++ p) t = run env ra (.jump .above "if3" ::
      ([.misc (.load .rax .rsi .r8 (8 * i)), op .mov (.mem .rdi (8 * i)) rax] ++ .jump .always "endif3" ::
        ([.label "if3", op .xor rax rax, op .mov (.mem .rdi (8 * i)) rax] ++ .label "endif3" :: p))) t1 := fun p => by
    rw [show shrWords n i ++ p = [op .cmp r8 (.imm (BitVec.ofNat 64 (n - 1 - i)))] ++ ((shrWords n i).tail ++ p) from rfl,
      run_exes _ rfl, ← ht1]
    rfl
  by_cases hA : w ≤ n - 1 - i
  · refine ⟨exes [.misc (.load .rax .rsi .r8 (8 * i)), op .mov (.mem .rdi (8 * i)) rax] t1, fun p => ?_, ?_, fun r hr => ?_, ?_⟩
    · rw [st, run_jump, Cond.holds, cf, zf, if_neg (by simp; omega), run_exes _ rfl, run_always, dropTo_skip (by simp [labels]), dropTo_self]
    · rw [srcAt, if_pos (by omega)]
      simp [exes, Line.exec, Misc.exec, step, i2, Ins.exec, Op2.eval, Op2.writes, Opd.get, Opd.set, upd_apply, r1, m1, h8, la]
      rfl
    · simp [exes, Line.exec, Misc.exec, step, i2, Ins.exec, Op2.eval, Op2.writes, Opd.get, Opd.set, upd_apply, r1, hr.1]
    · rw [← y1]; rfl
  · refine ⟨exes [op .xor rax rax, op .mov (.mem .rdi (8 * i)) rax] t1, fun p => ?_, ?_, fun r hr => ?_, ?_⟩
    · rw [st, run_jump, Cond.holds, cf, zf, if_pos (by simp; omega), dropTo_skip (by simp [labels])]
      show run env ra (dropTo "if3" (.label "if3" :: ([op .xor rax rax, op .mov (.mem .rdi (8 * i)) rax] ++ .label "endif3" :: p))) t1 = _
      rw [dropTo_self, run_exes _ rfl, run_label]
    · rw [srcAt, if_neg (by omega)]
      simp [exes, Line.exec, Misc.exec, step, i2, Ins.exec, Op2.eval, Op2.writes, Opd.get, Opd.set, upd_apply, r1, m1]
      rfl
    · simp [exes, Line.exec, Misc.exec, step, i2, Ins.exec, Op2.eval, Op2.writes, Opd.get, Opd.set, upd_apply, r1, hr.1]
    · rw [← y1]; rfl

/-! ## Left -/

theorem base_addr (a : BitVec 64) {w i : Nat} (h : w ≤ i) : a - BitVec.ofNat 64 (8 * w) + BitVec.ofNat 64 (8 * i) = cell a (i - w) := by
  have e : BitVec.ofNat 64 (8 * i) = BitVec.ofNat 64 (8 * (i - w)) + BitVec.ofNat 64 (8 * w) := by
    rw [← BitVec.ofNat_add]; congr 1; omega
  rw [e, cell, BitVec.add_comm (BitVec.ofNat 64 (8 * (i - w))), ← BitVec.add_assoc, BitVec.sub_add_cancel]

/-- Limb `j` of the source moved up by `w`; the source is at `a`. -/
def upAt (w : Nat) (a : BitVec 64) (m : BitVec 64 → BitVec 64) (j : Nat) : BitVec 64 := if w ≤ j then m (cell a (j - w)) else 0

/-- The mask in the top round and the store. -/
theorem mask_store (hm : t.mem (t.sym .lboMask) = lboMask q) (i : Nat) :
    ∃ t', (∀ p, run env ra (maskLast (n64 q) i ++ (op .mov (.mem .rdi (8 * i)) rax :: p)) t = run env ra p t') ∧
      Round notRax (t.reg .rdi) i (if i = n64 q - 1 then t.reg .rax &&& lboMask q else t.reg .rax) t t' := by
  rw [maskLast]
  by_cases h : i = n64 q - 1
  · simp only [if_pos h]
    refine ⟨exes ([op .and rax (.sym .lboMask 0)] ++ [op .mov (.mem .rdi (8 * i)) rax]) t, fun p => by
      rw [← run_exes _ rfl]; rfl, ?_, fun r hr => ?_, rfl⟩
    · rw [← hm]
      simp [exes, Line.exec, step, i2, Ins.exec, Op2.eval, Op2.writes, Opd.get, Opd.set, upd_apply]
      rfl
    · have : r ≠ .rax := hr
      simp [exes, Line.exec, step, i2, Ins.exec, Op2.eval, Op2.writes, Opd.get, Opd.set, upd_apply, this]
  · simp only [if_neg h]
    exact ⟨exes [op .mov (.mem .rdi (8 * i)) rax] t, fun p => by rw [← run_exes _ rfl]; rfl, rfl, fun r hr => rfl, rfl⟩

theorem keep_notRax {r : Reg} (h : keepSh r) : notRax r := h.1

/-- Straight code, then the mask and the store. -/
theorem pre_store {L : List Line} {x : BitVec 64} (hL : L.all Line.plain = true) (hx : (exes L t).reg .rax = x) (hA : Agree keepSh t (exes L t))
    (hm : t.mem (t.sym .lboMask) = lboMask q) (i : Nat) :
    ∃ t', (∀ p, run env ra (L ++ (maskLast (n64 q) i ++ (op .mov (.mem .rdi (8 * i)) rax :: p))) t = run env ra p t') ∧
      Round keepSh (t.reg .rdi) i (if i = n64 q - 1 then x &&& lboMask q else x) t t' := by
  obtain ⟨t', h1, h2⟩ := mask_store (env := env) (ra := ra) (q := q) (t := exes L t) (by rw [hA.mem, hA.sym]; exact hm) i
  refine ⟨t', fun p => by rw [run_exes _ hL, h1], ?_, fun r hr => (h2.regs r hr.1).trans (hA.regs r hr), h2.sym.trans hA.sym⟩
  rw [h2.mem, hA.mem, hx, hA.regs .rdi (by simp [keepSh])]

theorem labels_mask (n i : Nat) : labels (maskLast n i) = [] := by rw [maskLast]; split <;> rfl

theorem mask_zero (c : Prop) [Decidable c] : (if c then (0 : BitVec 64) &&& lboMask q else 0) = 0 := by
  split <;> simp

theorem shlRound_run {a : BitVec 64} (hn : 8 * n64 q ≤ 2 ^ 64) (hi : i < n64 q) (hw : w < n64 q) (h0 : 0 < k) (hk : k < 64)
    (h8 : t.reg .r8 = BitVec.ofNat 64 w) (hc : t.reg .rcx = cx k) (h9 : t.reg .r9 = ~~~ lowMask k) (h10 : t.reg .r10 = lowMask k)
    (hd : t.reg .rdx = a - BitVec.ofNat 64 (8 * w)) (hm : t.mem (t.sym .lboMask) = lboMask q) :
    ∃ t', (∀ p, run env ra (shlRound (n64 q) i ++ p) t = run env ra p t') ∧
      Round keepSh (t.reg .rdi) i (masked q (fun i => BitVec.ofNat 64 ((upAt w a t.mem i).toNat * 2 ^ k +
        if i = 0 then 0 else (upAt w a t.mem (i - 1)).toNat / 2 ^ (64 - k))) i) t t' := by
  obtain ⟨t1, ht1⟩ : ∃ t1, t1 = exes [op .cmp r8 (.imm (BitVec.ofNat 64 i))] t := ⟨_, rfl⟩
  have r1 : t1.reg = t.reg := by rw [ht1]; rfl
  have m1 : t1.mem = t.mem := by rw [ht1]; rfl
  have y1 : t1.sym = t.sym := by rw [ht1]; rfl
  have f1 : t1.fl = subFlags (BitVec.ofNat 64 w) (BitVec.ofNat 64 i) 0 (BitVec.ofNat 64 w - BitVec.ofNat 64 i) := by
    rw [← h8, ht1]; rfl
  have cf : t1.fl.cf = decide (w < i) := by rw [f1, cmp_cf (by omega) (by omega)]
  have zf : t1.fl.zf = decide (w = i) := by rw [f1, cmp_zf (by omega) (by omega)]
  have hm1 : t1.mem (t1.sym .lboMask) = lboMask q := by rw [m1, y1]; exact hm
  have up : ∀ {x t'}, Round keepSh (t1.reg .rdi) i x t1 t' → Round keepSh (t.reg .rdi) i x t t' := fun {x t'} h =>
    ⟨by rw [h.mem, m1, r1], fun r hr => by rw [h.regs r hr, r1], by rw [h.sym, y1]⟩
  set L1 : List Line := [op .mov rax (.mem .rdx (8 * i)), .misc (.shlCl .rax), op .and rax r9,
   op .mov r11 (.mem .rdx (8 * (i - 1))), .misc .rolCx8, .misc (.shrCl .r11), .misc .rolCx8, op .and r11 r10, op .or rax r11] with hL1
  set L2 : List Line := [op .mov rax (.mem .rdx (8 * i)), .misc (.shlCl .rax), op .and rax r9] with hL2
  set st : Line := op .mov (.mem .rdi (8 * i)) rax with hst
  have sh : ∀ p, run env ra (shlRound (n64 q) i ++ p) t = run env ra (.jump .ncarry "if2" :: ((L1 ++ (maskLast (n64 q) i ++ (st ::
      [.jump .always "endif"]))) ++ (.label "if2" :: .jump .nzero "else" :: ((L2 ++ (maskLast (n64 q) i ++ (st :: [.jump .always "endif"]))) ++
      ([.label "else", op .xor rax rax, st] ++ .label "endif" :: p))))) t1 := fun p => by
    rw [show shlRound (n64 q) i ++ p = [op .cmp r8 (.imm (BitVec.ofNat 64 i))] ++ ((shlRound (n64 q) i).tail ++ p) from rfl,
      run_exes _ rfl, ← ht1, shlRound, hL1, hL2, hst]
    simp only [List.append_assoc, List.cons_append, List.nil_append, List.tail_cons]
  have nl : ∀ l X, labels X = [] → l ∉ labels (X ++ (maskLast (n64 q) i ++ (st :: [.jump .always "endif"]))) := fun l X h => by
    rw [labels_append, labels_append, labels_mask, h]; simp [labels, hst]
  by_cases hA : w < i
  · obtain ⟨t', e', h'⟩ := pre_store (env := env) (ra := ra) (q := q) (t := t1) (L := L1)
      (x := BitVec.ofNat 64 ((upAt w a t.mem i).toNat * 2 ^ k + (upAt w a t.mem (i - 1)).toNat / 2 ^ (64 - k))) rfl (by
        rw [upAt, upAt, if_pos (by omega), if_pos (by omega), ← shl_word h0 hk, ← base_addr a (by omega), ← base_addr a (by omega), hL1]
        simp [exes, Line.exec, Misc.exec, step, i2, Ins.exec, Op2.eval, Op2.writes, Opd.get, Opd.set, upd_apply, r1, m1, hc, h9, h10, hd,
          clCount, cx_rol hk, cx_back hk, cx_cl hk, cx_cl (show 64 - k < 64 by omega)]) ⟨rfl, rfl, fun r hr => by
        rw [hL1]
        by_cases e : r = .rcx
        · subst e
          simp [exes, Line.exec, Misc.exec, step, i2, Ins.exec, Op2.eval, Op2.writes, Opd.get, Opd.set, upd_apply, r1, hc, cx_rol hk, cx_back hk]
        · simp [exes, Line.exec, Misc.exec, step, i2, Ins.exec, Op2.eval, Op2.writes, Opd.get, Opd.set, upd_apply, hr.1, hr.2, e]⟩ hm1 i
    refine ⟨t', fun p => ?_, ?_⟩
    · rw [sh, run_jump, Cond.holds, cf, if_neg (by simp [hA])]
      simp only [List.append_assoc, List.cons_append, List.nil_append]
      rw [e', run_always]
      show run env ra (dropTo "endif" ([.label "if2", .jump .nzero "else"] ++ (L2 ++ (maskLast (n64 q) i ++ ([st, .jump .always "endif",
        .label "else", op .xor rax rax, st] ++ .label "endif" :: p))))) t' = _
      rw [dropTo_skip (by simp [labels]), dropTo_skip (by simp [labels, hL2]), dropTo_skip (by simp [labels_mask]), dropTo_skip (by simp [labels, hst]),
        dropTo_self]
    · rw [masked]
      simp only [if_neg (show i ≠ 0 by omega)]
      exact up h'
  have eA : ∀ p, run env ra (shlRound (n64 q) i ++ p) t = run env ra (.jump .nzero "else" :: ((L2 ++ (maskLast (n64 q) i ++ (st ::
      [.jump .always "endif"]))) ++ (.label "else" :: ([op .xor rax rax, st] ++ .label "endif" :: p)))) t1 := fun p => by
    rw [sh, run_jump, Cond.holds, cf, if_pos (by simp [hA]), dropTo_skip (nl _ _ rfl), dropTo_self]
    rfl
  have hlow : (if i = 0 then 0 else (upAt w a t.mem (i - 1)).toNat / 2 ^ (64 - k)) = 0 := by
    split
    · rfl
    · rw [upAt, if_neg (by omega)]; simp
  by_cases hB : w = i
  · obtain ⟨t', e', h'⟩ := pre_store (env := env) (ra := ra) (q := q) (t := t1) (L := L2)
      (x := BitVec.ofNat 64 ((upAt w a t.mem i).toNat * 2 ^ k)) rfl (by
        rw [upAt, if_pos (by omega), ← shl_low h0 hk, ← base_addr a (by omega), hL2]
        simp [exes, Line.exec, Misc.exec, step, i2, Ins.exec, Op2.eval, Op2.writes, Opd.get, Opd.set, upd_apply, r1, m1, hc, h9, hd,
          clCount, cx_cl hk]) ⟨rfl, rfl, fun r hr => by
        rw [hL2]
        simp [exes, Line.exec, Misc.exec, step, i2, Ins.exec, Op2.eval, Op2.writes, Opd.get, Opd.set, upd_apply, hr.1]⟩ hm1 i
    refine ⟨t', fun p => ?_, ?_⟩
    · rw [eA, run_jump, Cond.holds, zf, if_neg (by simp [hB])]
      simp only [List.append_assoc, List.cons_append, List.nil_append]
      rw [e', run_always]
      show run env ra (dropTo "endif" ([.label "else", op .xor rax rax, st] ++ .label "endif" :: p)) t' = _
      rw [dropTo_skip (by simp [labels, hst]), dropTo_self]
    · rw [masked]
      simp only [hlow, Nat.add_zero]
      exact up h'
  · refine ⟨exes [op .xor rax rax, st] t1, fun p => ?_, ?_, fun r hr => ?_, ?_⟩
    · rw [eA, run_jump, Cond.holds, zf, if_pos (by simp [hB]), dropTo_skip (nl _ _ rfl), dropTo_self, run_exes _ rfl, run_label]
    · rw [masked]
      simp only [hlow]
      simp only [upAt, if_neg (show ¬ w ≤ i by omega), show (0 : BitVec 64).toNat = 0 from rfl, Nat.zero_mul, Nat.add_zero]
      rw [show BitVec.ofNat 64 0 = 0 from rfl, mask_zero]
      simp [exes, Line.exec, Misc.exec, step, i2, Ins.exec, Op2.eval, Op2.writes, Opd.get, Opd.set, upd_apply, r1, m1, hst]
      rfl
    · simp [exes, Line.exec, Misc.exec, step, i2, Ins.exec, Op2.eval, Op2.writes, Opd.get, Opd.set, upd_apply, r1, hr.1, hst]
    · rw [← y1]; rfl

theorem shlWords_run {a : BitVec 64} (hn : 8 * n64 q ≤ 2 ^ 64) (hi : i < n64 q) (hw : w < n64 q)
    (h8 : t.reg .r8 = BitVec.ofNat 64 w)
    (hd : t.reg .rdx = a - BitVec.ofNat 64 (8 * w)) (hm : t.mem (t.sym .lboMask) = lboMask q) :
    ∃ t', (∀ p, run env ra (shlWords (n64 q) i ++ p) t = run env ra p t') ∧
      Round keepSh (t.reg .rdi) i (masked q (upAt w a t.mem) i) t t' := by
  obtain ⟨t1, ht1⟩ : ∃ t1, t1 = exes [op .cmp r8 (.imm (BitVec.ofNat 64 i))] t := ⟨_, rfl⟩
  have r1 : t1.reg = t.reg := by rw [ht1]; rfl
  have m1 : t1.mem = t.mem := by rw [ht1]; rfl
  have y1 : t1.sym = t.sym := by rw [ht1]; rfl
  have f1 : t1.fl = subFlags (BitVec.ofNat 64 w) (BitVec.ofNat 64 i) 0 (BitVec.ofNat 64 w - BitVec.ofNat 64 i) := by
    rw [← h8, ht1]; rfl
  have cf : t1.fl.cf = decide (w < i) := by rw [f1, cmp_cf (by omega) (by omega)]
  have zf : t1.fl.zf = decide (w = i) := by rw [f1, cmp_zf (by omega) (by omega)]
  have hm1 : t1.mem (t1.sym .lboMask) = lboMask q := by rw [m1, y1]; exact hm
  have up : ∀ {x t'}, Round keepSh (t1.reg .rdi) i x t1 t' → Round keepSh (t.reg .rdi) i x t t' := fun {x t'} h =>
    ⟨by rw [h.mem, m1, r1], fun r hr => by rw [h.regs r hr, r1], by rw [h.sym, y1]⟩
  set L1 : List Line := [op .mov rax (.mem .rdx (8 * i))] with hL1
  set st : Line := op .mov (.mem .rdi (8 * i)) rax with hst
  have sh : ∀ p, run env ra (shlWords (n64 q) i ++ p) t = run env ra (.jump .above "if3" :: ((L1 ++ (maskLast (n64 q) i ++ (st ::
      [.jump .always "endif3"]))) ++ (.label "if3" :: ([op .xor rax rax, st] ++ .label "endif3" :: p)))) t1 := fun p => by
    rw [show shlWords (n64 q) i ++ p = [op .cmp r8 (.imm (BitVec.ofNat 64 i))] ++ ((shlWords (n64 q) i).tail ++ p) from rfl,
      run_exes _ rfl, ← ht1, shlWords, hL1, hst]
    simp only [List.append_assoc, List.cons_append, List.nil_append, List.tail_cons]
  have nl : ∀ l X, labels X = [] → l ∉ labels (X ++ (maskLast (n64 q) i ++ (st :: [.jump .always "endif3"]))) := fun l X h => by
    rw [labels_append, labels_append, labels_mask, h]; simp [labels, hst]
  by_cases hA : w ≤ i
  · obtain ⟨t', e', h'⟩ := pre_store (env := env) (ra := ra) (q := q) (t := t1) (L := L1) (x := upAt w a t.mem i) rfl (by
        rw [upAt, if_pos (by omega), ← base_addr a (by omega), hL1]
        simp [exes, Line.exec, Misc.exec, step, i2, Ins.exec, Op2.eval, Op2.writes, Opd.get, Opd.set, upd_apply, r1, m1, hd]) ⟨rfl, rfl, fun r hr => by
        rw [hL1]
        simp [exes, Line.exec, Misc.exec, step, i2, Ins.exec, Op2.eval, Op2.writes, Opd.get, Opd.set, upd_apply, hr.1]⟩ hm1 i
    refine ⟨t', fun p => ?_, up h'⟩
    rw [sh, run_jump, Cond.holds, cf, zf, if_neg (by simp; omega)]
    simp only [List.append_assoc, List.cons_append, List.nil_append]
    rw [e', run_always]
    show run env ra (dropTo "endif3" ([.label "if3", op .xor rax rax, st] ++ .label "endif3" :: p)) t' = _
    rw [dropTo_skip (by simp [labels, hst]), dropTo_self]
  · refine ⟨exes [op .xor rax rax, st] t1, fun p => ?_, ?_, fun r hr => ?_, ?_⟩
    · rw [sh, run_jump, Cond.holds, cf, zf, if_pos (by simp; omega), dropTo_skip (nl _ _ rfl), dropTo_self, run_exes _ rfl, run_label]
    · have hz : upAt w a t.mem i = 0 := by rw [upAt, if_neg (by omega)]
      rw [masked, hz, mask_zero]
      simp [exes, Line.exec, Misc.exec, step, i2, Ins.exec, Op2.eval, Op2.writes, Opd.get, Opd.set, upd_apply, r1, m1, hst]
      rfl
    · simp [exes, Line.exec, Misc.exec, step, i2, Ins.exec, Op2.eval, Op2.writes, Opd.get, Opd.set, upd_apply, r1, hr.1, hst]
    · rw [← y1]; rfl

end shift

end FF.X86
