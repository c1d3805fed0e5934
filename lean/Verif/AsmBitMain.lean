import Verif.AsmBitRun

/-!
# The bitwise operations of the generated assembly equal the portable ones
-/

namespace FF.X86

section bit

variable {q F F' k n : Nat} {ra : BitVec 64} {s t : State} {env : String → Option (State → Option State)} {m : Mem} {r a b : Elem}
  {o : Op2} {o' : Op32} {f : BitVec 64 → BitVec 64 → BitVec 64} {g : BitVec 32 → BitVec 32 → BitVec 32}

theorem labels_maskLast (n i : Nat) : labels (maskLast n i) = [] := by rw [maskLast]; split <;> rfl

theorem labels_subQ (n off : Nat) : labels (subQIfBigger n off) = ["subQ", "done"] := by
  rw [subQIfBigger, labels_append, labels_append, labels_append, labels_down (fun _ => rfl), labels_flatMap (fun _ => rfl)]
  rfl

theorem labels_short (o : Op2) (p : Reg) (n : Nat) : labels (bitShortRounds o p n) = [] := by
  rw [bitShortRounds, labels_append, labels_flatMap fun i => by rw [labels_append, labels_append, labels_maskLast]; rfl]
  rfl

theorem labels_leave : labels leave = [] := rfl

theorem labels_L1L2 (o : Op2) (n : Nat) : labels (bitL1L2 o n) = ["subQ", "done"] := by
  rw [bitL1L2, labels_append, labels_append, labels_subQ, labels_flatMap fun i => by rw [labels_append, labels_append, labels_maskLast]; rfl]
  rfl

theorem labels_S1L2 (o : Op2) (n : Nat) : labels (bitS1L2 o n) = ["subQ", "done", "solveNeg", "subQ", "done"] := by
  rw [bitS1L2]
  simp only [labels_append, labels_subQ, labels_short, labels_L1L2]
  rfl

theorem labels_L1S2 (o : Op2) (n : Nat) : labels (bitL1S2 o n) = ["subQ", "done", "solveNeg", "subQ", "done"] := by
  rw [bitL1S2]
  simp only [labels_append, labels_subQ, labels_short, labels_L1L2]
  rfl

theorem labels_S1S2 (o : Op2) (o' : Op32) (n : Nat) : labels (bitS1S2 o o' n) = ["solveNeg", "subQ", "done"] := by
  rw [bitS1S2]
  simp only [labels_append, labels_L1L2]
  rfl

/-- The tag of the result is already the one written. -/
theorem Ops.setTy' (oo : Ops q F k s t r a b) (h : TArgs q F s) (hk : 1 ≤ k) (hF : k ≤ F) (hr : r.long = true) (hr' : r.mont = false) :
    ∃ t', (∀ p, run env ra (setTypeDest 0x80 ++ p) t = run env ra p t') ∧ Ops q F k s t' r a b := by
  have hfit := h.ok.fits
  obtain ⟨t', h1, h2, h3, h4⟩ := setType_run (env := env) (ra := ra) (t := t) (n := n64 q) 0x80 (by omega)
  have er : elemAt (n64 q) t'.mem (s.reg .rdi) = r := by
    rw [← oo.rdi, h4, oo.rdi, oo.r]
    show (⟨r.shortVal, true, false, r.longVal⟩ : Elem) = r
    rw [← hr, ← hr']
  have off0 : ∀ p, Off 0 t p (n64 q + 1) := fun p x _ hx => by obtain ⟨j, hj, _⟩ := hx; omega
  have e : ∀ p c, Alias p (s.reg .rdi) (n64 q + 1) → elemAt (n64 q) t.mem p = c → elemAt (n64 q) t'.mem p = c := by
    intro p c hp hc
    rcases hp with rfl | hs
    · rw [er, ← oo.r, hc]
    · rw [elemAt_called h2 (by rw [oo.rdi]; exact hs) (off0 p), hc]
  have hi := h3 .rsi (by decide)
  have hx := h3 .rdx (by decide)
  have offs : ∀ p, Off (F - k) t p (n64 q + 1) → Off (F - k) t' p (n64 q + 1) := fun p hp => by
    unfold Off; rw [h2.rsp]; exact hp
  exact ⟨t', h1, oo.inn.tcalled h oo.rsp hk (by omega) oo.rdi h2, h2.rsp.trans oo.rsp, h2.rdi.trans oo.rdi,
    by rw [hi]; exact offs _ oo.offA, by rw [hx]; exact offs _ oo.offB, by rw [hi]; exact oo.aliA, by rw [hx]; exact oo.aliB, er,
    by rw [hi]; exact e _ _ oo.aliA oo.a, by rw [hx]; exact e _ _ oo.aliB oo.b⟩

theorem toNormal_any (q : Nat) (e u v : Elem) : (toNormalInto q v e).longVal = (toNormalInto q u e).longVal := by
  rw [toNormalInto, toNormalInto]
  split <;> rfl

theorem sign32 (x : BitVec 32) (fl : Flags) : (Op32.eval .cmp x 0 fl).2.sf = decide (¬ 0 ≤ x.toInt) := by
  show (x - 0).msb = _
  rw [show x - (0 : BitVec 32) = x from BitVec.sub_zero x, BitVec.msb_eq_toInt]
  simp

theorem zext_sx {x : BitVec 32} (h : 0 ≤ x.toInt) : x.setWidth 64 = sx x := by
  rw [sx, BitVec.signExtend_eq_setWidth_of_msb_false]
  rw [BitVec.msb_eq_toInt]
  simpa using h

theorem shortOperand_neg {u e : Elem} (h : ¬ 0 ≤ e.shortVal.toInt) : shortOperand q u e = (toLongNormalInto q u e).longVal := by
  rw [shortOperand, if_neg h]

/-- `binOpS1L2`. -/
theorem bitS1L2_run (u : Elem) (h7' : FromOk q a) (ho : BitOp o o' f g) (hn : ShortFits q b.longVal)
    (hL : ConvSpec q F' ra env "toLongNormal" (fun a e => ∃ r, e = toLongNormalInto q r a) (FromOk q))
    (h : TArgs q F s) (hk : 1 ≤ k) (hF : k + n64 q + 3 + F' ≤ F) (hb : callCells q ≤ F') (h0 : 0 < n64 q) (hr : r.long = true) (hr' : r.mont = false)
    (oo : Ops q F k s t r a b) (p : List Line) :
    ∃ s', run env ra (bitS1L2 o (n64 q) ++ p) t = some s' ∧ TRet q F s s' { r with longVal := rawBit q f (shortOperand q u a) b.longVal } := by
  obtain ⟨t1, ht1⟩ : ∃ t1, t1 = exes [.misc (.op32 .mov .rax (.low .rsi)), .misc (.op32 .cmp .rax (.imm 0))] t := ⟨_, rfl⟩
  have m1 : Move t t1 := ht1 ▸ exes_move rfl
  have o1 : Ops q F k s t1 r a b := oo.move m1 (by asm ht1) (by asm ht1) (by asm ht1)
  have va : (t.mem (t.reg .rsi)).setWidth 32 = a.shortVal := by rw [← oo.a]; rfl
  have k1 : t1.reg .rax = a.shortVal.setWidth 64 := by rw [← va]; asm ht1
  have f1 : t1.fl.sf = decide (¬ 0 ≤ a.shortVal.toInt) := by
    have : t1.fl.sf = (Op32.eval .cmp (((t.mem (t.reg .rsi)).setWidth 32).setWidth 64 |>.setWidth 32) 0 t.fl).2.sf := by asm ht1
    rw [this, va, sign32, (zext_bits _).1]
  have e : bitS1L2 o (n64 q) ++ p = [.misc (.op32 .mov .rax (.low .rsi)), .misc (.op32 .cmp .rax (.imm 0))] ++ (.jump .sign "solveNeg" ::
      (bitShortRounds o .rdx (n64 q) ++ (subQIfBigger (n64 q) 8 ++ (leave ++ (.label "solveNeg" :: (convA (n64 q) "toLongNormal" ++
        (setTypeDest 0x80 ++ (bitL1L2 o (n64 q) ++ p)))))))) := by
    rw [bitS1L2]; simp only [List.append_assoc, List.cons_append, List.nil_append]
  rw [e, run_exes _ rfl, ← ht1, run_jump, Cond.holds, f1]
  by_cases hs : 0 ≤ a.shortVal.toInt
  · rw [if_neg (by simpa using hs), shortOperand, if_pos hs, ← zext_sx hs]
    exact bitShort_run ho hn (by rw [zext_sx hs]; exact short_bits hs) h hk (by omega) h0 o1 k1 (by decide) o1.aliB o1.limB _
  · rw [if_pos (by simpa using hs), dropTo_skip (by rw [labels_short]; simp), dropTo_skip (by rw [labels_subQ]; decide),
      dropTo_skip (by rw [labels_leave]; simp), dropTo_self, shortOperand_neg hs]
    obtain ⟨t2, a2, e2, ⟨w, rfl⟩, o2⟩ := o1.convA h hL hk hF hb
    obtain ⟨t3, e3, o3⟩ := o2.setTy' (env := env) (ra := ra) h (by omega) (by omega) hr hr'
    rw [e2, e3, ← toLong_long q a u w]
    exact bitL1L2_run ho h (by omega) (by omega) h0 o3 p

/-- `binOpL1S2`. -/
theorem bitL1S2_run (u : Elem) (h7' : FromOk q b) (ho : BitOp o o' f g) (hn : ShortFits q a.longVal)
    (hL : ConvSpec q F' ra env "toLongNormal" (fun a e => ∃ r, e = toLongNormalInto q r a) (FromOk q))
    (h : TArgs q F s) (hk : 1 ≤ k) (hF : k + n64 q + 3 + F' ≤ F) (hb : callCells q ≤ F') (h0 : 0 < n64 q) (hr : r.long = true) (hr' : r.mont = false)
    (oo : Ops q F k s t r a b) (p : List Line) :
    ∃ s', run env ra (bitL1S2 o (n64 q) ++ p) t = some s' ∧ TRet q F s s' { r with longVal := rawBit q f a.longVal (shortOperand q u b) } := by
  obtain ⟨t1, ht1⟩ : ∃ t1, t1 = exes [op .mov rcx (.mem .rdx 0), .misc (.op32 .cmp .rcx (.imm 0))] t := ⟨_, rfl⟩
  have m1 : Move t t1 := ht1 ▸ exes_move rfl
  have o1 : Ops q F k s t1 r a b := oo.move m1 (by asm ht1) (by asm ht1) (by asm ht1)
  have vb : (t.mem (t.reg .rdx)).setWidth 32 = b.shortVal := by rw [← oo.b]; rfl
  have k1 : t1.reg .rcx = t.mem (t.reg .rdx) := by asm ht1
  have f1 : t1.fl.sf = decide (¬ 0 ≤ b.shortVal.toInt) := by
    have : t1.fl.sf = (Op32.eval .cmp ((t.mem (t.reg .rdx)).setWidth 32) 0 t.fl).2.sf := by asm ht1
    rw [this, vb, sign32]
  have e : bitL1S2 o (n64 q) ++ p = [op .mov rcx (.mem .rdx 0), .misc (.op32 .cmp .rcx (.imm 0))] ++ (.jump .sign "solveNeg" ::
      ([.misc (.movsx .rax .rcx)] ++ (bitShortRounds o .rsi (n64 q) ++ (subQIfBigger (n64 q) 8 ++ (leave ++ (.label "solveNeg" :: (convB (n64 q) "toLongNormal" ++
        (setTypeDest 0x80 ++ (bitL1L2 o (n64 q) ++ p))))))))) := by
    rw [bitL1S2]; simp only [List.append_assoc, List.cons_append, List.nil_append]
  rw [e, run_exes _ rfl, ← ht1, run_jump, Cond.holds, f1]
  by_cases hs : 0 ≤ b.shortVal.toInt
  · rw [if_neg (by simpa using hs), shortOperand, if_pos hs, rawBit_comm ho]
    obtain ⟨t2, ht2⟩ : ∃ t2, t2 = exes [.misc (.movsx .rax .rcx)] t1 := ⟨_, rfl⟩
    have m2 : Move t1 t2 := ht2 ▸ exes_move rfl
    have o2 : Ops q F k s t2 r a b := o1.move m2 (by asm ht2) (by asm ht2) (by asm ht2)
    have k2 : t2.reg .rax = sx b.shortVal := by rw [← vb, ← k1, sx]; asm ht2
    rw [run_exes _ rfl, ← ht2]
    exact bitShort_run ho hn (short_bits hs) h hk (by omega) h0 o2 k2 (by decide) o2.aliA o2.limA _
  · rw [if_pos (by simpa using hs), dropTo_skip (by simp [labels]), dropTo_skip (by rw [labels_short]; simp), dropTo_skip (by rw [labels_subQ]; decide),
      dropTo_skip (by rw [labels_leave]; simp), dropTo_self, shortOperand_neg hs]
    obtain ⟨t2, a2, e2, ⟨w, rfl⟩, o2⟩ := o1.convB h hL hk hF hb
    obtain ⟨t3, e3, o3⟩ := o2.setTy' (env := env) (ra := ra) h (by omega) (by omega) hr hr'
    rw [e2, e3, ← toLong_long q b u w]
    exact bitL1L2_run ho h (by omega) (by omega) h0 o3 p

theorem exe_op32 (o : Op32) (ho : o.writes = true) (d : Reg) (b : Opd32) (t : State) :
    (Line.misc (.op32 o d b)).exec t = State.mk (upd t.reg d ((o.eval ((t.reg d).setWidth 32) (b.get t) t.fl).1.setWidth 64))
      (o.eval ((t.reg d).setWidth 32) (b.get t) t.fl).2 t.mem t.sym := by
  simp only [Line.exec, Misc.exec, ho, if_true]

/-- `binOpS1S2`: the tag cells of the operands are in `rax` and `rcx`. -/
theorem bitS1S2_run (u : Elem) (h7a : FromOk q (m (s.reg .rsi).toNat)) (h7b : FromOk q (m (s.reg .rdx).toNat)) (ho : BitOp o o' f g)
    (hL : ConvSpec q F' ra env "toLongNormal" (fun a e => ∃ r, e = toLongNormalInto q r a) (FromOk q))
    (h : TArgs q F s) (ha : TOpnd q F s (s.reg .rsi)) (hb : TOpnd q F s (s.reg .rdx))
    (hF : 2 * n64 q + 7 + F' ≤ F) (hc : callCells q ≤ F') (h0 : 0 < n64 q)
    (ht : At q F s t m) (va : (t.reg .rax).setWidth 32 = (m (s.reg .rsi).toNat).shortVal) (vb : (t.reg .rcx).setWidth 32 = (m (s.reg .rdx).toNat).shortVal)
    (p : List Line) :
    ∃ s', run env ra (bitS1S2 o o' (n64 q) ++ p) t = some s' ∧ TRet q F s s' (
      if 0 ≤ (m (s.reg .rsi).toNat).shortVal.toInt ∧ 0 ≤ (m (s.reg .rdx).toNat).shortVal.toInt then
        ⟨g (m (s.reg .rsi).toNat).shortVal (m (s.reg .rdx).toNat).shortVal, false, false, (m (s.reg .rdi).toNat).longVal⟩
      else
        { (m.setTy (s.reg .rdi).toNat true false) (s.reg .rdi).toNat with
          longVal := rawBit q f (toLongNormalInto q u ((m.setTy (s.reg .rdi).toNat true false) (s.reg .rsi).toNat)).longVal
            (toLongNormalInto q u ((m.setTy (s.reg .rdi).toNat true false) (s.reg .rdx).toNat)).longVal }) := by
  have e : bitS1S2 o o' (n64 q) ++ p = [.misc (.op32 .cmp .rax (.imm 0))] ++ (.jump .sign "solveNeg" :: ([.misc (.op32 .cmp .rcx (.imm 0))] ++
      (.jump .sign "solveNeg" :: ([op .xor rdx rdx, .misc (.op32 .mov .rdx (.reg .rax)), .misc (.op32 o' .rdx (.reg .rcx))] ++
      ([op .mov (.mem .rdi 0) rdx] ++ (leave ++ (.label "solveNeg" :: (setTypeDest 0x80 ++ (convB (n64 q) "toLongNormal" ++
      (convA (n64 q) "toLongNormal" ++ (bitL1L2 o (n64 q) ++ p))))))))))) := by
    rw [bitS1S2]; simp only [List.append_assoc, List.cons_append, List.nil_append]
  have neg : ∀ t', Same t t' → ∃ s', run env ra (setTypeDest 0x80 ++ (convB (n64 q) "toLongNormal" ++
      (convA (n64 q) "toLongNormal" ++ (bitL1L2 o (n64 q) ++ p)))) t' = some s' ∧ TRet q F s s' 
        { (m.setTy (s.reg .rdi).toNat true false) (s.reg .rdi).toNat with
          longVal := rawBit q f (toLongNormalInto q u ((m.setTy (s.reg .rdi).toNat true false) (s.reg .rsi).toNat)).longVal
            (toLongNormalInto q u ((m.setTy (s.reg .rdi).toNat true false) (s.reg .rdx).toNat)).longVal } := by
    rintro t' ⟨h1, h2, h3⟩
    have ht' : At q F s t' m := ⟨ht.inn.move ⟨h1, h3, by rw [h2], fun r _ => by rw [h2]⟩, by rw [h2]; exact ht.rsp, by rw [h2]; exact ht.rdi,
      by rw [h2]; exact ht.rsi, by rw [h2]; exact ht.rdx, by rw [h1]; exact ht.r, by rw [h1]; exact ht.a, by rw [h1]; exact ht.b⟩
    obtain ⟨t1, e1, a1, _, _⟩ := ht'.setTy (env := env) (ra := ra) h ha hb (by omega) 0x80
    have o1 := a1.ops ha hb (by omega)
    obtain ⟨t2, b2, e2, ⟨w2, rfl⟩, o2⟩ := o1.convB h hL (by omega) (by omega) hc h7b.setTy
    obtain ⟨t3, a3, e3, ⟨w3, rfl⟩, o3⟩ := o2.convA h hL (by omega) (by omega) hc h7a.setTy
    rw [e1, e2, e3]
    obtain ⟨s', r1, r2⟩ := bitL1L2_run (env := env) (ra := ra) ho h (by omega) (by omega) h0 o3 p
    rw [toLong_long q _ u w2, toLong_long q _ u w3] at r2
    exact ⟨s', r1, r2⟩
  set t1 : State := exes [.misc (.op32 .cmp .rax (.imm 0))] t with ht1
  have s1 : Same t t1 := ⟨rfl, rfl, rfl⟩
  have f1 : t1.fl.sf = decide (¬ 0 ≤ (m (s.reg .rsi).toNat).shortVal.toInt) := by
    rw [← va, ← sign32 _ t.fl]; rfl
  set t2 : State := exes [.misc (.op32 .cmp .rcx (.imm 0))] t1 with ht2
  have s2 : Same t t2 := ⟨rfl, rfl, rfl⟩
  have f2 : t2.fl.sf = decide (¬ 0 ≤ (m (s.reg .rdx).toNat).shortVal.toInt) := by
    rw [← vb, ← sign32 _ t1.fl]; rfl
  rw [e, run_exes _ rfl, ← ht1, run_jump, Cond.holds, f1]
  by_cases hsa : 0 ≤ (m (s.reg .rsi).toNat).shortVal.toInt
  · rw [if_neg (by simpa using hsa), run_exes _ rfl, ← ht2, run_jump, Cond.holds, f2]
    by_cases hsb : 0 ≤ (m (s.reg .rdx).toNat).shortVal.toInt
    · rw [if_neg (by simpa using hsb), if_pos ⟨hsa, hsb⟩]
      obtain ⟨t3, ht3⟩ : ∃ t3, t3 = exes [op .xor rdx rdx, .misc (.op32 .mov .rdx (.reg .rax)), .misc (.op32 o' .rdx (.reg .rcx))] t2 := ⟨_, rfl⟩
      have e3 : t3 = State.mk (upd (upd (upd t2.reg .rdx 0) .rdx ((m (s.reg .rsi).toNat).shortVal.setWidth 64)) .rdx
          ((g (m (s.reg .rsi).toNat).shortVal (m (s.reg .rdx).toNat).shortVal).setWidth 64)) t3.fl t2.mem t2.sym := by
        rw [ht3]
        simp only [exes, List.foldl_cons, List.foldl_nil]
        rw [exe_op .xor rfl, exe_op32 .mov rfl, exe_op32 o' ho.writes32, ho.val32]
        have ea : (t2.reg .rax).setWidth 32 = (m (s.reg .rsi).toNat).shortVal := va
        have eb : (t2.reg .rcx).setWidth 32 = (m (s.reg .rdx).toNat).shortVal := vb
        simp only [Op32.eval, Opd32.get, Op2.eval, upd_same, upd_ne _ _ (show Reg.rax ≠ Reg.rdx by decide),
          upd_ne _ _ (show Reg.rcx ≠ Reg.rdx by decide), Opd.get, BitVec.xor_self, ea, eb, (zext_bits _).1]
        rfl
      have rg : ∀ r, r ≠ .rdx → t3.reg r = t.reg r := fun r hr => by
        rw [e3]; simp only [upd_ne _ _ hr]; rfl
      have m3 : Move t t3 := ⟨by rw [e3]; rfl, by rw [e3]; rfl, rg _ (by decide), fun r hr => rg r (by rintro rfl; exact absurd hr (by decide))⟩
      have d3 : t3.reg .rdx = (g (m (s.reg .rsi).toNat).shortVal (m (s.reg .rdx).toNat).shortVal).setWidth 64 := by
        rw [e3]; simp only [upd_same]
      rw [run_exes _ (by simp [Line.plain]), ← ht3]
      obtain ⟨s', r1, r2⟩ := tag_tail (env := env) (ra := ra) h (ht.inn.move m3) (m3.rsp.trans ht.rsp) ((rg _ (by decide)).trans ht.rdi) (by omega) _
      refine ⟨s', r1, ?_⟩
      obtain ⟨z1, z2, z3⟩ := zext_bits (g (m (s.reg .rsi).toNat).shortVal (m (s.reg .rdx).toNat).shortVal)
      rw [d3, z1, z2, z3, m3.mem, ht.r] at r2
      exact r2
    · rw [if_pos (by simpa using hsb), if_neg (fun h => hsb h.2)]
      exact neg t2 s2
  · rw [if_pos (by simpa using hsa), if_neg (fun h => hsa h.1)]
    exact neg t1 s1

end bit

end FF.X86
