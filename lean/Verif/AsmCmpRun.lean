import Verif.AsmOps

/-!
# The comparisons of the generated assembly equal the portable ones
-/

namespace FF.X86

section run

variable {q F F' k n : Nat} {ra : BitVec 64} {s t : State} {env : String → Option (State → Option State)} {m : Mem} {r a b : Elem}

theorem cell_tail (p : BitVec 64) (i : Nat) : p + BitVec.ofNat 64 (8 + 8 * i) = cell (cell p 1) i := by
  rw [cell_add, cell]; congr 2; omega

theorem zf_sub (x y : BitVec 64) : decide (x - y = 0) = decide (x = y) := by simp only [sub_eq_zero_iff]

/-- `signL`. -/
theorem signL_run (hd : Data q t) (hn : 0 < n64 q) {r0 : Reg} (hr : r0 ≠ .rax) (pos neg : String) (p : List Line) :
    ∃ t', Agree notRax t t' ∧ run env ra (signL (n64 q) r0 pos neg ++ p) t =
      run env ra (dropTo (if rawCmp (half q) (rd t.mem (cell (t.reg r0) 1) (n64 q)) == .lt then neg else pos) p) t' := by
  obtain ⟨n, hn'⟩ : ∃ n, n64 q = n + 1 := ⟨n64 q - 1, by omega⟩
  obtain ⟨t', h1, h2⟩ := downCmp_run (env := env) (ra := ra) (t := t)
    (pre := fun i => [op .mov rax (.mem r0 (8 + 8 * i)), op .cmp (.sym .half (8 * i)) rax]) (lc := neg) (ln := pos)
    (last := [.jump .always pos]) (p := p) (L := fun i => t.mem (cell (t.sym .half) i))
    (R := fun i => t.mem (cell (cell (t.reg r0) 1) i)) (fin := fun o => dropTo (if o == .lt then neg else pos) p)
    (fun _ => rfl) (fun _ _ _ => rfl) (fun _ _ => rfl)
    (fun i t' hA => by
      refine ⟨hA.trans ⟨rfl, rfl, fun r hr => upd_ne _ _ hr⟩, ?_, ?_⟩
      · show decide ((t'.mem (cell (t'.sym .half) i)).toNat < (t'.mem (t'.reg r0 + BitVec.ofNat 64 (8 + 8 * i))).toNat + 0) = _
        rw [cell_tail, hA.mem, hA.sym, hA.regs _ hr]; rfl
      · show decide (t'.mem (cell (t'.sym .half) i) - t'.mem (t'.reg r0 + BitVec.ofNat 64 (8 + 8 * i)) = 0) = _
        rw [cell_tail, hA.mem, hA.sym, hA.regs _ hr, zf_sub])
    rfl rfl
    (fun t' _ hlt => by
      rw [List.cons_append, run_jump, Cond.holds, if_pos rfl, List.nil_append]
      rw [if_neg (by simpa [compare_lt_iff_lt] using hlt)]) n t ⟨rfl, rfl, fun _ _ => rfl⟩
  refine ⟨t', h1, ?_⟩
  have e : signL (n64 q) r0 pos neg = down (fun i => (fun i => [op .mov rax (.mem r0 (8 + 8 * i)), op .cmp (.sym .half (8 * i)) rax]) i ++
      .jump .carry neg :: if i > 0 then [.jump .nzero pos] else [.jump .always pos]) (n + 1) := by
    rw [signL, hn']
    rfl
  rw [e, h2, ← hd.half]
  simp only [hn']
  rfl

/-- The limbs compared from the top, as in `rgt`. -/
theorem rawGt_run (hn : 0 < n64 q) (X : List Line) :
    ∃ t', Agree notRax t t' ∧ run env ra (down (fun i => [op .mov rax (.mem .rsi (8 + 8 * i)), op .cmp (.mem .rdx (8 + 8 * i)) rax,
      .jump .carry "ret1"] ++ if i > 0 then [.jump .nzero "ret0"] else []) (n64 q) ++ .label "ret0" :: X) t =
      run env ra (if rawCmp (rd t.mem (cell (t.reg .rdx) 1) (n64 q)) (rd t.mem (cell (t.reg .rsi) 1) (n64 q)) == .lt then
        dropTo "ret1" X else X) t' := by
  obtain ⟨n, hn'⟩ : ∃ n, n64 q = n + 1 := ⟨n64 q - 1, by omega⟩
  obtain ⟨t', h1, h2⟩ := downCmp_run (env := env) (ra := ra) (t := t)
    (pre := fun i => [op .mov rax (.mem .rsi (8 + 8 * i)), op .cmp (.mem .rdx (8 + 8 * i)) rax]) (lc := "ret1") (ln := "ret0")
    (last := []) (p := .label "ret0" :: X) (L := fun i => t.mem (cell (cell (t.reg .rdx) 1) i))
    (R := fun i => t.mem (cell (cell (t.reg .rsi) 1) i)) (fin := fun o => if o == .lt then dropTo "ret1" X else X)
    (fun _ => rfl) (fun _ _ _ => rfl) (fun _ _ => rfl)
    (fun i t' hA => by
      refine ⟨hA.trans ⟨rfl, rfl, fun r hr => upd_ne _ _ hr⟩, ?_, ?_⟩
      · show decide ((t'.mem (t'.reg .rdx + BitVec.ofNat 64 (8 + 8 * i))).toNat < (t'.mem (t'.reg .rsi + BitVec.ofNat 64 (8 + 8 * i))).toNat + 0) = _
        rw [cell_tail, cell_tail, hA.mem, hA.regs .rdx (by simp [notRax]), hA.regs .rsi (by simp [notRax])]; rfl
      · show decide (t'.mem (t'.reg .rdx + BitVec.ofNat 64 (8 + 8 * i)) - t'.mem (t'.reg .rsi + BitVec.ofNat 64 (8 + 8 * i)) = 0) = _
        rw [cell_tail, cell_tail, hA.mem, hA.regs .rdx (by simp [notRax]), hA.regs .rsi (by simp [notRax]), zf_sub])
    rfl rfl
    (fun t' _ hlt => by
      rw [List.nil_append, run_label, if_neg (by simpa [compare_lt_iff_lt] using hlt)]) n t ⟨rfl, rfl, fun _ _ => rfl⟩
  refine ⟨t', h1, ?_⟩
  rw [hn']
  exact h2

/-- The limbs compared from the top, as in `rlt`. -/
theorem rawLt_run (hn : 0 < n64 q) (X : List Line) :
    ∃ t', Agree notRax t t' ∧ run env ra (down (fun i => [op .mov rax (.mem .rsi (8 + 8 * i)), op .cmp (.mem .rdx (8 + 8 * i)) rax,
      .jump .carry "ret0", .jump .nzero "ret1"]) (n64 q) ++ .label "ret0" :: X) t =
      run env ra (if rawCmp (rd t.mem (cell (t.reg .rdx) 1) (n64 q)) (rd t.mem (cell (t.reg .rsi) 1) (n64 q)) == .gt then
        dropTo "ret1" X else X) t' := by
  obtain ⟨n, hn'⟩ : ∃ n, n64 q = n + 1 := ⟨n64 q - 1, by omega⟩
  obtain ⟨t', h1, h2⟩ := downCmp_run (env := env) (ra := ra) (t := t)
    (pre := fun i => [op .mov rax (.mem .rsi (8 + 8 * i)), op .cmp (.mem .rdx (8 + 8 * i)) rax]) (lc := "ret0") (ln := "ret1")
    (last := [.jump .nzero "ret1"]) (p := .label "ret0" :: X) (L := fun i => t.mem (cell (cell (t.reg .rdx) 1) i))
    (R := fun i => t.mem (cell (cell (t.reg .rsi) 1) i)) (fin := fun o => if o == .gt then dropTo "ret1" X else X)
    (fun _ => rfl) (fun _ _ _ => rfl) (fun _ _ => rfl)
    (fun i t' hA => by
      refine ⟨hA.trans ⟨rfl, rfl, fun r hr => upd_ne _ _ hr⟩, ?_, ?_⟩
      · show decide ((t'.mem (t'.reg .rdx + BitVec.ofNat 64 (8 + 8 * i))).toNat < (t'.mem (t'.reg .rsi + BitVec.ofNat 64 (8 + 8 * i))).toNat + 0) = _
        rw [cell_tail, cell_tail, hA.mem, hA.regs .rdx (by simp [notRax]), hA.regs .rsi (by simp [notRax])]; rfl
      · show decide (t'.mem (t'.reg .rdx + BitVec.ofNat 64 (8 + 8 * i)) - t'.mem (t'.reg .rsi + BitVec.ofNat 64 (8 + 8 * i)) = 0) = _
        rw [cell_tail, cell_tail, hA.mem, hA.regs .rdx (by simp [notRax]), hA.regs .rsi (by simp [notRax]), zf_sub])
    rfl rfl
    (fun t' hz hlt => by
      rw [List.cons_append, run_jump, Cond.holds, hz, List.nil_append]
      by_cases h : t.mem (cell (cell (t.reg .rdx) 1) 0) = t.mem (cell (cell (t.reg .rsi) 1) 0)
      · rw [if_neg (by simp [h]), run_label, h, compare_eq_iff_eq.2 rfl]; rfl
      · have : (t.mem (cell (cell (t.reg .rsi) 1) 0)).toNat < (t.mem (cell (cell (t.reg .rdx) 1) 0)).toNat := by
          have : (t.mem (cell (cell (t.reg .rdx) 1) 0)).toNat ≠ (t.mem (cell (cell (t.reg .rsi) 1) 0)).toNat := fun e => h (BitVec.eq_of_toNat_eq e)
          omega
        rw [if_pos (by simp [h]), compare_gt_iff_gt.2 this]; rfl) n t ⟨rfl, rfl, fun _ _ => rfl⟩
  refine ⟨t', h1, ?_⟩
  rw [hn']
  refine Eq.trans ?_ h2
  congr 3
  funext i
  simp

/-- `signs`: to `lp` (first not negative, second negative), to `ln` (the reverse) or on. -/
theorem signs_run (hd : Data q t) (hn : 0 < n64 q) (lp ln : String) (hlp : ¬ lp ∈ ["p1", "n1", "RawL1L2"]) (hln : ¬ ln ∈ ["p1", "n1", "RawL1L2"]) (p : List Line) :
    ∃ t', Agree notRax t t' ∧ run env ra (signs (n64 q) lp ln ++ p) t = run env ra (
      if rawCmp (half q) (rd t.mem (cell (t.reg .rsi) 1) (n64 q)) == .lt then
        if rawCmp (half q) (rd t.mem (cell (t.reg .rdx) 1) (n64 q)) == .lt then p else dropTo ln p
      else if rawCmp (half q) (rd t.mem (cell (t.reg .rdx) 1) (n64 q)) == .lt then dropTo lp p else p) t' := by
  have hds : ∀ l r0 pos neg p, dropTo l (signL (n64 q) r0 pos neg ++ p) = dropTo l p := by
    intro l r0 pos neg p
    refine dropTo_down l _ (fun i p => ?_) p _
    by_cases h : i > 0 <;> simp [h, dropTo, op]
  simp only [List.mem_cons, List.not_mem_nil, or_false, not_or] at hlp hln
  obtain ⟨t1, a1, e1⟩ := signL_run (env := env) (ra := ra) hd hn (r0 := .rsi) (by decide) "p1" "n1"
    (.label "p1" :: (signL (n64 q) .rdx "RawL1L2" lp ++ .label "n1" :: (signL (n64 q) .rdx ln "RawL1L2" ++ .label "RawL1L2" :: p)))
  have e : signs (n64 q) lp ln ++ p = signL (n64 q) .rsi "p1" "n1" ++ (.label "p1" :: (signL (n64 q) .rdx "RawL1L2" lp ++
    .label "n1" :: (signL (n64 q) .rdx ln "RawL1L2" ++ .label "RawL1L2" :: p))) := by
    rw [signs]; simp only [List.append_assoc, List.cons_append, List.nil_append]
  have hd1 : Data q t1 := hd.congr a1.sym fun _ _ => by rw [a1.mem]
  have hx : rd t1.mem (cell (t1.reg .rdx) 1) (n64 q) = rd t.mem (cell (t.reg .rdx) 1) (n64 q) := by
    rw [a1.mem, a1.regs .rdx (by simp [notRax])]
  rw [e, e1]
  by_cases h1 : (rawCmp (half q) (rd t.mem (cell (t.reg .rsi) 1) (n64 q)) == .lt) = true
  · rw [if_pos h1, if_pos h1, dropTo_label, if_neg (by decide), hds, dropTo_self]
    obtain ⟨t2, a2, e2⟩ := signL_run (env := env) (ra := ra) hd1 hn (r0 := .rdx) (by decide) ln "RawL1L2" (.label "RawL1L2" :: p)
    refine ⟨t2, a1.trans a2, ?_⟩
    rw [e2, hx]
    by_cases h2 : (rawCmp (half q) (rd t.mem (cell (t.reg .rdx) 1) (n64 q)) == .lt) = true
    · rw [if_pos h2, if_pos h2, dropTo_self]
    · rw [if_neg h2, if_neg h2, dropTo_label, if_neg (fun h => hln.2.2 h.symm)]
  · rw [if_neg h1, if_neg h1, dropTo_self]
    obtain ⟨t2, a2, e2⟩ := signL_run (env := env) (ra := ra) hd1 hn (r0 := .rdx) (by decide) "RawL1L2" lp
      (.label "n1" :: (signL (n64 q) .rdx ln "RawL1L2" ++ .label "RawL1L2" :: p))
    refine ⟨t2, a1.trans a2, ?_⟩
    rw [e2, hx]
    by_cases h2 : (rawCmp (half q) (rd t.mem (cell (t.reg .rdx) 1) (n64 q)) == .lt) = true
    · rw [if_pos h2, if_pos h2, dropTo_label, if_neg (fun h => hlp.2.1 h.symm), hds, dropTo_label, if_neg (fun h => hlp.2.2 h.symm)]
    · rw [if_neg h2, if_neg h2, dropTo_label, if_neg (by decide), hds, dropTo_self]

/-- What a comparison leaves. -/
def CmpRet (q F : Nat) (s s' : State) (r : Elem) (v : Bool) : Prop := TRet q F s s' r ∧ s'.reg .rax = if v then 1 else 0

theorem ret0_run (o : Ops q F k s t r a b) (p : List Line) :
    ∃ s', run env ra (op .xor rax rax :: (leave ++ p)) t = some s' ∧ CmpRet q F s s' r false := by
  obtain ⟨t1, ht1⟩ : ∃ t1, t1 = exes [op .xor rax rax] t := ⟨_, rfl⟩
  have m1 : Move t t1 := ht1 ▸ exes_move rfl
  obtain ⟨s', h1, h2, h3⟩ := Ops.leave (env := env) (ra := ra) (o.move m1 (by asm ht1) (by asm ht1) (by asm ht1)) p
  refine ⟨s', ?_, h2, h3.trans (by asm ht1)⟩
  show run env ra ([op .xor rax rax] ++ (leave ++ p)) t = _
  rw [run_exes _ rfl, ← ht1, h1]

theorem ret1_run (o : Ops q F k s t r a b) (p : List Line) :
    ∃ s', run env ra (op .mov rax (.imm 1) :: (leave ++ p)) t = some s' ∧ CmpRet q F s s' r true := by
  obtain ⟨t1, ht1⟩ : ∃ t1, t1 = exes [op .mov rax (.imm 1)] t := ⟨_, rfl⟩
  have m1 : Move t t1 := ht1 ▸ exes_move rfl
  obtain ⟨s', h1, h2, h3⟩ := Ops.leave (env := env) (ra := ra) (o.move m1 (by asm ht1) (by asm ht1) (by asm ht1)) p
  refine ⟨s', ?_, h2, h3.trans (by asm ht1)⟩
  show run env ra ([op .mov rax (.imm 1)] ++ (leave ++ p)) t = _
  rw [run_exes _ rfl, ← ht1, h1]

/-- Where the three routines end: at label `ret0` or `ret1`. -/
theorem end_run (o : Ops q F k s t r a b) (v : Bool) (p : List Line)
    (h0 : ∃ X, dropTo "ret0" p = op .xor rax rax :: (leave ++ X)) (h1 : ∃ X, dropTo "ret1" p = op .mov rax (.imm 1) :: (leave ++ X)) :
    ∃ s', run env ra (if v then dropTo "ret1" p else dropTo "ret0" p) t = some s' ∧ CmpRet q F s s' r v := by
  obtain ⟨X, e0⟩ := h0
  obtain ⟨Y, e1⟩ := h1
  cases v
  · rw [if_neg (by decide), e0]; exact ret0_run o X
  · rw [if_pos rfl, e1]; exact ret1_run o Y

theorem dropTo_leave (l : String) (p : List Line) : dropTo l (leave ++ p) = dropTo l p := rfl

/-- `rgt` after the conversions. -/
theorem rgtTail_run (h : TArgs q F s) (o : Ops q F k s t r a b) (hk : k ≤ F) (hn : 0 < n64 q) :
    ∃ s', run env ra (signs (n64 q) "ret1" "ret0" ++
      down (fun i => [op .mov rax (.mem .rsi (8 + 8 * i)), op .cmp (.mem .rdx (8 + 8 * i)) rax, .jump .carry "ret1"] ++
        if i > 0 then [.jump .nzero "ret0"] else []) (n64 q) ++ cmpRet0 ++ cmpRet1) t = some s' ∧
      CmpRet q F s s' r (rgtL1L2 q a.longVal b.longVal) := by
  set D := down (fun i => [op .mov rax (.mem .rsi (8 + 8 * i)), op .cmp (.mem .rdx (8 + 8 * i)) rax, .jump .carry "ret1"] ++
        if i > 0 then [.jump .nzero "ret0"] else []) (n64 q) with hD
  have hdD : ∀ l p, dropTo l (D ++ p) = dropTo l p := by
    intro l p
    refine dropTo_down l _ (fun i p => ?_) p _
    by_cases h : i > 0 <;> simp [h, dropTo, op]
  obtain ⟨t1, a1, e1⟩ := signs_run (env := env) (ra := ra) (o.data h hk) hn "ret1" "ret0" (by simp) (by simp) (D ++ (cmpRet0 ++ cmpRet1))
  have o1 := o.agree a1
  have d0 : dropTo "ret0" (D ++ (cmpRet0 ++ cmpRet1)) = op .xor rax rax :: (leave ++ cmpRet1) := by rw [hdD]; rfl
  have d1 : dropTo "ret1" (D ++ (cmpRet0 ++ cmpRet1)) = op .mov rax (.imm 1) :: (leave ++ []) := by rw [hdD]; rfl
  have ha : rd t.mem (cell (t.reg .rsi) 1) (n64 q) = a.longVal := by rw [← o.a]; rfl
  have hb : rd t.mem (cell (t.reg .rdx) 1) (n64 q) = b.longVal := by rw [← o.b]; rfl
  have ha1 : rd t1.mem (cell (t1.reg .rsi) 1) (n64 q) = a.longVal := by rw [← o1.a]; rfl
  have hb1 : rd t1.mem (cell (t1.reg .rdx) 1) (n64 q) = b.longVal := by rw [← o1.b]; rfl
  have hraw : ∃ s', run env ra (D ++ (cmpRet0 ++ cmpRet1)) t1 = some s' ∧ CmpRet q F s s' r (rawCmp b.longVal a.longVal == .lt) := by
    obtain ⟨t2, a2, e2⟩ := rawGt_run (env := env) (ra := ra) (t := t1) (q := q) hn (op .xor rax rax :: (leave ++ cmpRet1))
    have : D ++ (cmpRet0 ++ cmpRet1) = D ++ .label "ret0" :: (op .xor rax rax :: (leave ++ cmpRet1)) := rfl
    rw [this, e2, ha1, hb1]
    cases (rawCmp b.longVal a.longVal == .lt)
    · exact ret0_run (o1.agree a2) _
    · exact ret1_run (o1.agree a2) []
  rw [List.append_assoc, List.append_assoc, e1, ha, hb, rgtL1L2]
  by_cases c1 : (rawCmp (half q) a.longVal == .lt) = true <;> by_cases c2 : (rawCmp (half q) b.longVal == .lt) = true
  · simp only [c1, c2, if_true]; exact hraw
  · simp only [c1, c2, if_true, Bool.false_eq_true, if_false, d0]; exact ret0_run o1 _
  · simp only [c1, c2, if_true, Bool.false_eq_true, if_false, d1]; exact ret1_run o1 _
  · simp only [c1, c2, Bool.false_eq_true, if_false]; exact hraw

/-- `rlt` after the conversions. -/
theorem rltTail_run (h : TArgs q F s) (o : Ops q F k s t r a b) (hk : k ≤ F) (hn : 0 < n64 q) :
    ∃ s', run env ra (signs (n64 q) "ret0" "ret1" ++
      down (fun i => [op .mov rax (.mem .rsi (8 + 8 * i)), op .cmp (.mem .rdx (8 + 8 * i)) rax, .jump .carry "ret0",
        .jump .nzero "ret1"]) (n64 q) ++ cmpRet0 ++ cmpRet1) t = some s' ∧
      CmpRet q F s s' r (rltL1L2 q a.longVal b.longVal) := by
  set D := down (fun i => [op .mov rax (.mem .rsi (8 + 8 * i)), op .cmp (.mem .rdx (8 + 8 * i)) rax, .jump .carry "ret0",
        .jump .nzero "ret1"]) (n64 q) with hD
  have hdD : ∀ l p, dropTo l (D ++ p) = dropTo l p := by
    intro l p
    exact dropTo_down l _ (fun i p => rfl) p _
  obtain ⟨t1, a1, e1⟩ := signs_run (env := env) (ra := ra) (o.data h hk) hn "ret0" "ret1" (by simp) (by simp) (D ++ (cmpRet0 ++ cmpRet1))
  have o1 := o.agree a1
  have d0 : dropTo "ret0" (D ++ (cmpRet0 ++ cmpRet1)) = op .xor rax rax :: (leave ++ cmpRet1) := by rw [hdD]; rfl
  have d1 : dropTo "ret1" (D ++ (cmpRet0 ++ cmpRet1)) = op .mov rax (.imm 1) :: (leave ++ []) := by rw [hdD]; rfl
  have ha : rd t.mem (cell (t.reg .rsi) 1) (n64 q) = a.longVal := by rw [← o.a]; rfl
  have hb : rd t.mem (cell (t.reg .rdx) 1) (n64 q) = b.longVal := by rw [← o.b]; rfl
  have ha1 : rd t1.mem (cell (t1.reg .rsi) 1) (n64 q) = a.longVal := by rw [← o1.a]; rfl
  have hb1 : rd t1.mem (cell (t1.reg .rdx) 1) (n64 q) = b.longVal := by rw [← o1.b]; rfl
  have hraw : ∃ s', run env ra (D ++ (cmpRet0 ++ cmpRet1)) t1 = some s' ∧ CmpRet q F s s' r (rawCmp b.longVal a.longVal == .gt) := by
    obtain ⟨t2, a2, e2⟩ := rawLt_run (env := env) (ra := ra) (t := t1) (q := q) hn (op .xor rax rax :: (leave ++ cmpRet1))
    have : D ++ (cmpRet0 ++ cmpRet1) = D ++ .label "ret0" :: (op .xor rax rax :: (leave ++ cmpRet1)) := rfl
    rw [this, e2, ha1, hb1]
    cases (rawCmp b.longVal a.longVal == .gt)
    · exact ret0_run (o1.agree a2) _
    · exact ret1_run (o1.agree a2) []
  rw [List.append_assoc, List.append_assoc, e1, ha, hb, rltL1L2]
  by_cases c1 : (rawCmp (half q) a.longVal == .lt) = true <;> by_cases c2 : (rawCmp (half q) b.longVal == .lt) = true
  · simp only [c1, c2, if_true]; exact hraw
  · simp only [c1, c2, if_true, Bool.false_eq_true, if_false, d1]; exact ret1_run o1 _
  · simp only [c1, c2, if_true, Bool.false_eq_true, if_false, d0]; exact ret0_run o1 _
  · simp only [c1, c2, Bool.false_eq_true, if_false]; exact hraw

/-- The limbs compared one by one, as in `req`. -/
theorem eqLimbs_run (p : List Line) (j : Nat) : ∀ (i : Nat) (t : State), ∃ t', Agree notRax t t' ∧
    run env ra (((List.range' i j).flatMap fun i => [op .mov rax (.mem .rsi (8 + 8 * i)), op .cmp (.mem .rdx (8 + 8 * i)) rax,
      .jump .nzero "ret0"]) ++ p) t =
      run env ra (if (Src.arr (cell (t.reg .rdx) 1)).lims t.mem i j = (Src.arr (cell (t.reg .rsi) 1)).lims t.mem i j then p
        else dropTo "ret0" p) t' := by
  induction j with
  | zero => intro i t; exact ⟨t, ⟨rfl, rfl, fun _ _ => rfl⟩, by simp [Src.lims]⟩
  | succ j ih =>
    intro i t
    obtain ⟨t1, ht1⟩ : ∃ t1, t1 = exes [op .mov rax (.mem .rsi (8 + 8 * i)), op .cmp (.mem .rdx (8 + 8 * i)) rax] t := ⟨_, rfl⟩
    have hA : Agree notRax t t1 := by rw [ht1]; exact ⟨rfl, rfl, fun r hr => upd_ne _ _ hr⟩
    have hz : t1.fl.zf = decide (t.mem (cell (cell (t.reg .rdx) 1) i) = t.mem (cell (cell (t.reg .rsi) 1) i)) := by
      rw [← cell_tail, ← cell_tail, ← zf_sub, ht1]; rfl
    rw [List.range'_succ, List.flatMap_cons, List.append_assoc, rd_cons, rd_cons]
    have el : ∀ P : List Line, [op .mov rax (.mem .rsi (8 + 8 * i)), op .cmp (.mem .rdx (8 + 8 * i)) rax, .jump .nzero "ret0"] ++ P =
      [op .mov rax (.mem .rsi (8 + 8 * i)), op .cmp (.mem .rdx (8 + 8 * i)) rax] ++ .jump .nzero "ret0" :: P := fun _ => rfl
    rw [el, run_exes _ rfl, ← ht1, run_jump, Cond.holds, hz, dropTo_flat _ _ (fun _ _ => rfl)]
    by_cases h : t.mem (cell (cell (t.reg .rdx) 1) i) = t.mem (cell (cell (t.reg .rsi) 1) i)
    · obtain ⟨t', hA', hr⟩ := ih (i + 1) t1
      refine ⟨t', hA.trans hA', ?_⟩
      simp only [h, decide_true, Bool.not_true, Bool.false_eq_true, if_false, List.cons.injEq, true_and]
      rw [hr, hA.mem, hA.regs .rdx (by simp [notRax]), hA.regs .rsi (by simp [notRax])]
    · exact ⟨t1, hA, by simp [h]⟩

/-- `req` after the conversions. -/
theorem reqTail_run (o : Ops q F k s t r a b) :
    ∃ s', run env ra (((List.range (n64 q)).flatMap fun i => [op .mov rax (.mem .rsi (8 + 8 * i)), op .cmp (.mem .rdx (8 + 8 * i)) rax,
      .jump .nzero "ret0"]) ++ cmpRet1 ++ cmpRet0) t = some s' ∧ CmpRet q F s s' r (reqL1L2 a.longVal b.longVal) := by
  obtain ⟨t1, a1, e1⟩ := eqLimbs_run (env := env) (ra := ra) (cmpRet1 ++ cmpRet0) (n64 q) 0 t
  have ha : (Src.arr (cell (t.reg .rsi) 1)).lims t.mem 0 (n64 q) = a.longVal := by rw [← o.a]; rfl
  have hb : (Src.arr (cell (t.reg .rdx) 1)).lims t.mem 0 (n64 q) = b.longVal := by rw [← o.b]; rfl
  have hl : b.longVal.length = a.longVal.length := by rw [← ha, ← hb]; simp [Src.lims]
  rw [List.range_eq_range', List.append_assoc, e1, ha, hb]
  have e : reqL1L2 a.longVal b.longVal = decide (b.longVal = a.longVal) := rawIsEq_iff_eq hl
  rw [e]
  by_cases h : b.longVal = a.longVal
  · rw [if_pos h, decide_eq_true h]
    show ∃ s', run env ra (.label "ret1" :: op .mov rax (.imm 1) :: (leave ++ cmpRet0)) t1 = some s' ∧ _
    rw [run_label]
    exact ret1_run (o.agree a1) _
  · rw [if_neg h, decide_eq_false h]
    exact ret0_run (o.agree a1) []

/-! ## The dispatch -/

/-- The conversions of the case the tags select; not both operands are short. -/
def cmpCase (n : Nat) (l1ms2 s1l2m l1nl2m l1ml2n l1ml2m : List Line) (la ma lb mb : Bool) : List Line :=
  if la then
    if lb then
      if ma then (if mb then l1ml2m else l1ml2n) else (if mb then l1nl2m else [])
    else if ma then l1ms2 else convB n "toLongNormal"
  else if mb then s1l2m else convA n "toLongNormal"

/-- From the label `l1l2` on. -/
def cLL (X3 X4 X5 T : List Line) : List Line :=
  .misc (.bt .r8 62) :: .jump .carry "l1ml2" ::
    .label "l1nl2" :: .misc (.bt .r9 62) :: .jump .carry "l1nl2m" ::
    .label "l1nl2n" :: .jump .always "L1L2" ::
    .label "l1nl2m" :: (X3 ++ .jump .always "L1L2" ::
    .label "l1ml2" :: .misc (.bt .r9 62) :: .jump .carry "l1ml2m" ::
    .label "l1ml2n" :: (X4 ++ .jump .always "L1L2" ::
    .label "l1ml2m" :: (X5 ++ .jump .always "L1L2" ::
    .label "L1L2" :: T)))

/-- From the label `s1l2` on. -/
def cSL (n : Nat) (X2 P : List Line) : List Line :=
  .misc (.bt .r9 62) :: .jump .carry "s1l2m" ::
    .label "s1l2n" :: (convA n "toLongNormal" ++ .jump .always "L1L2" ::
    .label "s1l2m" :: (X2 ++ .jump .always "L1L2" ::
    .label "l1l2" :: P))

/-- From the label `l1` on. -/
def cL (n : Nat) (X1 P : List Line) : List Line :=
  .misc (.bt .r9 63) :: .jump .carry "l1l2" ::
    .label "l1s2" :: .misc (.bt .r8 62) :: .jump .carry "l1ms2" ::
    .label "l1ns2" :: (convB n "toLongNormal" ++ .jump .always "L1L2" ::
    .label "l1ms2" :: (X1 ++ .jump .always "L1L2" ::
    .label "s1l2" :: P))

theorem cmpCode_eq (n : Nat) (c : Cond) (X1 X2 X3 X4 X5 T : List Line) : cmpCode n c X1 X2 X3 X4 X5 T =
    enter ++ (op .mov r8 (.mem .rsi 0) :: op .mov r9 (.mem .rdx 0) :: .misc (.bt .r8 63) :: .jump .carry "l1" ::
    .misc (.bt .r9 63) :: .jump .carry "s1l2" ::
    .label "s1s2" :: .misc (.op32 .cmp .r8 (.reg .r9)) :: .jump c "ret1" :: .jump .always "ret0" ::
    .label "l1" :: cL n X1 (cSL n X2 (cLL X3 X4 X5 T))) := by
  delta cmpCode cL cSL cLL
  simp only [List.append_assoc, List.cons_append, List.nil_append]

/-- No label occurs in a block. -/
def NoLabel (X : List Line) : Prop := ∀ l p, dropTo l (X ++ p) = dropTo l p

theorem run_always (l : String) (p : List Line) (t : State) : run env ra (.jump .always l :: p) t = run env ra (dropTo l p) t := by
  rw [run_jump, Cond.holds, if_pos rfl]

section disp

variable {X1 X2 X3 X4 X5 T : List Line}

theorem drop_cLL (h3 : NoLabel X3) (h4 : NoLabel X4) (h5 : NoLabel X5) {l : String}
    (hl : l ∉ ["l1ml2", "l1nl2", "l1nl2m", "l1nl2n", "l1ml2m", "l1ml2n"]) :
    dropTo l (cLL X3 X4 X5 T) = if l = "L1L2" then T else dropTo l T := by
  simp only [List.mem_cons, List.not_mem_nil, or_false, not_or] at hl
  simp only [cLL, dropTo_bt, dropTo_jump, dropTo_label, h3 l, h4 l, h5 l, Ne.symm hl.1, Ne.symm hl.2.1, Ne.symm hl.2.2.1,
    Ne.symm hl.2.2.2.1, Ne.symm hl.2.2.2.2.1, Ne.symm hl.2.2.2.2.2, if_false]
  by_cases h : l = "L1L2"
  · simp [h]
  · simp [h, Ne.symm h]

theorem drop_cSL (n : Nat) (h2 : NoLabel X2) {l : String} (hl : l ∉ ["s1l2m", "s1l2n"]) (P : List Line) :
    dropTo l (cSL n X2 P) = if l = "l1l2" then P else dropTo l P := by
  simp only [List.mem_cons, List.not_mem_nil, or_false, not_or] at hl
  simp only [cSL, dropTo_bt, dropTo_jump, dropTo_label, dropTo_convA, h2 l, Ne.symm hl.1, Ne.symm hl.2, if_false]
  by_cases h : l = "l1l2"
  · simp [h]
  · simp [h, Ne.symm h]

theorem drop_cL (n : Nat) (h1 : NoLabel X1) {l : String} (hl : l ∉ ["l1s2", "l1ms2", "l1ns2"]) (P : List Line) :
    dropTo l (cL n X1 P) = if l = "s1l2" then P else dropTo l P := by
  simp only [List.mem_cons, List.not_mem_nil, or_false, not_or] at hl
  simp only [cL, dropTo_bt, dropTo_jump, dropTo_label, dropTo_convB, h1 l, Ne.symm hl.1, Ne.symm hl.2.1, Ne.symm hl.2.2, if_false]
  by_cases h : l = "s1l2"
  · simp [h]
  · simp [h, Ne.symm h]

theorem cLL_run (h3 : NoLabel X3) (h4 : NoLabel X4) (h5 : NoLabel X5) (t : State) (ma mb : Bool)
    (e2 : (t.reg .r8).getLsbD 62 = ma) (e4 : (t.reg .r9).getLsbD 62 = mb) :
    ∃ t' rest, run env ra (cLL X3 X4 X5 T) t = run env ra ((if ma then (if mb then X5 else X4) else (if mb then X3 else [])) ++
      .jump .always "L1L2" :: rest) t' ∧ dropTo "L1L2" rest = T ∧ Same t t' := by
  have d4 : dropTo "L1L2" (.label "l1ml2m" :: (X5 ++ .jump .always "L1L2" :: .label "L1L2" :: T)) = T := by
    simp [dropTo_label, dropTo_jump, h5 "L1L2"]
  have d3 : dropTo "L1L2" (.label "l1ml2" :: .misc (.bt .r9 62) :: .jump .carry "l1ml2m" ::
    .label "l1ml2n" :: (X4 ++ .jump .always "L1L2" ::
    .label "l1ml2m" :: (X5 ++ .jump .always "L1L2" ::
    .label "L1L2" :: T))) = T := by
    simp [dropTo_label, dropTo_jump, dropTo_bt, h4 "L1L2", h5 "L1L2"]
  have dm : ∀ P, dropTo "l1ml2" (.label "l1nl2" :: .misc (.bt .r9 62) :: .jump .carry "l1nl2m" ::
    .label "l1nl2n" :: .jump .always "L1L2" ::
    .label "l1nl2m" :: (X3 ++ .jump .always "L1L2" ::
    .label "l1ml2" :: P)) = P := by
    intro P
    simp [dropTo_label, dropTo_jump, dropTo_bt, h3 "l1ml2"]
  rw [cLL]
  cases ma <;> cases mb <;> simp only [Bool.false_eq_true, if_true, if_false]
  · rw [run_bt_f e2, run_label, run_bt_f (t := Misc.exec (.bt .r8 62) t) e4, run_label]
    refine ⟨_, _, rfl, ?_, rfl, rfl, rfl⟩
    rw [dropTo_label, if_neg (by decide), h3, dropTo_jump]
    exact d3
  · rw [run_bt_f e2, run_label, run_bt_t (t := Misc.exec (.bt .r8 62) t) e4]
    exact ⟨_, _, rfl, d3, rfl, rfl, rfl⟩
  · rw [run_bt_t e2, dm, run_bt_f (t := Misc.exec (.bt .r8 62) t) e4, run_label]
    exact ⟨_, _, rfl, d4, rfl, rfl, rfl⟩
  · rw [run_bt_t e2, dm, run_bt_t (t := Misc.exec (.bt .r8 62) t) e4, dropTo_label, if_neg (by decide), h4, dropTo_jump, dropTo_self]
    exact ⟨_, _, rfl, dropTo_self _ _, rfl, rfl, rfl⟩

/-- Not both operands short. -/
theorem cmp_dispatch (h1 : NoLabel X1) (h2 : NoLabel X2) (h3 : NoLabel X3) (h4 : NoLabel X4) (h5 : NoLabel X5) (n : Nat) (c : Cond) (t : State)
    (la ma lb mb : Bool) (e1 : (t.reg .r8).getLsbD 63 = la) (e2 : (t.reg .r8).getLsbD 62 = ma)
    (e3 : (t.reg .r9).getLsbD 63 = lb) (e4 : (t.reg .r9).getLsbD 62 = mb) (hs : (la || lb) = true) :
    ∃ t' rest, run env ra (.misc (.bt .r8 63) :: .jump .carry "l1" :: .misc (.bt .r9 63) :: .jump .carry "s1l2" ::
    .label "s1s2" :: .misc (.op32 .cmp .r8 (.reg .r9)) :: .jump c "ret1" :: .jump .always "ret0" ::
    .label "l1" :: cL n X1 (cSL n X2 (cLL X3 X4 X5 T))) t = run env ra (cmpCase n X1 X2 X3 X4 X5 la ma lb mb ++ .jump .always "L1L2" :: rest) t' ∧
      dropTo "L1L2" rest = T ∧ Same t t' := by
  have tLL : dropTo "L1L2" (cLL X3 X4 X5 T) = T := by rw [drop_cLL h3 h4 h5 (by simp), if_pos rfl]
  have tSL : dropTo "L1L2" (cSL n X2 (cLL X3 X4 X5 T)) = T := by rw [drop_cSL n h2 (by simp), if_neg (by decide), tLL]
  rw [cmpCase]
  cases la
  · cases lb
    · exact absurd hs (by decide)
    simp only [Bool.false_eq_true, if_false]
    have d : dropTo "s1l2" (.label "s1s2" :: .misc (.op32 .cmp .r8 (.reg .r9)) :: .jump c "ret1" :: .jump .always "ret0" ::
        .label "l1" :: cL n X1 (cSL n X2 (cLL X3 X4 X5 T))) = cSL n X2 (cLL X3 X4 X5 T) := by
      show dropTo "s1l2" (cL n X1 (cSL n X2 (cLL X3 X4 X5 T))) = _
      rw [drop_cL n h1 (by simp), if_pos rfl]
    rw [run_bt_f e1, run_bt_t (t := Misc.exec (.bt .r8 63) t) e3, d, cSL]
    cases mb
    · rw [run_bt_f (t := Misc.exec (.bt .r9 63) (Misc.exec (.bt .r8 63) t)) e4, run_label]
      refine ⟨_, _, rfl, ?_, rfl, rfl, rfl⟩
      rw [dropTo_label, if_neg (by decide), h2, dropTo_jump, dropTo_label, if_neg (by decide), tLL]
    · rw [run_bt_t (t := Misc.exec (.bt .r9 63) (Misc.exec (.bt .r8 63) t)) e4]
      refine ⟨_, _, rfl, ?_, rfl, rfl, rfl⟩
      rw [dropTo_label, if_neg (by decide), tLL]
  · rw [if_pos rfl, run_bt_t e1]
    have d : dropTo "l1" (.misc (.bt .r9 63) :: .jump .carry "s1l2" ::
        .label "s1s2" :: .misc (.op32 .cmp .r8 (.reg .r9)) :: .jump c "ret1" :: .jump .always "ret0" ::
        .label "l1" :: cL n X1 (cSL n X2 (cLL X3 X4 X5 T))) = cL n X1 (cSL n X2 (cLL X3 X4 X5 T)) := rfl
    rw [d]
    cases lb
    · simp only [Bool.false_eq_true, if_false]
      rw [cL, run_bt_f (t := Misc.exec (.bt .r8 63) t) e3, run_label]
      cases ma
      · rw [run_bt_f (t := Misc.exec (.bt .r9 63) (Misc.exec (.bt .r8 63) t)) e2, run_label]
        refine ⟨_, _, rfl, ?_, rfl, rfl, rfl⟩
        rw [dropTo_label, if_neg (by decide), h1, dropTo_jump, dropTo_label, if_neg (by decide), tSL]
      · rw [run_bt_t (t := Misc.exec (.bt .r9 63) (Misc.exec (.bt .r8 63) t)) e2]
        refine ⟨_, _, rfl, ?_, rfl, rfl, rfl⟩
        rw [dropTo_label, if_neg (by decide), tSL]
    · simp only [if_true]
      have dd : dropTo "l1l2" (cL n X1 (cSL n X2 (cLL X3 X4 X5 T))) = cLL X3 X4 X5 T := by
        rw [drop_cL n h1 (by simp), if_neg (by decide), drop_cSL n h2 (by simp), if_pos rfl]
      have e : run env ra (cL n X1 (cSL n X2 (cLL X3 X4 X5 T))) (Misc.exec (.bt .r8 63) t) =
          run env ra (cLL X3 X4 X5 T) (Misc.exec (.bt .r9 63) (Misc.exec (.bt .r8 63) t)) := by
        rw [cL, run_bt_t (t := Misc.exec (.bt .r8 63) t) e3]
        rw [cL, dropTo_bt, dropTo_jump] at dd
        rw [dd]
      rw [e]
      exact cLL_run h3 h4 h5 _ ma mb e2 e4

end disp

theorem sub32_eq_zero (x y : BitVec 32) : (x - y = 0) ↔ x = y := by
  constructor
  · intro h; bv_omega
  · rintro rfl; bv_omega

/-- The 32-bit comparison reads the operands as signed. -/
theorem less32 (x y : BitVec 32) (f : Flags) : Cond.holds (Op32.eval .cmp x y f).2 .less = decide (x.toInt < y.toInt) := by
  show ((x - y).msb != ((x.msb != y.msb) && ((x - y).msb != x.msb))) = _
  have h1 := x.isLt
  have h2 := y.isLt
  simp only [BitVec.msb_eq_decide, BitVec.toInt_eq_toNat_cond, BitVec.toNat_sub]
  by_cases c1 : 2 ^ (32 - 1) ≤ x.toNat <;> by_cases c2 : 2 ^ (32 - 1) ≤ y.toNat <;>
    by_cases c3 : 2 ^ (32 - 1) ≤ (2 ^ 32 - y.toNat + x.toNat) % 2 ^ 32 <;> simp only [c1, c2, c3, decide_true, decide_false] <;>
    symm <;> simp <;> split <;> split <;> omega

theorem greater32 (x y : BitVec 32) (f : Flags) : Cond.holds (Op32.eval .cmp x y f).2 .greater = decide (x.toInt > y.toInt) := by
  have h := less32 x y f
  have e : Cond.holds (Op32.eval .cmp x y f).2 .greater = (!decide (x - y = 0) && !Cond.holds (Op32.eval .cmp x y f).2 .less) := by
    show (!decide (x - y = 0) && ((x - y).msb == ((x.msb != y.msb) && ((x - y).msb != x.msb)))) =
      (!decide (x - y = 0) && !((x - y).msb != ((x.msb != y.msb) && ((x - y).msb != x.msb))))
    cases (x - y).msb <;> cases x.msb <;> cases y.msb <;> rfl
  rw [e, h]
  have hz : (x - y = 0) ↔ x.toInt = y.toInt := by
    rw [BitVec.toInt_inj, sub32_eq_zero]
  simp only [hz, ← decide_not, ← Bool.decide_and]
  congr 1
  apply propext
  omega

theorem equal32 (x y : BitVec 32) (f : Flags) : Cond.holds (Op32.eval .cmp x y f).2 .zero = (x == y) := by
  show decide (x - y = 0) = _
  simp only [sub32_eq_zero]
  rfl

/-- `enter`, the two loads, the comparison of short operands and the dispatch. -/
theorem cmpCode_run {X1 X2 X3 X4 X5 T : List Line} {c : Cond} {v : Bool} (h : TArgs q F s) (ha : TOpnd q F s (s.reg .rsi))
    (hb : TOpnd q F s (s.reg .rdx)) (hF : 3 ≤ F) (h1 : NoLabel X1) (h2 : NoLabel X2) (h3 : NoLabel X3) (h4 : NoLabel X4) (h5 : NoLabel X5)
    (hT0 : ∃ X, dropTo "ret0" T = op .xor rax rax :: (leave ++ X)) (hT1 : ∃ X, dropTo "ret1" T = op .mov rax (.imm 1) :: (leave ++ X))
    (hm : m = absMem (n64 q) s.mem)
    (hs : (m (s.reg .rsi).toNat).long = false → (m (s.reg .rdx).toNat).long = false →
      ∀ f, Cond.holds (Op32.eval .cmp (m (s.reg .rsi).toNat).shortVal (m (s.reg .rdx).toNat).shortVal f).2 c = v)
    (hcase : ∀ t rest, Ops q F 3 s t (m (s.reg .rdi).toNat) (m (s.reg .rsi).toNat) (m (s.reg .rdx).toNat) → dropTo "L1L2" rest = T →
      ((m (s.reg .rsi).toNat).long || (m (s.reg .rdx).toNat).long) = true →
      ∃ s', run env ra (cmpCase (n64 q) X1 X2 X3 X4 X5 (m (s.reg .rsi).toNat).long (m (s.reg .rsi).toNat).mont
        (m (s.reg .rdx).toNat).long (m (s.reg .rdx).toNat).mont ++ .jump .always "L1L2" :: rest) t = some s' ∧
        CmpRet q F s s' (m (s.reg .rdi).toNat) v) :
    ∃ s', run env ra (cmpCode (n64 q) c X1 X2 X3 X4 X5 T) s = some s' ∧ CmpRet q F s s' (m (s.reg .rdi).toNat) v := by
  subst hm
  obtain ⟨t, e, hi, hsp, d1, d2, d3, hm⟩ := enter_run (env := env) (ra := ra) h hF
  obtain ⟨t1, ht1⟩ : ∃ t1, t1 = exes [op .mov r8 (.mem .rsi 0), op .mov r9 (.mem .rdx 0)] t := ⟨_, rfl⟩
  have m1 : Move t t1 := ht1 ▸ exes_move rfl
  have k1 : t1.reg .rdi = s.reg .rdi := by rw [← d1]; asm ht1
  have k2 : t1.reg .rsi = s.reg .rsi := by rw [← d2]; asm ht1
  have k3 : t1.reg .rdx = s.reg .rdx := by rw [← d3]; asm ht1
  have k4 : t1.reg .r8 = t.mem (s.reg .rsi) := by rw [← d2]; asm ht1
  have k5 : t1.reg .r9 = t.mem (s.reg .rdx) := by rw [← d3]; asm ht1
  have hz : ∀ p, TOpnd q F s p → t.mem p = s.mem p := fun p hp => hm p (hp.off p ⟨0, by omega, (cell_zero p).symm⟩)
  rw [hz _ ha] at k4
  rw [hz _ hb] at k5
  have ea : absMem (n64 q) s.mem (s.reg .rsi).toNat = elemAt (n64 q) s.mem (s.reg .rsi) := absMem_at _ _ _
  have eb : absMem (n64 q) s.mem (s.reg .rdx).toNat = elemAt (n64 q) s.mem (s.reg .rdx) := absMem_at _ _ _
  have hel : ∀ p, TOpnd q F s p → elemAt (n64 q) t.mem p = absMem (n64 q) s.mem p.toNat := fun p hp => by
    rw [absMem_at]; exact elemAt_congr fun a h' => hm a (hp.off a h')
  have at1 : ∀ t', Same t1 t' → At q F s t' (absMem (n64 q) s.mem) := by
    rintro t' ⟨hs1, hs2, hs3⟩
    have m2 : Move t t' := ⟨hs1.trans m1.mem, hs3.trans m1.sym, by rw [hs2]; exact m1.rsp, by rw [hs2]; exact m1.saved⟩
    exact ⟨hi.move m2, m2.rsp.trans hsp, by rw [hs2]; exact k1, by rw [hs2]; exact k2,
      by rw [hs2]; exact k3, by rw [m2.mem]; exact hel _ ⟨.inl rfl, h.dst.off⟩, by rw [m2.mem]; exact hel _ ha,
      by rw [m2.mem]; exact hel _ hb⟩
  have la : (t1.reg .r8).getLsbD 63 = (absMem (n64 q) s.mem (s.reg .rsi).toNat).long := by rw [k4, ea]; rfl
  have lb : (t1.reg .r9).getLsbD 63 = (absMem (n64 q) s.mem (s.reg .rdx).toNat).long := by rw [k5, eb]; rfl
  have va : (t1.reg .r8).setWidth 32 = (absMem (n64 q) s.mem (s.reg .rsi).toNat).shortVal := by rw [k4, ea]; rfl
  have vb : (t1.reg .r9).setWidth 32 = (absMem (n64 q) s.mem (s.reg .rdx).toNat).shortVal := by rw [k5, eb]; rfl
  rw [cmpCode_eq, e]
  show ∃ s', run env ra ([op .mov r8 (.mem .rsi 0), op .mov r9 (.mem .rdx 0)] ++ _) t = _ ∧ _
  rw [run_exes _ rfl, ← ht1]
  by_cases hl : ((absMem (n64 q) s.mem (s.reg .rsi).toNat).long || (absMem (n64 q) s.mem (s.reg .rdx).toNat).long) = true
  · obtain ⟨t2, rest, e2, hT, hsm⟩ := cmp_dispatch (env := env) (ra := ra) (T := T) h1 h2 h3 h4 h5 (n64 q) c t1 _ _ _ _ rfl rfl rfl rfl (by rw [la, lb]; exact hl)
    obtain ⟨s', r1, r2⟩ := hcase t2 rest ((at1 t2 hsm).ops ha hb hF) hT hl
    refine ⟨s', ?_, r2⟩
    rw [e2, ← r1, ea, eb, k4, k5]
    rfl
  · rw [Bool.or_eq_true, not_or, Bool.not_eq_true, Bool.not_eq_true] at hl
    rw [run_bt_f (la.trans hl.1), run_bt_f (t := Misc.exec (.bt .r8 63) t1) (lb.trans hl.2), run_label]
    set t2 := Misc.exec (.bt .r9 63) (Misc.exec (.bt .r8 63) t1) with ht2
    obtain ⟨t3, ht3⟩ : ∃ t3, t3 = exes [.misc (.op32 .cmp .r8 (.reg .r9))] t2 := ⟨_, rfl⟩
    have f3 : Cond.holds t3.fl c = v := by
      rw [← hs hl.1 hl.2 t2.fl, ← va, ← vb, ht3]; rfl
    have o3 := (at1 t3 (by rw [ht3]; exact ⟨rfl, rfl, rfl⟩)).ops ha hb hF
    show ∃ s', run env ra ([.misc (.op32 .cmp .r8 (.reg .r9))] ++ _) t2 = _ ∧ _
    rw [run_exes _ rfl, ← ht3, run_jump, f3]
    have dd : ∀ l, l = "ret0" ∨ l = "ret1" → dropTo l (.label "l1" :: cL (n64 q) X1 (cSL (n64 q) X2 (cLL X3 X4 X5 T))) = dropTo l T := by
      intro l hl
      rw [dropTo_label, if_neg (by rcases hl with rfl | rfl <;> decide), drop_cL _ h1 (by rcases hl with rfl | rfl <;> decide),
        if_neg (by rcases hl with rfl | rfl <;> decide), drop_cSL _ h2 (by rcases hl with rfl | rfl <;> decide),
        if_neg (by rcases hl with rfl | rfl <;> decide), drop_cLL h3 h4 h5 (by rcases hl with rfl | rfl <;> decide),
        if_neg (by rcases hl with rfl | rfl <;> decide)]
    have hend := end_run (env := env) (ra := ra) o3 v T hT0 hT1
    cases v
    · rw [if_neg (by decide), run_always, dd _ (.inl rfl)]
      exact hend
    · rw [if_pos rfl, dropTo_jump, dd _ (.inr rfl)]
      exact hend

theorem toNormal_long (q : Nat) {e : Elem} (u v : Elem) (hl : e.long = true) (hm : e.mont = true) :
    (toNormalInto q v e).longVal = (toNormalInto q u e).longVal := by
  simp [toNormalInto, hl, hm]

theorem toLong_long (q : Nat) (e u v : Elem) : (toLongNormalInto q v e).longVal = (toLongNormalInto q u e).longVal := by
  rw [toLongNormalInto, toLongNormalInto]
  split <;> [split; skip] <;> rfl

theorem noLabel_convA (n : Nat) (f : String) : NoLabel (convA n f) := fun l p => dropTo_convA l n f p
theorem noLabel_convB (n : Nat) (f : String) : NoLabel (convB n f) := fun l p => dropTo_convB l n f p
theorem NoLabel.app {X Y : List Line} (h1 : NoLabel X) (h2 : NoLabel Y) : NoLabel (X ++ Y) := fun l p => by
  rw [List.append_assoc, h1, h2]

/-- The stack the comparisons use. -/
def cmpCells (q : Nat) : Nat := 2 * n64 q + 8 + callCells q

end run

end FF.X86
