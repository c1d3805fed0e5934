import Verif.AsmAdd

/-!
# Addition and subtraction in the generated assembly: the dispatch on the tags
-/

namespace FF.X86

section add

variable {q F F' k : Nat} {ra : BitVec 64} {s t : State} {env : String → Option (State → Option State)} {m : Mem}

/-- The labels of the dispatch do not occur in a block. -/
def Skips (X : List Line) : Prop :=
  ∀ l ∈ ["l1", "s1l2", "l1l2", "l1ms2", "l1ms2m", "s1l2m", "s1ml2m", "l1ml2", "l1nl2m", "l1ml2m"], ∀ p,
    dropTo l (X ++ p) = dropTo l p

/-- The block `addSub` ends in. -/
def addSubCase (n : Nat) (s1s2 l1s2 s1l2 : List Line) (f : String) (la ma lb mb : Bool) : List Line :=
  if la then
    if lb then
      if ma then
        if mb then setTypeDest 0xC0 ++ l1l2Lines f else setTypeDest 0xC0 ++ (convB n "toMontgomery" ++ l1l2Lines f)
      else if mb then setTypeDest 0xC0 ++ (convA n "toMontgomery" ++ l1l2Lines f) else setTypeDest 0x80 ++ l1l2Lines f
    else if ma then
      if mb then setTypeDest 0xC0 ++ l1l2Lines f else setTypeDest 0xC0 ++ (convB n "toMontgomery" ++ l1l2Lines f)
    else setTypeDest 0x80 ++ l1s2
  else if lb then
    if mb then
      if ma then setTypeDest 0xC0 ++ l1l2Lines f else setTypeDest 0xC0 ++ (convA n "toMontgomery" ++ l1l2Lines f)
    else setTypeDest 0x80 ++ s1l2
  else s1s2

theorem run_bt (r : Reg) (k : Nat) (l : String) (p : List Line) (t : State) :
    run env ra (.misc (.bt r k) :: .jump .carry l :: p) t =
      if (t.reg r).getLsbD k then run env ra (dropTo l p) (Misc.exec (.bt r k) t) else run env ra p (Misc.exec (.bt r k) t) := by
  rw [run_misc, run_jump]; rfl

theorem dropTo_setType (l : String) (ty : BitVec 8) (p : List Line) : dropTo l (setTypeDest ty ++ p) = dropTo l p := rfl
theorem dropTo_convA (l : String) (n : Nat) (f : String) (p : List Line) : dropTo l (convA n f ++ p) = dropTo l p := rfl
theorem dropTo_convB (l : String) (n : Nat) (f : String) (p : List Line) : dropTo l (convB n f ++ p) = dropTo l p := rfl
theorem dropTo_l1l2 (l : String) (f : String) (p : List Line) : dropTo l (l1l2Lines f ++ p) = dropTo l p := rfl
theorem dropTo_bt (l : String) (r : Reg) (k : Nat) (p : List Line) : dropTo l (.misc (.bt r k) :: p) = dropTo l p := rfl
theorem dropTo_jump (l l' : String) (c : Cond) (p : List Line) : dropTo l (.jump c l' :: p) = dropTo l p := rfl
theorem dropTo_label (l l' : String) (p : List Line) : dropTo l (.label l' :: p) = if l' = l then p else dropTo l p := rfl

/-- What the dispatch leaves unchanged. -/
def Same (t t' : State) : Prop := t'.mem = t.mem ∧ t'.reg = t.reg ∧ t'.sym = t.sym

theorem Same.bt {t t' : State} (h : Same t t') (r : Reg) (k : Nat) : Same t (Misc.exec (.bt r k) t') := h

theorem run_bt_t {r : Reg} {k : Nat} {t : State} (h : (t.reg r).getLsbD k = true) (l : String) (p : List Line) :
    run env ra (.misc (.bt r k) :: .jump .carry l :: p) t = run env ra (dropTo l p) (Misc.exec (.bt r k) t) := by
  rw [run_bt, h, if_pos rfl]
theorem run_bt_f {r : Reg} {k : Nat} {t : State} (h : (t.reg r).getLsbD k = false) (l : String) (p : List Line) :
    run env ra (.misc (.bt r k) :: .jump .carry l :: p) t = run env ra p (Misc.exec (.bt r k) t) := by
  rw [run_bt, h, if_neg (by decide)]

/-- From the label `l1l2` on. -/
def codeLL (n : Nat) (f : String) : List Line :=
  .misc (.bt .rax 62) :: .jump .carry "l1ml2" ::
    .label "l1nl2" :: .misc (.bt .rcx 62) :: .jump .carry "l1nl2m" ::
    .label "l1nl2n" :: (setTypeDest 0x80 ++ (l1l2Lines f ++
   .label "l1nl2m" :: (setTypeDest 0xC0 ++ (convA n "toMontgomery" ++ (l1l2Lines f ++
   .label "l1ml2" :: .misc (.bt .rcx 62) :: .jump .carry "l1ml2m" ::
    .label "l1ml2n" :: (setTypeDest 0xC0 ++ (convB n "toMontgomery" ++ (l1l2Lines f ++
   .label "l1ml2m" :: (setTypeDest 0xC0 ++ (l1l2Lines f ++ []))))))))))

/-- From the label `s1l2` on. -/
def codeSL (n : Nat) (Z : List Line) (f : String) : List Line :=
  .misc (.bt .rcx 62) :: .jump .carry "s1l2m" ::
    .label "s1l2n" :: (setTypeDest 0x80 ++ (Z ++
   .label "s1l2m" :: .misc (.bt .rax 62) :: .jump .carry "s1ml2m" ::
    .label "s1nl2m" :: (setTypeDest 0xC0 ++ (convA n "toMontgomery" ++ (l1l2Lines f ++
   .label "s1ml2m" :: (setTypeDest 0xC0 ++ (l1l2Lines f ++
   .label "l1l2" :: codeLL n f)))))))

/-- From the label `l1` on. -/
def codeL (n : Nat) (Y Z : List Line) (f : String) : List Line :=
  .misc (.bt .rcx 63) :: .jump .carry "l1l2" ::
    .label "l1s2" :: .misc (.bt .rax 62) :: .jump .carry "l1ms2" ::
    .label "l1ns2" :: (setTypeDest 0x80 ++ (Y ++
   .label "l1ms2" :: .misc (.bt .rcx 62) :: .jump .carry "l1ms2m" ::
    .label "l1ms2n" :: (setTypeDest 0xC0 ++ (convB n "toMontgomery" ++ (l1l2Lines f ++
   .label "l1ms2m" :: (setTypeDest 0xC0 ++ (l1l2Lines f ++
   .label "s1l2" :: codeSL n Z f)))))))

theorem addSub_eq (n : Nat) (X Y Z : List Line) (f : String) : addSub n X Y Z f =
    enter ++ (op .mov rax (.mem .rsi 0) :: op .mov rcx (.mem .rdx 0) ::
      .misc (.bt .rax 63) :: .jump .carry "l1" :: .misc (.bt .rcx 63) :: .jump .carry "s1l2" :: .label "s1s2" ::
      (X ++ .label "l1" :: codeL n Y Z f)) := by
  delta addSub codeL codeSL codeLL
  simp only [List.append_assoc, List.cons_append, List.nil_append, List.append_nil]

theorem codeLL_run {n : Nat} {f : String} (t : State) (ma mb : Bool) (h2 : (t.reg .rax).getLsbD 62 = ma) (h4 : (t.reg .rcx).getLsbD 62 = mb) :
    ∃ t' rest, run env ra (codeLL n f) t = run env ra ((if ma then
        if mb then setTypeDest 0xC0 ++ l1l2Lines f else setTypeDest 0xC0 ++ (convB n "toMontgomery" ++ l1l2Lines f)
      else if mb then setTypeDest 0xC0 ++ (convA n "toMontgomery" ++ l1l2Lines f) else setTypeDest 0x80 ++ l1l2Lines f) ++ rest) t' ∧ Same t t' := by
  have e1 : dropTo "l1ml2" (codeLL n f) = .misc (.bt .rcx 62) :: .jump .carry "l1ml2m" ::
      .label "l1ml2n" :: (setTypeDest 0xC0 ++ (convB n "toMontgomery" ++ (l1l2Lines f ++
      .label "l1ml2m" :: (setTypeDest 0xC0 ++ (l1l2Lines f ++ []))))) := rfl
  rw [codeLL] at e1 ⊢
  rw [dropTo_bt, dropTo_jump] at e1
  cases ma <;> cases mb <;> simp only [Bool.false_eq_true, if_true, if_false, List.append_assoc]
  · rw [run_bt_f h2, run_label, run_bt_f (t := Misc.exec (.bt .rax 62) t) h4, run_label]
    exact ⟨_, _, rfl, rfl, rfl, rfl⟩
  · rw [run_bt_f h2, run_label, run_bt_t (t := Misc.exec (.bt .rax 62) t) h4]
    exact ⟨_, _, rfl, rfl, rfl, rfl⟩
  · rw [run_bt_t h2, e1, run_bt_f (t := Misc.exec (.bt .rax 62) t) h4, run_label]
    exact ⟨_, _, rfl, rfl, rfl, rfl⟩
  · rw [run_bt_t h2, e1, run_bt_t (t := Misc.exec (.bt .rax 62) t) h4]
    exact ⟨_, _, rfl, rfl, rfl, rfl⟩

theorem codeSL_run {n : Nat} {Z : List Line} {f : String} (hZ : Skips Z) (t : State) (ma mb : Bool)
    (h2 : (t.reg .rax).getLsbD 62 = ma) (h4 : (t.reg .rcx).getLsbD 62 = mb) :
    ∃ t' rest, run env ra (codeSL n Z f) t = run env ra ((if mb then
        if ma then setTypeDest 0xC0 ++ l1l2Lines f else setTypeDest 0xC0 ++ (convA n "toMontgomery" ++ l1l2Lines f)
      else setTypeDest 0x80 ++ Z) ++ rest) t' ∧ Same t t' := by
  rw [codeSL]
  cases mb <;> simp only [Bool.false_eq_true, if_true, if_false, List.append_assoc]
  · rw [run_bt_f h4, run_label]
    exact ⟨_, _, rfl, rfl, rfl, rfl⟩
  · rw [run_bt_t h4, dropTo_label, if_neg (by decide), dropTo_setType, hZ "s1l2m" (by simp), dropTo_self]
    cases ma <;> simp only [Bool.false_eq_true, if_true, if_false, List.append_assoc]
    · rw [run_bt_f (t := Misc.exec (.bt .rcx 62) t) h2, run_label]
      exact ⟨_, _, rfl, rfl, rfl, rfl⟩
    · rw [run_bt_t (t := Misc.exec (.bt .rcx 62) t) h2]
      exact ⟨_, _, rfl, rfl, rfl, rfl⟩

theorem dispatch {n : Nat} {X Y Z : List Line} {f : String} (hX : Skips X) (hY : Skips Y) (hZ : Skips Z) (t : State)
    (la ma lb mb : Bool) (h1 : (t.reg .rax).getLsbD 63 = la) (h2 : (t.reg .rax).getLsbD 62 = ma)
    (h3 : (t.reg .rcx).getLsbD 63 = lb) (h4 : (t.reg .rcx).getLsbD 62 = mb) :
    ∃ t' rest, run env ra (.misc (.bt .rax 63) :: .jump .carry "l1" :: .misc (.bt .rcx 63) :: .jump .carry "s1l2" :: .label "s1s2" ::
      (X ++ .label "l1" :: codeL n Y Z f)) t = run env ra (addSubCase n X Y Z f la ma lb mb ++ rest) t' ∧ Same t t' := by
  have eSL : dropTo "s1l2" (codeL n Y Z f) = codeSL n Z f := by
    rw [codeL, dropTo_bt, dropTo_jump, dropTo_label, if_neg (by decide), dropTo_bt, dropTo_jump, dropTo_label, if_neg (by decide),
      dropTo_setType, hY "s1l2" (by simp)]
    rfl
  have eLL : dropTo "l1l2" (codeL n Y Z f) = codeLL n f := by
    rw [codeL, dropTo_bt, dropTo_jump, dropTo_label, if_neg (by decide), dropTo_bt, dropTo_jump, dropTo_label, if_neg (by decide),
      dropTo_setType, hY "l1l2" (by simp)]
    show dropTo "l1l2" (codeSL n Z f) = _
    rw [codeSL, dropTo_bt, dropTo_jump, dropTo_label, if_neg (by decide), dropTo_setType, hZ "l1l2" (by simp)]
    rfl
  rw [addSubCase]
  cases la
  · simp only [Bool.false_eq_true, if_false]
    rw [run_bt_f h1]
    cases lb
    · simp only [Bool.false_eq_true, if_false]
      rw [run_bt_f (t := Misc.exec (.bt .rax 63) t) h3, run_label]
      exact ⟨_, _, rfl, rfl, rfl, rfl⟩
    · simp only [if_true]
      rw [run_bt_t (t := Misc.exec (.bt .rax 63) t) h3, dropTo_label, if_neg (by decide), hX "s1l2" (by simp), dropTo_label, if_neg (by decide), eSL]
      obtain ⟨t', r, e, hs⟩ := codeSL_run (env := env) (ra := ra) (n := n) (f := f) hZ
        (Misc.exec (.bt .rcx 63) (Misc.exec (.bt .rax 63) t)) ma mb h2 h4
      exact ⟨t', r, e, hs⟩
  · simp only [if_true]
    rw [run_bt_t h1, dropTo_bt, dropTo_jump, dropTo_label, if_neg (by decide), hX "l1" (by simp), dropTo_self]
    cases lb
    · simp only [Bool.false_eq_true, if_false]
      rw [codeL, run_bt_f (t := Misc.exec (.bt .rax 63) t) h3, run_label]
      cases ma
      · simp only [Bool.false_eq_true, if_false, List.append_assoc]
        rw [run_bt_f (t := Misc.exec (.bt .rcx 63) (Misc.exec (.bt .rax 63) t)) h2, run_label]
        exact ⟨_, _, rfl, rfl, rfl, rfl⟩
      · simp only [if_true]
        rw [run_bt_t (t := Misc.exec (.bt .rcx 63) (Misc.exec (.bt .rax 63) t)) h2, dropTo_label, if_neg (by decide), dropTo_setType, hY "l1ms2" (by simp), dropTo_self]
        cases mb <;> simp only [Bool.false_eq_true, if_true, if_false, List.append_assoc]
        · rw [run_bt_f (t := Misc.exec (.bt .rax 62) (Misc.exec (.bt .rcx 63) (Misc.exec (.bt .rax 63) t))) h4, run_label]
          exact ⟨_, _, rfl, rfl, rfl, rfl⟩
        · rw [run_bt_t (t := Misc.exec (.bt .rax 62) (Misc.exec (.bt .rcx 63) (Misc.exec (.bt .rax 63) t))) h4]
          exact ⟨_, _, rfl, rfl, rfl, rfl⟩
    · simp only [if_true]
      have e : run env ra (codeL n Y Z f) (Misc.exec (.bt .rax 63) t) =
          run env ra (codeLL n f) (Misc.exec (.bt .rcx 63) (Misc.exec (.bt .rax 63) t)) := by
        rw [← eLL, codeL, run_bt_t (t := Misc.exec (.bt .rax 63) t) h3, dropTo_bt, dropTo_jump]
      rw [e]
      obtain ⟨t', r, e, hs⟩ := codeLL_run (env := env) (ra := ra) (n := n) (f := f)
        (Misc.exec (.bt .rcx 63) (Misc.exec (.bt .rax 63) t)) ma mb h2 h4
      exact ⟨t', r, e, hs⟩

/-- The memory of the portable program that a machine memory stands for: the element at each address. -/
def absMem (n : Nat) (mem : BitVec 64 → BitVec 64) : Mem := fun k => elemAt n mem (BitVec.ofNat 64 k)

theorem absMem_at (n : Nat) (mem : BitVec 64 → BitVec 64) (p : BitVec 64) : absMem n mem p.toNat = elemAt n mem p := by
  rw [absMem, BitVec.ofNat_toNat, BitVec.setWidth_eq]

/-- `enter`, the two loads and the dispatch. -/
theorem addSub_run {X Y Z : List Line} {f : String} {E : Elem} (h : TArgs q F s) (ha : TOpnd q F s (s.reg .rsi))
    (hb : TOpnd q F s (s.reg .rdx)) (hF : 3 ≤ F) (hX : Skips X) (hY : Skips Y) (hZ : Skips Z)
    (hcase : ∀ t rest, At q F s t (absMem (n64 q) s.mem) →
      (t.reg .rax).setWidth 32 = (absMem (n64 q) s.mem (s.reg .rsi).toNat).shortVal →
      (t.reg .rcx).setWidth 32 = (absMem (n64 q) s.mem (s.reg .rdx).toNat).shortVal →
      ∃ s', run env ra (addSubCase (n64 q) X Y Z f (absMem (n64 q) s.mem (s.reg .rsi).toNat).long
        (absMem (n64 q) s.mem (s.reg .rsi).toNat).mont (absMem (n64 q) s.mem (s.reg .rdx).toNat).long
        (absMem (n64 q) s.mem (s.reg .rdx).toNat).mont ++ rest) t = some s' ∧ TRet q F s s' E) :
    ∃ s', run env ra (addSub (n64 q) X Y Z f) s = some s' ∧ TRet q F s s' E := by
  obtain ⟨t, e, hi, hsp, d1, d2, d3, hm⟩ := enter_run (env := env) (ra := ra) h hF
  obtain ⟨t1, ht1⟩ : ∃ t1, t1 = exes [op .mov rax (.mem .rsi 0), op .mov rcx (.mem .rdx 0)] t := ⟨_, rfl⟩
  have m1 : Move t t1 := ht1 ▸ exes_move rfl
  have k1 : t1.reg .rdi = s.reg .rdi := by rw [← d1]; asm ht1
  have k2 : t1.reg .rsi = s.reg .rsi := by rw [← d2]; asm ht1
  have k3 : t1.reg .rdx = s.reg .rdx := by rw [← d3]; asm ht1
  have k4 : t1.reg .rax = t.mem (s.reg .rsi) := by rw [← d2]; asm ht1
  have k5 : t1.reg .rcx = t.mem (s.reg .rdx) := by rw [← d3]; asm ht1
  have hz : ∀ p, TOpnd q F s p → t.mem p = s.mem p := fun p hp => hm p (hp.off p ⟨0, by omega, (cell_zero p).symm⟩)
  rw [hz _ ha] at k4
  rw [hz _ hb] at k5
  have ea : absMem (n64 q) s.mem (s.reg .rsi).toNat = elemAt (n64 q) s.mem (s.reg .rsi) := absMem_at _ _ _
  have eb : absMem (n64 q) s.mem (s.reg .rdx).toNat = elemAt (n64 q) s.mem (s.reg .rdx) := absMem_at _ _ _
  have hel : ∀ p, TOpnd q F s p → elemAt (n64 q) t.mem p = absMem (n64 q) s.mem p.toNat := fun p hp => by
    rw [absMem_at]; exact elemAt_congr fun a h' => hm a (hp.off a h')
  obtain ⟨t2, rest, e2, hs1, hs2, hs3⟩ := dispatch (env := env) (ra := ra) (n := n64 q) (f := f) hX hY hZ t1 _ _ _ _ rfl rfl rfl rfl
  have m2 : Move t t2 := ⟨hs1.trans m1.mem, hs3.trans m1.sym, by rw [hs2]; exact m1.rsp, by rw [hs2]; exact m1.saved⟩
  obtain ⟨s', r1, r2⟩ := hcase t2 rest ⟨hi.move m2, m2.rsp.trans hsp, by rw [hs2]; exact k1, by rw [hs2]; exact k2,
    by rw [hs2]; exact k3, by rw [m2.mem]; exact hel _ ⟨.inl rfl, h.dst.off⟩, by rw [m2.mem]; exact hel _ ha,
    by rw [m2.mem]; exact hel _ hb⟩ (by rw [hs2, k4, ea]; rfl) (by rw [hs2, k5, eb]; rfl)
  refine ⟨s', ?_, r2⟩
  rw [addSub_eq, e]
  show run env ra ([op .mov rax (.mem .rsi 0), op .mov rcx (.mem .rdx 0)] ++ _) t = _
  rw [run_exes _ rfl, ← ht1, e2, ← r1, ea, eb, k4, k5]
  rfl

theorem skips_s1s2 (o : Op32) (o' : Op2) : Skips (s1s2Lines o o' "overflow") := by
  intro l hl p
  simp only [List.mem_cons, List.not_mem_nil, or_false] at hl
  rcases hl with rfl | rfl | rfl | rfl | rfl | rfl | rfl | rfl | rfl | rfl <;> rfl
theorem skips_l1s2 (f g : String) : Skips (l1s2Lines f g "tmp1") := by
  intro l hl p
  simp only [List.mem_cons, List.not_mem_nil, or_false] at hl
  rcases hl with rfl | rfl | rfl | rfl | rfl | rfl | rfl | rfl | rfl | rfl <;> rfl
theorem skips_s1l2 (f g : String) : Skips (s1l2Lines f g "tmp2") := by
  intro l hl p
  simp only [List.mem_cons, List.not_mem_nil, or_false] at hl
  rcases hl with rfl | rfl | rfl | rfl | rfl | rfl | rfl | rfl | rfl | rfl <;> rfl
theorem skips_subS1L2 : Skips (subS1L2 "tmp2") := by
  intro l hl p
  simp only [List.mem_cons, List.not_mem_nil, or_false] at hl
  rcases hl with rfl | rfl | rfl | rfl | rfl | rfl | rfl | rfl | rfl | rfl <;> rfl

/-- The stack the two routines use. -/
def addCells (q : Nat) : Nat := n64 q + 7 + callCells q

theorem toMont_long_eq (q : Nat) (u a : Elem) : (toMontAsm q a).longVal = (toMontgomeryInto q u a).longVal := by
  rw [toMontAsm_eq q u a]

theorem setTy_short (m : Mem) (p x : Nat) (l k : Bool) : (m.setTy p l k x).shortVal = (m x).shortVal := by
  by_cases h : x = p
  · subst h; rw [Mem.setTy, set_same]
  · rw [Mem.setTy, set_other _ _ h]

theorem ite_neg_le (v : BitVec 32) {α : Sort _} (x y : α) : (if v.toInt < 0 then x else y) = if 0 ≤ v.toInt then y else x := by
  by_cases h : v.toInt < 0
  · rw [if_pos h, if_neg (by omega)]
  · rw [if_neg h, if_pos (by omega)]

/-- The assembly addition computes exactly what the portable addition computes. -/
theorem addCode_run (hq : q % 2 = 1) (u : Elem) (h : TArgs q F s)
    (h7 : MixOk q (absMem (n64 q) s.mem (s.reg .rsi).toNat) (absMem (n64 q) s.mem (s.reg .rdx).toNat))
    (ha : TOpnd q F s (s.reg .rsi)) (hb : TOpnd q F s (s.reg .rdx)) (hF : addCells q ≤ F) :
    ∃ s', run (lib q ra) ra (addCode (n64 q)) s = some s' ∧ TRet q F s s'
      (Fr_add q u (absMem (n64 q) s.mem) (s.reg .rdi).toNat (s.reg .rsi).toNat (s.reg .rdx).toNat (s.reg .rdi).toNat) := by
  unfold addCells at hF
  have hLL : LLSpec q (callCells q) ra (lib q ra) "rawAddLL" (rawAdd q) := fun t h1 h2 h3 _ => call_rawAddLL rfl h1 h2 h3
  have hN : LSSpec q (callCells q) ra (lib q ra) "rawSubLS" (FF.rawSubLS q) := fun t h1 h2 => call_rawSubLS rfl h1 h2
  have hP : LSSpec q (callCells q) ra (lib q ra) "rawAddLS" (FF.rawAddLS q) := fun t h1 h2 => call_rawAddLS rfl h1 h2
  have hC := toMont_spec (q := q) (F := callCells q) (ra := ra) hq le_rfl
  refine addSub_run h ha hb (by omega) (skips_s1s2 _ _) (skips_l1s2 _ _) (skips_s1l2 _ _) fun t rest ht hv hw => ?_
  generalize absMem (n64 q) s.mem = m at *
  obtain ⟨t1, e1, a1, x1, c1⟩ := ht.setTy (env := lib q ra) (ra := ra) h ha hb (by omega) 0xC0
  obtain ⟨t2, e2, a2, x2, c2⟩ := ht.setTy (env := lib q ra) (ra := ra) h ha hb (by omega) 0x80
  unfold Fr_add
  have k1 := ll_tail hLL h ha hb a1 (by omega) rest
  have k2 := ll_tail hLL h ha hb a2 (by omega) rest
  have k3 := fun hP : ToOk q (m (s.reg .rdx).toNat) => convB_tail hLL hC h ha hb a1 hF hP.setTy rest
  have k4 := fun hP : ToOk q (m (s.reg .rsi).toNat) => convA_tail hLL hC h ha hb a1 hF hP.setTy rest
  have k5 := l1s2_tail hN hP h ha a2 (by omega) (by rw [c2, setTy_short]; exact hw) "tmp1" rest
  have k6 := s1l2_tail hN hP h hb a2 (by omega) (by rw [x2, setTy_short]; exact hv) "tmp2" rest
  have k7 := s1s2_tail (env := lib q ra) (ra := ra) rfl h ht (by omega) .add .add rfl (.inl ⟨rfl, rfl⟩) "overflow" rest
  rw [hv, hw] at k7
  rw [ite_neg_le] at k5 k6
  cases (m (s.reg .rsi).toNat).long <;> cases ham : (m (s.reg .rsi).toNat).mont <;> cases (m (s.reg .rdx).toNat).long <;>
    cases hbm : (m (s.reg .rdx).toNat).mont <;>
    simp only [addSubCase, Bool.false_eq_true, if_true, if_false, List.append_assoc, e1, e2] <;>
    first
    | exact k7
    | exact k1
    | exact k2
    | exact k5
    | exact k6
    | (obtain ⟨s3, _, rfl, k3, k3'⟩ := k3 (h7.2 ham)
       rw [toMont_long_eq q u] at k3'
       exact ⟨s3, k3, k3'⟩)
    | (obtain ⟨s4, _, rfl, k4, k4'⟩ := k4 (h7.1 hbm)
       rw [toMont_long_eq q u] at k4'
       exact ⟨s4, k4, k4'⟩)

/-- The assembly subtraction computes exactly what the portable subtraction computes. -/
theorem subCode_run (hq : q % 2 = 1) (u : Elem) (h : TArgs q F s)
    (h7 : MixOk q (absMem (n64 q) s.mem (s.reg .rsi).toNat) (absMem (n64 q) s.mem (s.reg .rdx).toNat))
    (ha : TOpnd q F s (s.reg .rsi)) (hb : TOpnd q F s (s.reg .rdx)) (hF : addCells q ≤ F) :
    ∃ s', run (lib q ra) ra (subCode (n64 q)) s = some s' ∧ TRet q F s s'
      (Fr_sub q u (absMem (n64 q) s.mem) (s.reg .rdi).toNat (s.reg .rsi).toNat (s.reg .rdx).toNat (s.reg .rdi).toNat) := by
  unfold addCells at hF
  have hLL : LLSpec q (callCells q) ra (lib q ra) "rawSubLL" (rawSub q) := fun t h1 h2 h3 _ => call_rawSubLL rfl h1 h2 h3
  have hN : LSSpec q (callCells q) ra (lib q ra) "rawSubLS" (FF.rawSubLS q) := fun t h1 h2 => call_rawSubLS rfl h1 h2
  have hP : LSSpec q (callCells q) ra (lib q ra) "rawAddLS" (FF.rawAddLS q) := fun t h1 h2 => call_rawAddLS rfl h1 h2
  have hC := toMont_spec (q := q) (F := callCells q) (ra := ra) hq le_rfl
  refine addSub_run h ha hb (by omega) (skips_s1s2 _ _) (skips_l1s2 _ _) skips_subS1L2 fun t rest ht hv hw => ?_
  generalize absMem (n64 q) s.mem = m at *
  obtain ⟨t1, e1, a1, x1, c1⟩ := ht.setTy (env := lib q ra) (ra := ra) h ha hb (by omega) 0xC0
  obtain ⟨t2, e2, a2, x2, c2⟩ := ht.setTy (env := lib q ra) (ra := ra) h ha hb (by omega) 0x80
  unfold Fr_sub
  have k1 := ll_tail hLL h ha hb a1 (by omega) rest
  have k2 := ll_tail hLL h ha hb a2 (by omega) rest
  have k3 := fun hP : ToOk q (m (s.reg .rdx).toNat) => convB_tail hLL hC h ha hb a1 hF hP.setTy rest
  have k4 := fun hP : ToOk q (m (s.reg .rsi).toNat) => convA_tail hLL hC h ha hb a1 hF hP.setTy rest
  have k5 := l1s2_tail hP hN h ha a2 (by omega) (by rw [c2, setTy_short]; exact hw) "tmp1" rest
  have k6 := subS1L2_tail (env := lib q ra) (ra := ra) rfl rfl h hb a2 (by omega) (by rw [x2, setTy_short]; exact hv) "tmp2" rest
  have k7 := s1s2_tail (env := lib q ra) (ra := ra) rfl h ht (by omega) .sub .sub rfl (.inr ⟨rfl, rfl⟩) "overflow" rest
  rw [hv, hw] at k7
  cases (m (s.reg .rsi).toNat).long <;> cases ham : (m (s.reg .rsi).toNat).mont <;> cases (m (s.reg .rdx).toNat).long <;>
    cases hbm : (m (s.reg .rdx).toNat).mont <;>
    simp only [addSubCase, Bool.false_eq_true, if_true, if_false, List.append_assoc, e1, e2] <;>
    first
    | exact k7
    | exact k1
    | exact k2
    | exact k5
    | exact k6
    | (obtain ⟨s3, _, rfl, k3, k3'⟩ := k3 (h7.2 ham)
       rw [toMont_long_eq q u] at k3'
       exact ⟨s3, k3, k3'⟩)
    | (obtain ⟨s4, _, rfl, k4, k4'⟩ := k4 (h7.1 hbm)
       rw [toMont_long_eq q u] at k4'
       exact ⟨s4, k4, k4'⟩)

end add

end FF.X86
