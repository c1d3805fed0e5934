import Verif.AsmBitMain

/-!
# The bitwise operations of the generated assembly equal the portable ones: the dispatch on the tags
-/

namespace FF.X86

section bit

variable {q F F' k n : Nat} {ra : BitVec 64} {s t : State} {env : String → Option (State → Option State)} {m : Mem} {r a b : Elem}
  {o : Op2} {o' : Op32} {f : BitVec 64 → BitVec 64 → BitVec 64} {g : BitVec 32 → BitVec 32 → BitVec 32} {ss ls sl ll : List Line}

/-- From the label `l1l2` on. -/
def bitLL (n : Nat) (ll : List Line) : List Line :=
  .misc (.bt .rax 62) :: .jump .carry "l1ml2" :: .misc (.bt .rcx 62) :: .jump .carry "l1nl2m" ::
   .label "l1nl2n" :: (setTypeDest 0x80 ++ (ll ++
   .label "l1nl2m" :: (setTypeDest 0x80 ++ (convB n "toNormal" ++ (ll ++
   .label "l1ml2" :: .misc (.bt .rcx 62) :: .jump .carry "l1ml2m" ::
   .label "l1ml2n" :: (setTypeDest 0x80 ++ (convA n "toNormal" ++ (ll ++
   .label "l1ml2m" :: (setTypeDest 0x80 ++ (convA n "toNormal" ++ (convB n "toNormal" ++ (ll ++ []))))))))))))

/-- From the label `s1l2` on. -/
def bitSL (n : Nat) (sl ll : List Line) : List Line :=
  .misc (.bt .rcx 62) :: .jump .carry "s1l2m" ::
   .label "s1l2n" :: (setTypeDest 0x80 ++ (sl ++
   .label "s1l2m" :: (setTypeDest 0x80 ++ (convB n "toNormal" ++ (sl ++
   .label "l1l2" :: bitLL n ll)))))

/-- From the label `l1` on. -/
def bitL (n : Nat) (ls sl ll : List Line) : List Line :=
  .misc (.bt .rcx 63) :: .jump .carry "l1l2" ::
   .label "l1s2" :: .misc (.bt .rax 62) :: .jump .carry "l1ms2" ::
   .label "l1ns2" :: (setTypeDest 0x80 ++ (ls ++
   .label "l1ms2" :: (setTypeDest 0x80 ++ (convA n "toNormal" ++ (ls ++
   .label "s1l2" :: bitSL n sl ll)))))

theorem bitDispatch_eq (n : Nat) (ss ls sl ll : List Line) : bitDispatch n ss ls sl ll =
    enter ++ (op .mov rax (.mem .rsi 0) :: op .mov rcx (.mem .rdx 0) ::
      .misc (.bt .rax 63) :: .jump .carry "l1" :: .misc (.bt .rcx 63) :: .jump .carry "s1l2" :: .label "s1s2" ::
      (ss ++ .label "l1" :: bitL n ls sl ll)) := by
  delta bitDispatch bitL bitSL bitLL
  simp only [List.append_assoc, List.cons_append, List.nil_append, List.append_nil]

/-- The labels of the dispatch do not occur in a block. -/
def Free (X : List Line) : Prop :=
  ∀ l ∈ ["l1", "s1l2", "l1l2", "l1ms2", "s1l2m", "l1ml2", "l1nl2m", "l1ml2m"], l ∉ labels X

theorem Free.skip {X : List Line} (h : Free X) {l : String} (hl : l ∈ ["l1", "s1l2", "l1l2", "l1ms2", "s1l2m", "l1ml2", "l1nl2m", "l1ml2m"])
    (p : List Line) : dropTo l (X ++ p) = dropTo l p := dropTo_skip (h l hl) p

/-- The block `bitDispatch` ends in. -/
def bitCase (n : Nat) (ss ls sl ll : List Line) (la ma lb mb : Bool) : List Line :=
  if la then
    if lb then
      if ma then
        if mb then setTypeDest 0x80 ++ (convA n "toNormal" ++ (convB n "toNormal" ++ ll)) else setTypeDest 0x80 ++ (convA n "toNormal" ++ ll)
      else if mb then setTypeDest 0x80 ++ (convB n "toNormal" ++ ll) else setTypeDest 0x80 ++ ll
    else if ma then setTypeDest 0x80 ++ (convA n "toNormal" ++ ls) else setTypeDest 0x80 ++ ls
  else if lb then
    if mb then setTypeDest 0x80 ++ (convB n "toNormal" ++ sl) else setTypeDest 0x80 ++ sl
  else ss

theorem bitLL_run (hl : Free ll) (t : State) (ma mb : Bool) (h2 : (t.reg .rax).getLsbD 62 = ma) (h4 : (t.reg .rcx).getLsbD 62 = mb) :
    ∃ t' rest, run env ra (bitLL n ll) t = run env ra ((if ma then
        if mb then setTypeDest 0x80 ++ (convA n "toNormal" ++ (convB n "toNormal" ++ ll)) else setTypeDest 0x80 ++ (convA n "toNormal" ++ ll)
      else if mb then setTypeDest 0x80 ++ (convB n "toNormal" ++ ll) else setTypeDest 0x80 ++ ll) ++ rest) t' ∧ Same t t' := by
  rw [bitLL]
  cases ma <;> simp only [Bool.false_eq_true, if_true, if_false]
  · rw [run_bt_f h2]
    cases mb <;> simp only [Bool.false_eq_true, if_true, if_false, List.append_assoc]
    · rw [run_bt_f (t := Misc.exec (.bt .rax 62) t) h4, run_label]
      exact ⟨_, _, rfl, rfl, rfl, rfl⟩
    · rw [run_bt_t (t := Misc.exec (.bt .rax 62) t) h4, dropTo_label, if_neg (by decide), dropTo_setType, hl.skip (by simp), dropTo_self]
      exact ⟨_, _, rfl, rfl, rfl, rfl⟩
  · rw [run_bt_t h2, dropTo_bt, dropTo_jump, dropTo_label, if_neg (by decide), dropTo_setType, hl.skip (by simp), dropTo_label, if_neg (by decide),
      dropTo_setType, dropTo_convB, hl.skip (by simp), dropTo_self]
    cases mb <;> simp only [Bool.false_eq_true, if_true, if_false, List.append_assoc]
    · rw [run_bt_f (t := Misc.exec (.bt .rax 62) t) h4, run_label]
      exact ⟨_, _, rfl, rfl, rfl, rfl⟩
    · rw [run_bt_t (t := Misc.exec (.bt .rax 62) t) h4, dropTo_label, if_neg (by decide), dropTo_setType, dropTo_convA, hl.skip (by simp), dropTo_self]
      exact ⟨_, _, rfl, rfl, rfl, rfl⟩

theorem bitSL_run (hs : Free sl) (t : State) (mb : Bool) (h4 : (t.reg .rcx).getLsbD 62 = mb) :
    ∃ t' rest, run env ra (bitSL n sl ll) t = run env ra ((if mb then setTypeDest 0x80 ++ (convB n "toNormal" ++ sl) else setTypeDest 0x80 ++ sl) ++
      rest) t' ∧ Same t t' := by
  rw [bitSL]
  cases mb <;> simp only [Bool.false_eq_true, if_true, if_false, List.append_assoc]
  · rw [run_bt_f h4, run_label]
    exact ⟨_, _, rfl, rfl, rfl, rfl⟩
  · rw [run_bt_t h4, dropTo_label, if_neg (by decide), dropTo_setType, hs.skip (by simp), dropTo_self]
    exact ⟨_, _, rfl, rfl, rfl, rfl⟩

theorem bit_dispatch (hss : Free ss) (hls : Free ls) (hsl : Free sl) (hll : Free ll) (t : State)
    (la ma lb mb : Bool) (h1 : (t.reg .rax).getLsbD 63 = la) (h2 : (t.reg .rax).getLsbD 62 = ma)
    (h3 : (t.reg .rcx).getLsbD 63 = lb) (h4 : (t.reg .rcx).getLsbD 62 = mb) :
    ∃ t' rest, run env ra (.misc (.bt .rax 63) :: .jump .carry "l1" :: .misc (.bt .rcx 63) :: .jump .carry "s1l2" :: .label "s1s2" ::
      (ss ++ .label "l1" :: bitL n ls sl ll)) t = run env ra (bitCase n ss ls sl ll la ma lb mb ++ rest) t' ∧ Same t t' := by
  rw [bitCase]
  cases la <;> simp only [Bool.false_eq_true, if_true, if_false]
  · rw [run_bt_f h1]
    cases lb <;> simp only [Bool.false_eq_true, if_true, if_false]
    · rw [run_bt_f (t := Misc.exec (.bt .rax 63) t) h3, run_label]
      exact ⟨_, _, rfl, rfl, rfl, rfl⟩
    · rw [run_bt_t (t := Misc.exec (.bt .rax 63) t) h3, dropTo_label, if_neg (by decide), hss.skip (by simp), dropTo_label, if_neg (by decide), bitL,
        dropTo_bt, dropTo_jump, dropTo_label, if_neg (by decide), dropTo_bt, dropTo_jump, dropTo_label, if_neg (by decide), dropTo_setType,
        hls.skip (by simp), dropTo_label, if_neg (by decide), dropTo_setType, dropTo_convA, hls.skip (by simp), dropTo_self]
      exact bitSL_run hsl (Misc.exec (.bt .rcx 63) (Misc.exec (.bt .rax 63) t)) mb h4
  · rw [run_bt_t h1, dropTo_bt, dropTo_jump, dropTo_label, if_neg (by decide), hss.skip (by simp), dropTo_self, bitL]
    cases lb <;> simp only [Bool.false_eq_true, if_true, if_false]
    · rw [run_bt_f (t := Misc.exec (.bt .rax 63) t) h3, run_label]
      cases ma <;> simp only [Bool.false_eq_true, if_true, if_false, List.append_assoc]
      · rw [run_bt_f (t := Misc.exec (.bt .rcx 63) (Misc.exec (.bt .rax 63) t)) h2, run_label]
        exact ⟨_, _, rfl, rfl, rfl, rfl⟩
      · rw [run_bt_t (t := Misc.exec (.bt .rcx 63) (Misc.exec (.bt .rax 63) t)) h2, dropTo_label, if_neg (by decide), dropTo_setType, hls.skip (by simp), dropTo_self]
        exact ⟨_, _, rfl, rfl, rfl, rfl⟩
    · rw [run_bt_t (t := Misc.exec (.bt .rax 63) t) h3, dropTo_label, if_neg (by decide), dropTo_bt, dropTo_jump, dropTo_label, if_neg (by decide),
        dropTo_setType, hls.skip (by simp), dropTo_label, if_neg (by decide), dropTo_setType, dropTo_convA, hls.skip (by simp), dropTo_label, if_neg (by decide),
        bitSL, dropTo_bt, dropTo_jump, dropTo_label, if_neg (by decide), dropTo_setType, hsl.skip (by simp), dropTo_label, if_neg (by decide),
        dropTo_setType, dropTo_convB, hsl.skip (by simp), dropTo_self]
      exact bitLL_run hll (Misc.exec (.bt .rcx 63) (Misc.exec (.bt .rax 63) t)) ma mb h2 h4

/-- `enter` and the loads of the two tag cells. -/
theorem enter2_run (h : TArgs q F s) (ha : TOpnd q F s (s.reg .rsi)) (hb : TOpnd q F s (s.reg .rdx)) (hF : 3 ≤ F) :
    ∃ t, (∀ p, run env ra (enter ++ (op .mov rax (.mem .rsi 0) :: op .mov rcx (.mem .rdx 0) :: p)) s = run env ra p t) ∧
      At q F s t (absMem (n64 q) s.mem) ∧ t.reg .rax = s.mem (s.reg .rsi) ∧ t.reg .rcx = s.mem (s.reg .rdx) := by
  obtain ⟨t, e, hi, hsp, d1, d2, d3, hm⟩ := enter_run (env := env) (ra := ra) h hF
  obtain ⟨t1, ht1⟩ : ∃ t1, t1 = exes [op .mov rax (.mem .rsi 0), op .mov rcx (.mem .rdx 0)] t := ⟨_, rfl⟩
  have m1 : Move t t1 := ht1 ▸ exes_move rfl
  have k1 : t1.reg .rdi = s.reg .rdi := by rw [← d1]; asm ht1
  have k2 : t1.reg .rsi = s.reg .rsi := by rw [← d2]; asm ht1
  have k3 : t1.reg .rdx = s.reg .rdx := by rw [← d3]; asm ht1
  have k4 : t1.reg .rax = t.mem (s.reg .rsi) := by rw [← d2]; asm ht1
  have k5 : t1.reg .rcx = t.mem (s.reg .rdx) := by rw [← d3]; asm ht1
  have hz : ∀ p, TOpnd q F s p → t.mem p = s.mem p := fun p hp => hm p (hp.off p ⟨0, by omega, (cell_zero p).symm⟩)
  rw [hz _ ha] at k4
  rw [hz _ hb] at k5
  have hel : ∀ p, TOpnd q F s p → elemAt (n64 q) t.mem p = absMem (n64 q) s.mem p.toNat := fun p hp => by
    rw [absMem_at]; exact elemAt_congr fun a h' => hm a (hp.off a h')
  refine ⟨t1, fun p => ?_, ⟨hi.move m1, m1.rsp.trans hsp, k1, k2, k3, by rw [m1.mem]; exact hel _ ⟨.inl rfl, h.dst.off⟩,
    by rw [m1.mem]; exact hel _ ha, by rw [m1.mem]; exact hel _ hb⟩, k4, k5⟩
  rw [e]
  show run env ra ([op .mov rax (.mem .rsi 0), op .mov rcx (.mem .rdx 0)] ++ p) t = _
  rw [run_exes _ rfl, ← ht1]

theorem At.same {t' : State} (ht : At q F s t m) (hs : Same t t') : At q F s t' m := by
  obtain ⟨h1, h2, h3⟩ := hs
  exact ⟨ht.inn.move ⟨h1, h3, by rw [h2], fun r _ => by rw [h2]⟩, by rw [h2]; exact ht.rsp, by rw [h2]; exact ht.rdi,
    by rw [h2]; exact ht.rsi, by rw [h2]; exact ht.rdx, by rw [h1]; exact ht.r, by rw [h1]; exact ht.a, by rw [h1]; exact ht.b⟩

theorem free_of {X : List Line} (h : ∀ l ∈ labels X, l ∈ ["solveNeg", "subQ", "done"]) : Free X := by
  intro l hl hX
  have := h l hX
  simp only [List.mem_cons, List.not_mem_nil, or_false] at hl this
  rcases hl with rfl | rfl | rfl | rfl | rfl | rfl | rfl | rfl <;> simp at this

/-- The limbs `Fr_bitop` computes when the result is long; `m` is the memory after the store of the tag, `e`, `e'` are the operands before it. -/
def bitLong (F : Limbs → Limbs → Limbs) (q : Nat) (u a b e e' : Elem) : Limbs :=
  if e.long then
    if e'.long then F (if e.mont then (toNormalInto q u a).longVal else a.longVal) (if e'.mont then (toNormalInto q u b).longVal else b.longVal)
    else if e.mont then F (shortOperand q u b) (toNormalInto q u a).longVal
    else F a.longVal (shortOperand q u b)
  else if e'.long then F (shortOperand q u a) (if e'.mont then (toNormalInto q u b).longVal else b.longVal)
  else F (toLongNormalInto q u a).longVal (toLongNormalInto q u b).longVal

/-- What `Fr_bitop` leaves at the result. -/
theorem bitop_elem (F : Limbs → Limbs → Limbs) (g : BitVec 32 → BitVec 32 → BitVec 32) (q : Nat) (u : Elem) (m : Mem) (r a b : Nat) :
    Fr_bitop F g q u m r a b r =
      if (m a).long = false ∧ (m b).long = false ∧ 0 ≤ (m a).shortVal.toInt ∧ 0 ≤ (m b).shortVal.toInt then
        ⟨g (m a).shortVal (m b).shortVal, false, false, (m r).longVal⟩
      else
        { (m.setTy r true false) r with longVal := bitLong F q u ((m.setTy r true false) a) ((m.setTy r true false) b) (m a) (m b) } := by
  rw [Fr_bitop, bitLong]
  cases (m a).long <;> cases (m b).long <;> cases (m a).mont <;> cases (m b).mont <;>
    simp only [Bool.false_eq_true, if_false, true_and, false_and, and_false, reduceCtorEq, Mem.setLong, Mem.set, if_pos]
  all_goals
    by_cases h : 0 ≤ (m a).shortVal.toInt ∧ 0 ≤ (m b).shortVal.toInt
    · rw [if_pos h, if_pos h]; simp [Mem.setTy, Mem.setShort, Mem.set]
    · rw [if_neg h, if_neg h]; simp [Mem.set]

/-- The limbs of the long operand at `p` when the result tag has been written at `r`. -/
def bitArg (q : Nat) (u : Elem) (m : Mem) (r p : Nat) : Limbs :=
  if (m p).mont then (toNormalInto q u ((m.setTy r true false) p)).longVal else ((m.setTy r true false) p).longVal

/-- A long operand combined with a short one needs no mask. -/
def BitFits (q : Nat) (u : Elem) (m : Mem) (r a b : Nat) : Prop :=
  ((m a).long = true → (m b).long = false → ShortFits q (bitArg q u m r a)) ∧ ((m a).long = false → (m b).long = true → ShortFits q (bitArg q u m r b))

/-- Each block after the dispatch. -/
theorem bitCase_run (hq : q % 2 = 1) (h0 : 0 < n64 q)
    (h7a : FromOk q (m (s.reg .rsi).toNat)) (h7b : FromOk q (m (s.reg .rdx).toNat)) (ho : BitOp o o' f g) (u : Elem)
    (h : TArgs q F s) (ha : TOpnd q F s (s.reg .rsi)) (hb : TOpnd q F s (s.reg .rdx)) (hF : cmpCells q ≤ F)
    (hn : BitFits q u m (s.reg .rdi).toNat (s.reg .rsi).toNat (s.reg .rdx).toNat)
    (ht : At q F s t m) (va : (t.reg .rax).setWidth 32 = (m (s.reg .rsi).toNat).shortVal) (vb : (t.reg .rcx).setWidth 32 = (m (s.reg .rdx).toNat).shortVal)
    (p : List Line) :
    ∃ s', run (lib q ra) ra (bitCase (n64 q) (bitS1S2 o o' (n64 q)) (bitL1S2 o (n64 q)) (bitS1L2 o (n64 q)) (bitL1L2 o (n64 q))
      (m (s.reg .rsi).toNat).long (m (s.reg .rsi).toNat).mont (m (s.reg .rdx).toNat).long (m (s.reg .rdx).toNat).mont ++ p) t = some s' ∧
      TRet q F s s' (Fr_bitop (rawBit q f) g q u m (s.reg .rdi).toNat (s.reg .rsi).toNat (s.reg .rdx).toNat (s.reg .rdi).toNat) := by
  unfold cmpCells at hF
  have hN := toNormal_spec (q := q) (F := callCells q) (ra := ra) hq le_rfl
  have hL := toLong_spec (q := q) (F := callCells q) (ra := ra) hq le_rfl
  have g0 : 3 + n64 q + 3 + (callCells q + 1) ≤ F := by omega
  have g1 : 3 + n64 q + 1 + n64 q + 3 + (callCells q + 1) ≤ F := by omega
  have gb : callCells q ≤ callCells q + 1 := by omega
  obtain ⟨t1, e1, a1, -, -⟩ := ht.setTy (env := lib q ra) (ra := ra) h ha hb (by omega) 0x80
  replace a1 : At q F s t1 (m.setTy (s.reg .rdi).toNat true false) := a1
  have oo := a1.ops ha hb (by omega)
  have hr : ((m.setTy (s.reg .rdi).toNat true false) (s.reg .rdi).toNat).long = true := by rw [Mem.setTy, set_same]
  have hr' : ((m.setTy (s.reg .rdi).toNat true false) (s.reg .rdi).toNat).mont = false := by rw [Mem.setTy, set_same]
  rw [bitop_elem, bitLong]
  obtain ⟨tA, aA, eA, ⟨wA, rfl⟩, oA⟩ := oo.convA h hN (by omega) g0 gb h7a.setTy
  obtain ⟨tB, aB, eB, ⟨wB, rfl⟩, oB⟩ := oo.convB h hN (by omega) g0 gb h7b.setTy
  obtain ⟨tC, aC, eC, ⟨wC, rfl⟩, oC⟩ := oA.convB h hN (by omega) g1 gb h7b.setTy
  have kss := bitS1S2_run u h7a h7b ho hL h ha hb (by omega) gb h0 ht va vb p
  have k0 := bitL1L2_run (env := lib q ra) (ra := ra) ho h (by omega) (by omega) h0 oo p
  have kA := bitL1L2_run (env := lib q ra) (ra := ra) ho h (by omega) (by omega) h0 oA p
  have kB := bitL1L2_run (env := lib q ra) (ra := ra) ho h (by omega) (by omega) h0 oB p
  have kC := bitL1L2_run (env := lib q ra) (ra := ra) ho h (by omega) (by omega) h0 oC p
  have ks0 := fun hn => bitS1L2_run u h7a.setTy ho hn hL h (by omega) g0 gb h0 hr hr' oo p
  have ksB := fun hn => bitS1L2_run u h7a.setTy ho hn hL h (by omega) g1 gb h0 hr hr' oB p
  have kl0 := fun hn => bitL1S2_run u h7b.setTy ho hn hL h (by omega) g0 gb h0 hr hr' oo p
  have klA := fun hn => bitL1S2_run u h7b.setTy ho hn hL h (by omega) g1 gb h0 hr hr' oA p
  rw [toNormal_any q _ u] at kA kB
  simp only [toNormal_any q _ u] at ksB klA
  rw [toNormal_any q _ u wA, toNormal_any q _ u wC] at kC
  simp only [rawBit_comm ho (toNormalInto _ _ _).longVal] at klA
  rw [bitCase]
  obtain ⟨n1, n2⟩ := hn
  simp only [bitArg] at n1 n2
  revert n1 n2
  cases (m (s.reg .rsi).toNat).long <;> cases (m (s.reg .rsi).toNat).mont <;> cases (m (s.reg .rdx).toNat).long <;>
    cases (m (s.reg .rdx).toNat).mont <;>
    simp only [Bool.false_eq_true, if_true, if_false, List.append_assoc, e1, eA, eB, eC, true_and, false_and, and_false, reduceCtorEq] <;>
    intro n1 n2 <;>
    first | exact kss | exact k0 | exact kA | exact kB | exact kC | exact ks0 (n2 trivial trivial) | exact ksB (n2 trivial trivial) | exact kl0 (n1 trivial trivial) | exact klA (n1 trivial trivial)

/-- The assembly `band`, `bor`, `bxor` compute exactly what the portable ones compute. -/
theorem bitCode_run (hq : q % 2 = 1) (h0 : 0 < n64 q)
    (h7a : FromOk q (elemAt (n64 q) s.mem (s.reg .rsi))) (h7b : FromOk q (elemAt (n64 q) s.mem (s.reg .rdx))) (ho : BitOp o o' f g) (u : Elem)
    (h : TArgs q F s) (ha : TOpnd q F s (s.reg .rsi)) (hb : TOpnd q F s (s.reg .rdx)) (hF : cmpCells q ≤ F)
    (hn : BitFits q u (absMem (n64 q) s.mem) (s.reg .rdi).toNat (s.reg .rsi).toNat (s.reg .rdx).toNat) :
    ∃ s', run (lib q ra) ra (bitCode o o' (n64 q)) s = some s' ∧
      TRet q F s s' (Fr_bitop (rawBit q f) g q u (absMem (n64 q) s.mem) (s.reg .rdi).toNat (s.reg .rsi).toNat (s.reg .rdx).toNat (s.reg .rdi).toNat) := by
  have h3 : 3 ≤ F := by unfold cmpCells at hF; omega
  obtain ⟨t, e, ht, k4, k5⟩ := enter2_run (env := lib q ra) (ra := ra) h ha hb h3
  have ea : absMem (n64 q) s.mem (s.reg .rsi).toNat = elemAt (n64 q) s.mem (s.reg .rsi) := absMem_at _ _ _
  have eb : absMem (n64 q) s.mem (s.reg .rdx).toNat = elemAt (n64 q) s.mem (s.reg .rdx) := absMem_at _ _ _
  obtain ⟨t', rest, e', hs⟩ := bit_dispatch (env := lib q ra) (ra := ra) (n := n64 q) (ss := bitS1S2 o o' (n64 q)) (ls := bitL1S2 o (n64 q))
    (sl := bitS1L2 o (n64 q)) (ll := bitL1L2 o (n64 q)) (free_of (by rw [labels_S1S2]; simp)) (free_of (by rw [labels_L1S2]; simp))
    (free_of (by rw [labels_S1L2]; simp)) (free_of (by rw [labels_L1L2]; simp)) t
    (absMem (n64 q) s.mem (s.reg .rsi).toNat).long (absMem (n64 q) s.mem (s.reg .rsi).toNat).mont
    (absMem (n64 q) s.mem (s.reg .rdx).toNat).long (absMem (n64 q) s.mem (s.reg .rdx).toNat).mont
    (by rw [k4, ea]; rfl) (by rw [k4, ea]; rfl) (by rw [k5, eb]; rfl) (by rw [k5, eb]; rfl)
  obtain ⟨h1, h2, -⟩ := id hs
  rw [bitCode, bitDispatch_eq, e, e']
  exact bitCase_run hq h0 (by rw [absMem_at]; exact h7a) (by rw [absMem_at]; exact h7b) ho u h ha hb hF hn (ht.same hs) (by rw [h2, k4, ea]; rfl) (by rw [h2, k5, eb]; rfl) rest

/-- The assembly `band` computes exactly what the portable one computes. -/
theorem bandCode_run (hq : q % 2 = 1) (h0 : 0 < n64 q)
    (h7a : FromOk q (elemAt (n64 q) s.mem (s.reg .rsi))) (h7b : FromOk q (elemAt (n64 q) s.mem (s.reg .rdx))) (u : Elem)
    (h : TArgs q F s) (ha : TOpnd q F s (s.reg .rsi)) (hb : TOpnd q F s (s.reg .rdx)) (hF : cmpCells q ≤ F)
    (hn : BitFits q u (absMem (n64 q) s.mem) (s.reg .rdi).toNat (s.reg .rsi).toNat (s.reg .rdx).toNat) :
    ∃ s', run (lib q ra) ra (bandCode (n64 q)) s = some s' ∧
      TRet q F s s' (Fr_band q u (absMem (n64 q) s.mem) (s.reg .rdi).toNat (s.reg .rsi).toNat (s.reg .rdx).toNat (s.reg .rdi).toNat) :=
  bitCode_run hq h0 h7a h7b bitOp_and u h ha hb hF hn

/-- The assembly `bor` computes exactly what the portable one computes. -/
theorem borCode_run (hq : q % 2 = 1) (h0 : 0 < n64 q)
    (h7a : FromOk q (elemAt (n64 q) s.mem (s.reg .rsi))) (h7b : FromOk q (elemAt (n64 q) s.mem (s.reg .rdx))) (u : Elem)
    (h : TArgs q F s) (ha : TOpnd q F s (s.reg .rsi)) (hb : TOpnd q F s (s.reg .rdx)) (hF : cmpCells q ≤ F)
    (hn : BitFits q u (absMem (n64 q) s.mem) (s.reg .rdi).toNat (s.reg .rsi).toNat (s.reg .rdx).toNat) :
    ∃ s', run (lib q ra) ra (borCode (n64 q)) s = some s' ∧
      TRet q F s s' (Fr_bor q u (absMem (n64 q) s.mem) (s.reg .rdi).toNat (s.reg .rsi).toNat (s.reg .rdx).toNat (s.reg .rdi).toNat) :=
  bitCode_run hq h0 h7a h7b bitOp_or u h ha hb hF hn

/-- The assembly `bxor` computes exactly what the portable one computes. -/
theorem bxorCode_run (hq : q % 2 = 1) (h0 : 0 < n64 q)
    (h7a : FromOk q (elemAt (n64 q) s.mem (s.reg .rsi))) (h7b : FromOk q (elemAt (n64 q) s.mem (s.reg .rdx))) (u : Elem)
    (h : TArgs q F s) (ha : TOpnd q F s (s.reg .rsi)) (hb : TOpnd q F s (s.reg .rdx)) (hF : cmpCells q ≤ F)
    (hn : BitFits q u (absMem (n64 q) s.mem) (s.reg .rdi).toNat (s.reg .rsi).toNat (s.reg .rdx).toNat) :
    ∃ s', run (lib q ra) ra (bxorCode (n64 q)) s = some s' ∧
      TRet q F s s' (Fr_bxor q u (absMem (n64 q) s.mem) (s.reg .rdi).toNat (s.reg .rsi).toNat (s.reg .rdx).toNat (s.reg .rdi).toNat) :=
  bitCode_run hq h0 h7a h7b bitOp_xor u h ha hb hF hn

end bit

end FF.X86
