import Verif.AsmShiftTag

/-!
# `do_shl`, `do_shr` and `setzero` of the generated assembly
-/

namespace FF.X86

/-- The short element `v`, in place of `r`. -/
def shortE (r : Elem) (v : BitVec 32) : Elem := { r with shortVal := v, long := false, mont := false }
/-- The long normal element with limbs `l`, in place of `r`. -/
def longE (r : Elem) (l : Limbs) : Elem := { r with long := true, mont := false, longVal := l }

/-- What `do_shl` of the portable code leaves in an element `r` that is none of the operands. -/
def shlRef (q : Nat) (u r a : Elem) (c : BitVec 64) : Elem :=
  if a.long then longE r (shlLimbs q (if a.mont then (toNormalInto q u a).longVal else a.longVal) c)
  else if sx a.shortVal = 0 then shortE r 0
  else if (sx a.shortVal).toInt < 0 then longE r (shlLimbs q (toLongNormalInto q u a).longVal c)
  else if 31 ≤ c.toNat then longE r (shlLimbs q (toLongNormalInto q u a).longVal c)
  else if (sx a.shortVal <<< c.toNat).sshiftRight 31 != 0 then longE r (shlLimbs q (toLongNormalInto q u a).longVal c)
  else shortE r ((sx a.shortVal <<< c.toNat).truncate 32)

/-- What `do_shr` of the portable code leaves. -/
def shrRef (q : Nat) (u r a : Elem) (c : BitVec 64) : Elem :=
  if a.long then longE r (stRawShr q (if a.mont then (toNormalInto q u a).longVal else a.longVal) c)
  else if sx a.shortVal = 0 then shortE r 0
  else if (sx a.shortVal).toInt < 0 then longE r (stRawShr q (toLongNormalInto q u a).longVal c)
  else if 31 ≤ c.toNat then shortE r 0
  else shortE r (((sx a.shortVal).sshiftRight c.toNat).truncate 32)

theorem setzero_ref (m : Mem) (r : Nat) : Fr_setzero m r r = shortE (m r) 0 := by
  simp [Fr_setzero, shortE, Mem.setTy, Mem.setShort, Mem.set]

theorem do_shl_ref {q : Nat} {u : Elem} {m m' : Mem} {r a : Nat} {c : BitVec 64} (h : do_shl q u m r a c = some m') :
    m' r = shlRef q u (m r) (m a) c := by
  have fin : ∀ {al : Bool} {x : Limbs} {m'}, (stRawShl q al x c).map ((m.setTy r true false).setLong r) = some m' →
      m' r = longE (m r) (shlLimbs q x c) := by
    intro al x m' h
    obtain ⟨l, e, rfl⟩ := Option.map_eq_some_iff.1 h
    rw [stRawShl_some x c e]
    simp [longE, Mem.setTy, Mem.setLong, Mem.set]
  unfold do_shl do_shlcl at h
  unfold shlRef
  by_cases h1 : (m a).long = true
  · rw [if_pos h1] at h ⊢
    by_cases h2 : (m a).mont = true
    · rw [if_pos (by simp [h1, h2])] at h
      rw [if_pos h2]; exact fin h
    · rw [if_neg (by simp [h1, h2])] at h
      rw [if_neg h2]
      simp only [setTy_longVal] at h
      exact fin h
  · rw [if_neg h1] at h ⊢
    simp only at h
    split_ifs at h ⊢
    · rw [← Option.some.inj h, setzero_ref]
    · exact fin h
    · exact fin h
    · exact fin h
    · rw [← Option.some.inj h]
      simp [shortE, Mem.setTy, Mem.setShort, Mem.set]

theorem do_shl_apart {q : Nat} {u : Elem} {m : Mem} {r a : Nat} {c : BitVec 64} (h : r ≠ a) : ∃ m', do_shl q u m r a c = some m' := by
  unfold do_shl do_shlcl
  rw [beq_false_of_ne h]
  simp only [stRawShl_apart, Option.map_some]
  split_ifs <;> exact ⟨_, rfl⟩

theorem do_shr_ref {q : Nat} {u : Elem} {m : Mem} {r a : Nat} {c : BitVec 64} : do_shr q u m r a c r = shrRef q u (m r) (m a) c := by
  unfold do_shr do_shrl shrRef
  simp only
  by_cases h1 : (m a).long = true
  · by_cases h2 : (m a).mont = true <;> simp [h1, h2, longE, Mem.setTy, Mem.setLong, Mem.set]
  · have hl : (toLongNormalInto q u (m a)).mont = false := by simp [toLongNormalInto, h1]
    rw [if_neg h1, if_neg h1]
    split_ifs <;> simp_all [setzero_ref, shortE, longE, Mem.setTy, Mem.setLong, Mem.setShort, Mem.set]

section dos

variable {q F F' k n : Nat} {ra : BitVec 64} {s t : State} {env : String → Option (State → Option State)} {r a b : Elem} {c : BitVec 64}

/-- `mov [rdi], rax` and the end. -/
theorem store4_run (h' : TArgs q (F + 1) s) (h : TArgs q F (virt s)) (hk : 3 ≤ k) (hF : k ≤ F) (hd : SavedDi s t)
    (o : Op1 q F k (virt s) t r a) (hv : (t.reg .rax).toNat < 2 ^ 62) (p : List Line) :
    ∃ s', run env ra (op .mov (.mem .rdi 0) rax :: (leave4 ++ p)) t = some s' ∧
      TRet q (F + 1) s s' (shortE r ((t.reg .rax).setWidth 32)) := by
  have hfit := h.ok.fits
  have ed : (virt s).reg .rdi = s.reg .rdi := virt_reg _ (by decide) (by decide)
  obtain ⟨t1, ht1⟩ : ∃ t1, t1 = exes [op .mov (.mem .rdi 0) rax] t := ⟨_, rfl⟩
  have m1 : t1.mem = upd t.mem (s.reg .rdi) (t.reg .rax) := by
    have : t1.mem = upd t.mem (t.reg .rdi + BitVec.ofNat 64 0) (t.reg .rax) := by rw [ht1]; rfl
    rw [this, o.rdi, ed]; simp
  have c1 : Called 0 (t.reg .rdi) (n64 q + 1) t t1 := by
    refine ⟨fun x _ hx => ?_, fun r _ => by rw [ht1]; rfl, by rw [ht1]; rfl, by rw [ht1]; rfl, by rw [ht1]; rfl⟩
    rw [m1, upd_ne]
    rintro rfl
    exact hx ⟨0, by omega, by rw [o.rdi, ed, cell_zero]⟩
  have i1 : In q F (virt s) t1 := o.inn.tcalled (F' := 0) h o.rsp (by omega) (by omega) o.rdi c1
  have k1 : SavedDi s t1 := by
    rw [SavedDi, c1.frame _ (kept_off (F := F) (by omega) o.rsp hk (by omega)) (by rw [o.rdi, ed]; exact kept_arr h' (by omega))]
    exact hd
  obtain ⟨s', r1, r2⟩ := leave4_run (env := env) (ra := ra) h' i1 k1 p
  refine ⟨s', ?_, ?_⟩
  · show run env ra ([op .mov (.mem .rdi 0) rax] ++ (leave4 ++ p)) t = _
    rw [run_exes _ rfl, ← ht1, r1]
  · have : elemAt (n64 q) t1.mem (s.reg .rdi) = shortE r ((t.reg .rax).setWidth 32) := by
      have hl : rd t1.mem (cell (s.reg .rdi) 1) (n64 q) = rd t.mem (cell (s.reg .rdi) 1) (n64 q) := by
        refine rd_congr fun i hi => ?_
        rw [m1, upd_ne]
        intro e
        rw [cell_add] at e
        have := cell_inj (i := 1 + i) (j := 0) (by omega) (by omega) (by rw [e, cell_zero])
        omega
      have h0 : t1.mem (s.reg .rdi) = t.reg .rax := by rw [m1, upd_same]
      have hr := o.r
      rw [ed] at hr
      rw [elemAt, h0, hl, ← hr, shortE, elemAt]
      congr 1
      · rw [BitVec.getLsbD, Nat.testBit_lt_two_pow (by omega)]
      · rw [BitVec.getLsbD, Nat.testBit_lt_two_pow (by omega)]
    rw [← this]
    exact r2

/-- `setzero`. -/
theorem setZero_run (h' : TArgs q (F + 1) s) (h : TArgs q F (virt s)) (hk : 3 ≤ k) (hF : k ≤ F) (hd : SavedDi s t)
    (o : Op1 q F k (virt s) t r a) : ∃ s', run env ra setZero.tail t = some s' ∧ TRet q (F + 1) s s' (shortE r 0) := by
  obtain ⟨t1, ht1⟩ : ∃ t1, t1 = exes [op .xor rax rax] t := ⟨_, rfl⟩
  have m1 : Move t t1 := ht1 ▸ exes_move rfl
  have x1 : t1.reg .rax = 0 := by asm ht1
  obtain ⟨s', r1, r2⟩ := store4_run (env := env) (ra := ra) h' h hk hF (hd.move m1) (o.move m1 (by asm ht1) (by asm ht1))
    (by rw [x1]; decide) []
  refine ⟨s', ?_, by rw [x1] at r2; exact r2⟩
  rw [List.append_nil] at r1
  show run env ra ([op .xor rax rax] ++ (op .mov (.mem .rdi 0) rax :: leave4)) t = _
  rw [run_exes _ rfl, ← ht1, r1]

theorem less_zero (x : BitVec 64) : Cond.holds (subFlags x 0 0 (x - 0)) .less = decide (x.toInt < 0) := by
  simp only [Cond.holds, subFlags, show x - (0 : BitVec 64) = x from BitVec.sub_zero x]
  rw [BitVec.msb_eq_toInt]
  simp

theorem less_zero32 (x : BitVec 32) (f : Flags) : Cond.holds (Op32.eval .cmp x 0 f).2 .less = decide (x.toInt < 0) := by
  simp only [Cond.holds, Op32.eval, show x - (0 : BitVec 32) = x from BitVec.sub_zero x]
  rw [BitVec.msb_eq_toInt]
  simp

/-- The code behind the label `do_shll`, followed by `p`. -/
def shll (n : Nat) (p : List Line) : List Line :=
  .misc (.bt .rcx 62) :: .jump .ncarry "do_shlln" :: (convA n "toNormal" ++ (.label "do_shlln" :: (shiftLong "rawShl" ++ p)))
/-- The code behind the label `do_shlcl`, followed by `p`. -/
def shlcl (n : Nat) (p : List Line) : List Line := convA n "toLongNormal" ++ (.jump .always "do_shlln" :: .label "do_shll" :: shll n p)
/-- The code behind the label `do_shls`, followed by `p`. -/
def shls (n : Nat) (p : List Line) : List Line :=
  [.misc (.movsx .rax .rcx), op .cmp rax (.imm 0)] ++ (.jump .zero "setzero" :: .jump .less "do_shlcl" ::
  ([op .cmp rdx (.imm 31)] ++ (.jump .ncarry "do_shlcl" ::
  ([.misc .movClDl, .misc (.shlCl .rax), op .mov rcx rax, .misc (.shr .rcx 31)] ++ (.jump .nzero "do_shlcl" ::
   op .mov (.mem .rdi 0) rax :: (leave4 ++ (.label "do_shlcl" :: shlcl n p)))))))

theorem doShl_eq (n : Nat) (p : List Line) : (doShl n).tail ++ p =
    [op .mov rcx (.mem .rsi 0), .misc (.bt .rcx 63)] ++ (.jump .carry "do_shll" :: .label "do_shls" :: shls n p) := rfl

/-- The code behind the label `do_shrl`, followed by `p`. -/
def shrl (n : Nat) (p : List Line) : List Line :=
  .misc (.bt .rcx 62) :: .jump .ncarry "do_shrln" :: (convA n "toNormal" ++ (.label "do_shrln" :: (shiftLong "rawShr" ++ p)))
/-- The code behind the label `do_shrcl`, followed by `p`. -/
def shrcl (n : Nat) (p : List Line) : List Line := convA n "toLongNormal" ++ (.label "do_shrl" :: shrl n p)
/-- The code behind the label `do_shrs`, followed by `p`. -/
def shrs (n : Nat) (p : List Line) : List Line :=
  [.misc (.movsx .rax .rcx), op .cmp rax (.imm 0)] ++ (.jump .zero "setzero" :: .jump .less "do_shrcl" ::
  ([op .cmp rdx (.imm 31)] ++ (.jump .ncarry "setzero" ::
  ([.misc .movClDl, .misc (.shrCl .rax)] ++ (op .mov (.mem .rdi 0) rax :: (leave4 ++ (.label "do_shrcl" :: shrcl n p)))))))

theorem doShr_eq (n : Nat) (p : List Line) : (doShr n).tail ++ p =
    [op .mov rcx (.mem .rsi 0), .misc (.bt .rcx 63)] ++ (.jump .carry "do_shrl" :: .label "do_shrs" :: shrs n p) := rfl

theorem shl_drop (n : Nat) (p : List Line) : dropTo "do_shll" (.label "do_shls" :: shls n p) = shll n p ∧
    dropTo "do_shlln" (.label "do_shll" :: shll n p) = shiftLong "rawShl" ++ p ∧
    dropTo "do_shlln" (convA n "toNormal" ++ (.label "do_shlln" :: (shiftLong "rawShl" ++ p))) = shiftLong "rawShl" ++ p := by
  refine ⟨?_, ?_, ?_⟩ <;> simp [shls, shll, shlcl, dropTo, convA, leave4]

theorem shr_drop (n : Nat) (p : List Line) : dropTo "do_shrl" (.label "do_shrs" :: shrs n p) = shrl n p ∧
    dropTo "do_shrln" (convA n "toNormal" ++ (.label "do_shrln" :: (shiftLong "rawShr" ++ p))) = shiftLong "rawShr" ++ p := by
  refine ⟨?_, ?_⟩ <;> simp [shrs, shrl, shrcl, dropTo, convA, leave4]

/-- The conversion out of Montgomery form, if there is one, and the raw shift. -/
theorem shiftl_run {G : Limbs → BitVec 64 → Limbs} {f l : String} (u : Elem) (h7' : FromOk q a) (h' : TArgs q (F + 1) s) (h : TArgs q F (virt s))
    (hN : ConvSpec q F' ra env "toNormal" (fun a e => ∃ r, e = toNormalInto q r a) (FromOk q)) (hf : ShiftSpec q F' ra env f G)
    (hk : 3 ≤ k) (hF : k + n64 q + 3 + F' ≤ F) (hb : callCells q ≤ F') (w : Sh q F k s t r a c)
    (hbit : (t.reg .rcx).getLsbD 62 = a.mont ∨ a.mont = false) (p : List Line)
    (hd : dropTo l (convA (n64 q) "toNormal" ++ (.label l :: (shiftLong f ++ p))) = shiftLong f ++ p) :
    ∃ s', run env ra (.misc (.bt .rcx 62) :: .jump .ncarry l :: (convA (n64 q) "toNormal" ++ (.label l :: (shiftLong f ++ p)))) t = some s' ∧
      TRet q (F + 1) s s' (longE r (G (if a.mont then (toNormalInto q u a).longVal else a.longVal) c)) := by
  obtain ⟨t1, ht1⟩ : ∃ t1, t1 = exes [.misc (.bt .rcx 62)] t := ⟨_, rfl⟩
  have m1 : Move t t1 := ht1 ▸ exes_move rfl
  have f1 : t1.fl.cf = (t.reg .rcx).getLsbD 62 := by rw [ht1]; rfl
  have w1 : Sh q F k s t1 r a c := w.move m1 (by rw [ht1]; rfl) (by rw [ht1]; rfl) (by rw [ht1]; rfl)
  have e : ∀ X, run env ra (.misc (.bt .rcx 62) :: .jump .ncarry l :: X) t = if !(t.reg .rcx).getLsbD 62 then run env ra (dropTo l X) t1 else run env ra X t1 := by
    intro X
    show run env ra ([.misc (.bt .rcx 62)] ++ .jump .ncarry l :: X) t = _
    rw [run_exes _ rfl, ← ht1, run_jump, Cond.holds, f1]
  obtain ⟨t2, a2, e2, ⟨z, rfl⟩, w2⟩ := w1.convA h hN hk hF hb h7'
  have hn : a.mont = false → (toNormalInto q z a).longVal = a.longVal := fun hm => by simp [toNormalInto, hm]
  have k2 := shiftLong_run (env := env) (ra := ra) h' h hf (by omega) (by omega) hb w2 p
  have k1 := shiftLong_run (env := env) (ra := ra) h' h hf (by omega) (by omega) hb w1 p
  rw [e, hd, e2, run_label]
  rw [toNormal_any q a u z] at k2
  rw [toNormal_any q a u z] at hn
  cases hm : a.mont
  · rw [hn hm] at k2
    simp only [Bool.false_eq_true, if_false]
    split
    · exact k1
    · exact k2
  · rw [hm] at hbit
    have hb1 : (t.reg .rcx).getLsbD 62 = true := by simpa using hbit
    simp only [hb1, Bool.not_true, Bool.false_eq_true, if_false, if_true]
    exact k2

/-- The two loads at the head. -/
theorem doHead_run (w : Sh q F k s t r a c) (l : String) (p : List Line) :
    ∃ t1, Sh q F k s t1 r a c ∧ (t1.reg .rcx).setWidth 32 = a.shortVal ∧ (t1.reg .rcx).getLsbD 62 = a.mont ∧
      run env ra ([op .mov rcx (.mem .rsi 0), .misc (.bt .rcx 63)] ++ (.jump .carry l :: p)) t =
        if a.long then run env ra (dropTo l p) t1 else run env ra p t1 := by
  obtain ⟨t1, ht1⟩ : ∃ t1, t1 = exes [op .mov rcx (.mem .rsi 0), .misc (.bt .rcx 63)] t := ⟨_, rfl⟩
  have m1 : Move t t1 := ht1 ▸ exes_move rfl
  have x1 : t1.reg .rcx = t.mem (t.reg .rsi) := by asm ht1
  have f1 : t1.fl.cf = (t1.reg .rcx).getLsbD 63 := by rw [ht1]; rfl
  refine ⟨t1, w.move m1 (by asm ht1) (by asm ht1) (by asm ht1), by rw [x1, ← w.op.a]; rfl, by rw [x1, ← w.op.a]; rfl, ?_⟩
  rw [run_exes _ rfl, ← ht1, run_jump, Cond.holds, f1, x1, ← w.op.a]
  rfl

/-- The sign of a short operand. -/
theorem sgn_run (w : Sh q F k s t r a c) (hs : (t.reg .rcx).setWidth 32 = a.shortVal) (l : String) (p : List Line) :
    ∃ t1, Sh q F k s t1 r a c ∧ t1.reg .rax = sx a.shortVal ∧ t1.reg .rcx = t.reg .rcx ∧
      run env ra ([.misc (.movsx .rax .rcx), op .cmp rax (.imm 0)] ++ (.jump .zero "setzero" :: .jump .less l :: p)) t =
        if sx a.shortVal = 0 then run env ra (dropTo "setzero" (.jump .less l :: p)) t1 else
        if (sx a.shortVal).toInt < 0 then run env ra (dropTo l p) t1 else run env ra p t1 := by
  obtain ⟨t1, ht1⟩ : ∃ t1, t1 = exes [.misc (.movsx .rax .rcx), op .cmp rax (.imm 0)] t := ⟨_, rfl⟩
  have m1 : Move t t1 := ht1 ▸ exes_move rfl
  have x1 : t1.reg .rax = sx a.shortVal := by rw [← hs, ht1]; rfl
  have f1 : t1.fl = subFlags (sx a.shortVal) 0 0 (sx a.shortVal - 0) := by rw [← hs, ht1]; rfl
  refine ⟨t1, w.move m1 (by asm ht1) (by asm ht1) (by asm ht1), x1, by asm ht1, ?_⟩
  rw [run_exes _ rfl, ← ht1, run_jump, run_jump, f1, less_zero, Cond.holds, subFlags]
  simp

/-- The comparison of the count with 31. -/
theorem cnt_run (w : Sh q F k s t r a c) (l : String) (p : List Line) :
    ∃ t1, Sh q F k s t1 r a c ∧ t1.reg .rax = t.reg .rax ∧ t1.reg .rcx = t.reg .rcx ∧
      run env ra ([op .cmp rdx (.imm 31)] ++ (.jump .ncarry l :: p)) t =
        if 31 ≤ c.toNat then run env ra (dropTo l p) t1 else run env ra p t1 := by
  obtain ⟨t1, ht1⟩ : ∃ t1, t1 = exes [op .cmp rdx (.imm 31)] t := ⟨_, rfl⟩
  have m1 : Move t t1 := ht1 ▸ exes_move rfl
  have f1 : t1.fl.cf = decide (c.toNat < 31) := by rw [← w.cnt, ht1]; rfl
  refine ⟨t1, w.move m1 (by asm ht1) (by asm ht1) (by asm ht1), by asm ht1, by asm ht1, ?_⟩
  rw [run_exes _ rfl, ← ht1, run_jump, Cond.holds, f1]
  by_cases h : 31 ≤ c.toNat
  · rw [if_pos h, if_pos (by simp; omega)]
  · rw [if_neg h, if_neg (by simp; omega)]

theorem cl_count {x y : BitVec 64} (h : y.toNat < 31) : ((setLow8 x (y.setWidth 8)).setWidth 8).toNat % 64 = y.toNat := by
  rw [setLow8, BitVec.toNat_setWidth, BitVec.toNat_ofNat, BitVec.toNat_setWidth]
  omega

theorem shr31 {x : BitVec 64} (h : x.toNat < 2 ^ 63) : (x >>> 31 = 0) ↔ x.sshiftRight 31 = 0 := by
  have : x.sshiftRight 31 = x >>> 31 := by
    rw [BitVec.sshiftRight_eq_of_msb_false]
    rw [BitVec.msb_eq_false_iff_two_mul_lt]; omega
  rw [this]

variable (u : Elem)

/-- `do_shl`. -/
theorem doShl_run (h7' : FromOk q a) (h' : TArgs q (F + 1) s) (h : TArgs q F (virt s))
    (hN : ConvSpec q F' ra env "toNormal" (fun a e => ∃ r, e = toNormalInto q r a) (FromOk q))
    (hL : ConvSpec q F' ra env "toLongNormal" (fun a e => ∃ r, e = toLongNormalInto q r a) (FromOk q))
    (hf : ShiftSpec q F' ra env "rawShl" (shlLimbs q))
    (hk : 3 ≤ k) (hF : k + n64 q + 3 + F' ≤ F) (hb : callCells q ≤ F') (w : Sh q F k s t r a c) {p : List Line}
    (hp : dropTo "setzero" p = setZero.tail) :
    ∃ s', run env ra ((doShl (n64 q)).tail ++ p) t = some s' ∧ TRet q (F + 1) s s' (shlRef q u r a c) := by
  obtain ⟨t1, w1, c1, b1, e1⟩ := doHead_run (env := env) (ra := ra) w "do_shll" (.label "do_shls" :: shls (n64 q) p)
  rw [doShl_eq, e1, (shl_drop _ _).1, shlRef, run_label]
  by_cases hl : a.long = true
  · rw [if_pos hl, if_pos hl]
    exact shiftl_run u h7' h' h hN hf hk hF hb w1 (.inl b1) p (shl_drop _ _).2.2
  rw [if_neg hl, if_neg hl]
  have toL : ∀ {t : State}, Sh q F k s t r a c →
      ∃ s', run env ra (shlcl (n64 q) p) t = some s' ∧ TRet q (F + 1) s s' (longE r (shlLimbs q (toLongNormalInto q u a).longVal c)) := by
    intro t w
    obtain ⟨t2, a2, e2, ⟨z, rfl⟩, w2⟩ := w.convA h hL hk hF hb h7'
    rw [shlcl, e2, run_always, (shl_drop _ _).2.1, toLong_long q a z u]
    exact shiftLong_run (env := env) (ra := ra) h' h hf (by omega) (by omega) hb w2 p
  obtain ⟨t2, w2, x2, y2, e2⟩ := sgn_run (env := env) (ra := ra) w1 c1 "do_shlcl" ([op .cmp rdx (.imm 31)] ++ (.jump .ncarry "do_shlcl" ::
    ([.misc .movClDl, .misc (.shlCl .rax), op .mov rcx rax, .misc (.shr .rcx 31)] ++ (.jump .nzero "do_shlcl" ::
      op .mov (.mem .rdi 0) rax :: (leave4 ++ (.label "do_shlcl" :: shlcl (n64 q) p))))))
  rw [shls, e2]
  by_cases h0 : sx a.shortVal = 0
  · rw [if_pos h0, if_pos h0]
    have : dropTo "setzero" (.jump .less "do_shlcl" :: ([op .cmp rdx (.imm 31)] ++ (.jump .ncarry "do_shlcl" ::
        ([.misc .movClDl, .misc (.shlCl .rax), op .mov rcx rax, .misc (.shr .rcx 31)] ++ (.jump .nzero "do_shlcl" ::
        op .mov (.mem .rdi 0) rax :: (leave4 ++ (.label "do_shlcl" :: shlcl (n64 q) p))))))) = dropTo "setzero" p := by
      simp [shlcl, shll, convA, shiftLong, setTypeDest, leave4, dropTo]
    rw [this, hp]
    exact setZero_run h' h hk (by omega) w2.di w2.op
  rw [if_neg h0, if_neg h0]
  by_cases hneg : (sx a.shortVal).toInt < 0
  · rw [if_pos hneg, if_pos hneg]
    simp only [dropTo, leave4, List.cons_append, List.nil_append, if_true]
    exact toL w2
  rw [if_neg hneg, if_neg hneg]
  obtain ⟨t3, w3, x3, y3, e3⟩ := cnt_run (env := env) (ra := ra) w2 "do_shlcl"
    ([.misc .movClDl, .misc (.shlCl .rax), op .mov rcx rax, .misc (.shr .rcx 31)] ++ (.jump .nzero "do_shlcl" ::
      op .mov (.mem .rdi 0) rax :: (leave4 ++ (.label "do_shlcl" :: shlcl (n64 q) p))))
  rw [e3]
  by_cases h31 : 31 ≤ c.toNat
  · rw [if_pos h31, if_pos h31]
    simp only [dropTo, leave4, List.cons_append, List.nil_append, if_true]
    exact toL w3
  rw [if_neg h31, if_neg h31]
  obtain ⟨t4, ht4⟩ : ∃ t4, t4 = exes [.misc .movClDl, .misc (.shlCl .rax), op .mov rcx rax, .misc (.shr .rcx 31)] t3 := ⟨_, rfl⟩
  have m4 : Move t3 t4 := ht4 ▸ exes_move rfl
  have x4 : t4.reg .rax = sx a.shortVal <<< c.toNat := by
    have : t4.reg .rax = t3.reg .rax <<< (((setLow8 (t3.reg .rcx) ((t3.reg .rdx).setWidth 8)).setWidth 8).toNat % 64) := by rw [ht4]; rfl
    rw [this, w3.cnt, cl_count (by omega), x3, x2]
  have z4 : t4.fl.zf = decide (t4.reg .rax >>> 31 = 0) := by rw [ht4]; rfl
  have w4 : Sh q F k s t4 r a c := w3.move m4 (by asm ht4) (by asm ht4) (by asm ht4)
  have hx : (sx a.shortVal).toNat < 2 ^ 31 := by
    have e := sx_toInt a.shortVal
    have hb := short_bounds a.shortVal
    rw [BitVec.toInt_eq_toNat_cond] at e hneg
    have := (sx a.shortVal).isLt
    split at e <;> omega
  have hlt : (sx a.shortVal <<< c.toNat).toNat < 2 ^ 62 := by
    have : 2 ^ c.toNat ≤ 2 ^ 30 := Nat.pow_le_pow_right (by norm_num) (by omega)
    rw [BitVec.toNat_shiftLeft, Nat.shiftLeft_eq]
    refine lt_of_le_of_lt (Nat.mod_le _ _) ?_
    calc (sx a.shortVal).toNat * 2 ^ c.toNat ≤ (sx a.shortVal).toNat * 2 ^ 30 := Nat.mul_le_mul_left _ this
      _ < 2 ^ 62 := by omega
  rw [run_exes _ rfl, ← ht4, run_jump, Cond.holds, z4, x4]
  simp only [bne_iff_ne, ne_eq, ← shr31 (show (sx a.shortVal <<< c.toNat).toNat < 2 ^ 63 by omega)]
  by_cases hov : (sx a.shortVal <<< c.toNat) >>> 31 = 0
  · rw [if_neg (by simp [hov]), if_neg (by simp [hov])]
    have := store4_run (env := env) (ra := ra) h' h hk (by omega) w4.di w4.op (by rw [x4]; exact hlt) (.label "do_shlcl" :: shlcl (n64 q) p)
    rw [x4] at this
    exact this
  · rw [if_pos (by rw [decide_eq_false hov]; rfl), if_pos hov]
    simp only [dropTo, leave4, List.cons_append, List.nil_append, if_true]
    exact toL w4

/-- `do_shr`. -/
theorem doShr_run (h7' : FromOk q a) (h' : TArgs q (F + 1) s) (h : TArgs q F (virt s))
    (hN : ConvSpec q F' ra env "toNormal" (fun a e => ∃ r, e = toNormalInto q r a) (FromOk q))
    (hL : ConvSpec q F' ra env "toLongNormal" (fun a e => ∃ r, e = toLongNormalInto q r a) (FromOk q))
    (hf : ShiftSpec q F' ra env "rawShr" (stRawShr q))
    (hk : 3 ≤ k) (hF : k + (n64 q + 1) + n64 q + 3 + F' ≤ F) (hb : callCells q ≤ F') (w : Sh q F k s t r a c) {p : List Line}
    (hp : dropTo "setzero" p = setZero.tail) :
    ∃ s', run env ra ((doShr (n64 q)).tail ++ p) t = some s' ∧ TRet q (F + 1) s s' (shrRef q u r a c) := by
  obtain ⟨t1, w1, c1, b1, e1⟩ := doHead_run (env := env) (ra := ra) w "do_shrl" (.label "do_shrs" :: shrs (n64 q) p)
  rw [doShr_eq, e1, (shr_drop _ _).1, shrRef, run_label]
  by_cases hl : a.long = true
  · rw [if_pos hl, if_pos hl]
    exact shiftl_run u h7' h' h hN hf hk (by omega) hb w1 (.inl b1) p (shr_drop _ _).2
  rw [if_neg hl, if_neg hl]
  obtain ⟨t2, w2, x2, y2, e2⟩ := sgn_run (env := env) (ra := ra) w1 c1 "do_shrcl" ([op .cmp rdx (.imm 31)] ++ (.jump .ncarry "setzero" ::
    ([.misc .movClDl, .misc (.shrCl .rax)] ++ (op .mov (.mem .rdi 0) rax :: (leave4 ++ (.label "do_shrcl" :: shrcl (n64 q) p))))))
  rw [shrs, e2]
  by_cases h0 : sx a.shortVal = 0
  · rw [if_pos h0, if_pos h0]
    have : dropTo "setzero" (.jump .less "do_shrcl" :: ([op .cmp rdx (.imm 31)] ++ (.jump .ncarry "setzero" ::
        ([.misc .movClDl, .misc (.shrCl .rax)] ++ (op .mov (.mem .rdi 0) rax :: (leave4 ++ (.label "do_shrcl" :: shrcl (n64 q) p))))))) =
        dropTo "setzero" p := by
      simp [shrcl, shrl, convA, shiftLong, setTypeDest, leave4, dropTo]
    rw [this, hp]
    exact setZero_run h' h hk (by omega) w2.di w2.op
  rw [if_neg h0, if_neg h0]
  by_cases hneg : (sx a.shortVal).toInt < 0
  · rw [if_pos hneg, if_pos hneg]
    simp only [dropTo, leave4, List.cons_append, List.nil_append, if_true]
    obtain ⟨t3, a3, e3, ⟨z, rfl⟩, w3⟩ := w2.convA h hL hk (by omega) hb h7'
    have hm : (toLongNormalInto q z a).mont = false := by simp [toLongNormalInto, hl]
    rw [shrcl, e3, run_label]
    have := shiftl_run (env := env) (ra := ra) u (.normal hm) h' h hN hf (by omega) (by omega) hb w3 (.inr hm) p (shr_drop _ _).2
    rw [hm, if_neg (by decide), toLong_long q a u z] at this
    exact this
  rw [if_neg hneg, if_neg hneg]
  obtain ⟨t3, w3, x3, y3, e3⟩ := cnt_run (env := env) (ra := ra) w2 "setzero"
    ([.misc .movClDl, .misc (.shrCl .rax)] ++ (op .mov (.mem .rdi 0) rax :: (leave4 ++ (.label "do_shrcl" :: shrcl (n64 q) p))))
  rw [e3]
  by_cases h31 : 31 ≤ c.toNat
  · rw [if_pos h31, if_pos h31]
    have : dropTo "setzero" ([.misc .movClDl, .misc (.shrCl .rax)] ++ (op .mov (.mem .rdi 0) rax :: (leave4 ++
        (.label "do_shrcl" :: shrcl (n64 q) p)))) = dropTo "setzero" p := by
      simp [shrcl, shrl, convA, shiftLong, setTypeDest, leave4, dropTo]
    rw [this, hp]
    exact setZero_run h' h hk (by omega) w3.di w3.op
  rw [if_neg h31, if_neg h31]
  obtain ⟨t4, ht4⟩ : ∃ t4, t4 = exes [.misc .movClDl, .misc (.shrCl .rax)] t3 := ⟨_, rfl⟩
  have m4 : Move t3 t4 := ht4 ▸ exes_move rfl
  have hx : (sx a.shortVal).toNat < 2 ^ 31 := by
    have e := sx_toInt a.shortVal
    have hb := short_bounds a.shortVal
    rw [BitVec.toInt_eq_toNat_cond] at e hneg
    have := (sx a.shortVal).isLt
    split at e <;> omega
  have x4 : t4.reg .rax = (sx a.shortVal).sshiftRight c.toNat := by
    have : t4.reg .rax = t3.reg .rax >>> (((setLow8 (t3.reg .rcx) ((t3.reg .rdx).setWidth 8)).setWidth 8).toNat % 64) := by rw [ht4]; rfl
    rw [this, w3.cnt, cl_count (by omega), x3, x2, BitVec.sshiftRight_eq_of_msb_false]
    rw [BitVec.msb_eq_false_iff_two_mul_lt]; omega
  have w4 : Sh q F k s t4 r a c := w3.move m4 (by asm ht4) (by asm ht4) (by asm ht4)
  rw [run_exes _ rfl, ← ht4]
  have := store4_run (env := env) (ra := ra) h' h hk (by omega) w4.di w4.op (by
    rw [x4, BitVec.sshiftRight_eq_of_msb_false (by rw [BitVec.msb_eq_false_iff_two_mul_lt]; omega), BitVec.toNat_ushiftRight, Nat.shiftRight_eq_div_pow]
    exact lt_of_le_of_lt (Nat.div_le_self _ _) (by omega)) (.label "do_shrcl" :: shrcl (n64 q) p)
  rw [x4] at this
  exact this

end dos

end FF.X86
