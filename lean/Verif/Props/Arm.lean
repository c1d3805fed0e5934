import Verif.ArmRaw2
import Verif.ArmCmp
import Verif.Props.Raw

/-!
# Property C69: the raw routines of the generated AArch64 code

`rd m a n` is the array of `n` eight-byte cells at address `a`.  Operands are passed in `x0` (result), `x1` and `x2`.  Every theorem
holds for every modulus of at most twelve limbs, for all contents of registers, flags and memory, and for operand arrays that may be
the result array, overlap it or not meet it, unless stated.  With thirteen limbs the register pool of the generator is empty before
the operands have been assigned (`armbuilder.js:87`) and the generated text does not assemble.
-/

namespace FF.Props

open FF FF.Arm
open FF.X86 (cell rd rd_length upd)

/-- The array at `a` does not meet the sixteen words below the stack pointer, where the routines save registers. -/
def ArmClear (s : State) (a : BitVec 64) (n : Nat) : Prop :=
  ∀ i, i < n → ∀ k, 1 ≤ k → k ≤ 16 → cell a i ≠ s.sp - BitVec.ofNat 64 (8 * k)

/-- The machine is ready to call a raw routine: the modulus has at most twelve limbs, the data section holds the modulus, the Montgomery
constant and the mask of the top limb, and neither these tables nor the result array are in the stack area. -/
structure ArmReady (q : Nat) (s : State) : Prop where
  width : n64 q ≤ 12
  table : rd s.mem (s.sym .q) (n64 q) = rawq q
  np : s.mem (s.sym .np) = np q
  mask : s.mem (s.sym .lboMask) = lboMask q
  out : ArmClear s (s.reg 0) (n64 q)
  tableOff : ArmClear s (s.sym .q) (n64 q)
  npOff : ArmClear s (s.sym .np) 1
  maskOff : ArmClear s (s.sym .lboMask) 1

theorem ArmReady.ctx {q : Nat} {s : State} (h : ArmReady q s) : Ctx q s :=
  ⟨h.width, h.table, h.np, h.mask, h.out, h.tableOff, h.npOff, h.maskOff⟩

/-- What a caller sees after a routine that returns the array `out`: the result array, every other memory cell above the stack area
unchanged, the callee-saved registers `x19 … x28`, the frame pointer, the link register and the stack pointer kept. -/
structure ArmReturns (n : Nat) (s s' : State) (out : Limbs) : Prop where
  out : rd s'.mem (s.reg 0) n = out
  frame : ∀ a, (∀ i, i < n → a ≠ cell (s.reg 0) i) → (∀ k, 1 ≤ k → k ≤ 16 → a ≠ s.sp - BitVec.ofNat 64 (8 * k)) → s'.mem a = s.mem a
  saved : ∀ r, 19 ≤ r → r ≤ 30 → s'.reg r = s.reg r
  sp : s'.sp = s.sp

theorem ArmReturns.of {n : Nat} {s s' : State} {out : Limbs} (h : Post n s s' out) : ArmReturns n s s' out :=
  ⟨h.out, h.frame, h.saved, h.sp⟩

/-- C69, raw addition: same limbs as the portable code, for any operands; `(a + b) mod q` on reduced operands. -/
theorem C69_add {q : Nat} {s : State} (h : ArmReady q s) (ha : ArmClear s (s.reg 1) (n64 q)) (hb : ArmClear s (s.reg 2) (n64 q)) :
    ∃ s', run (Arm.rawAdd (n64 q) false) s = some s' ∧
      ArmReturns (n64 q) s s' (FF.rawAdd q (rd s.mem (s.reg 1) (n64 q)) (rd s.mem (s.reg 2) (n64 q))) ∧
      (val (rd s.mem (s.reg 1) (n64 q)) < q → val (rd s.mem (s.reg 2) (n64 q)) < q →
        val (rd s'.mem (s.reg 0) (n64 q)) = (val (rd s.mem (s.reg 1) (n64 q)) + val (rd s.mem (s.reg 2) (n64 q))) % q) := by
  obtain ⟨s', h1, h2⟩ := rawAdd_run false h.ctx ha (fun _ => hb)
  refine ⟨s', h1, .of h2, fun hx hy => ?_⟩
  rw [h2.out]
  exact (C04_add (rd_length _ _ _) (rd_length _ _ _) hx hy).2

/-- C69, long plus short; the short operand is in `x2`. -/
theorem C69_addLS {q : Nat} {s : State} (h : ArmReady q s) (ha : ArmClear s (s.reg 1) (n64 q)) :
    ∃ s', run (Arm.rawAdd (n64 q) true) s = some s' ∧
      ArmReturns (n64 q) s s' (FF.rawAddLS q (rd s.mem (s.reg 1) (n64 q)) (s.reg 2)) ∧
      (val (rd s.mem (s.reg 1) (n64 q)) < q → (s.reg 2).toNat < q →
        val (rd s'.mem (s.reg 0) (n64 q)) = (val (rd s.mem (s.reg 1) (n64 q)) + (s.reg 2).toNat) % q) := by
  obtain ⟨s', h1, h2⟩ := rawAdd_run true h.ctx ha (by simp)
  refine ⟨s', h1, .of h2, fun hx hy => ?_⟩
  rw [h2.out]
  exact (C04_addLS (rd_length _ _ _) hx hy).2

/-- C69, raw subtraction. -/
theorem C69_sub {q : Nat} {s : State} (h : ArmReady q s) (ha : ArmClear s (s.reg 1) (n64 q)) (hb : ArmClear s (s.reg 2) (n64 q)) :
    ∃ s', run (Arm.rawSub (n64 q) .LL) s = some s' ∧
      ArmReturns (n64 q) s s' (FF.rawSub q (rd s.mem (s.reg 1) (n64 q)) (rd s.mem (s.reg 2) (n64 q))) ∧
      (val (rd s.mem (s.reg 1) (n64 q)) < q → val (rd s.mem (s.reg 2) (n64 q)) < q →
        (val (rd s'.mem (s.reg 0) (n64 q)) : ℤ)
          = ((val (rd s.mem (s.reg 1) (n64 q)) : ℤ) - val (rd s.mem (s.reg 2) (n64 q))) % q) := by
  obtain ⟨s', h1, h2⟩ := rawSub_run .LL h.ctx (fun _ => ha) (fun _ => hb)
  refine ⟨s', h1, .of h2, fun hx hy => ?_⟩
  rw [h2.out]
  exact (C04_sub (rd_length _ _ _) (rd_length _ _ _) hx hy).2

/-- C69, long minus short. -/
theorem C69_subLS {q : Nat} {s : State} (h : ArmReady q s) (ha : ArmClear s (s.reg 1) (n64 q)) :
    ∃ s', run (Arm.rawSub (n64 q) .LS) s = some s' ∧
      ArmReturns (n64 q) s s' (FF.rawSubLS q (rd s.mem (s.reg 1) (n64 q)) (s.reg 2)) ∧
      (val (rd s.mem (s.reg 1) (n64 q)) < q → (s.reg 2).toNat < q →
        (val (rd s'.mem (s.reg 0) (n64 q)) : ℤ) = ((val (rd s.mem (s.reg 1) (n64 q)) : ℤ) - (s.reg 2).toNat) % q) := by
  obtain ⟨s', h1, h2⟩ := rawSub_run .LS h.ctx (fun _ => ha) (by simp)
  refine ⟨s', h1, .of h2, fun hx hy => ?_⟩
  rw [h2.out]
  exact (C04_subLS (rd_length _ _ _) hx hy).2

/-- C69, short minus long: the short operand is in `x1`, the long one at `x2`. -/
theorem C69_subSL {q : Nat} {s : State} (h : ArmReady q s) (hb : ArmClear s (s.reg 2) (n64 q)) :
    ∃ s', run (Arm.rawSub (n64 q) .SL) s = some s' ∧
      ArmReturns (n64 q) s s' (FF.rawSubSL q (s.reg 1) (rd s.mem (s.reg 2) (n64 q))) ∧
      (val (rd s.mem (s.reg 2) (n64 q)) < q → (s.reg 1).toNat < q →
        (val (rd s'.mem (s.reg 0) (n64 q)) : ℤ) = (((s.reg 1).toNat : ℤ) - val (rd s.mem (s.reg 2) (n64 q))) % q) := by
  obtain ⟨s', h1, h2⟩ := rawSub_run .SL h.ctx (by simp) (fun _ => hb)
  refine ⟨s', h1, .of h2, fun hx hy => ?_⟩
  rw [h2.out]
  exact (C04_subSL (rd_length _ _ _) hx hy).2

/-- No word of the array at `a` is the word of the array at `r` with another index: the arrays are the same, or they do not meet. -/
def ArmApart (n : Nat) (a r : BitVec 64) : Prop := ∀ i j, i < n → j < n → i ≠ j → cell a i ≠ cell r j

/-- C69, the plain subtraction without reduction. -/
theorem C69_subRegular {n : Nat} {s : State} (hn : 0 < n) (hw : n ≤ 12) (ho : ArmClear s (s.reg 0) n) (ha : ArmClear s (s.reg 1) n)
    (hb : ArmClear s (s.reg 2) n) (h1 : ArmApart n (s.reg 1) (s.reg 0)) (h2 : ArmApart n (s.reg 2) (s.reg 0)) :
    ∃ s', run (Arm.rawSubRegular n) s = some s' ∧
      ArmReturns n s s' (FF.rawSubRegular (rd s.mem (s.reg 1) n) (rd s.mem (s.reg 2) n)) ∧
      ∃ b, b ≤ 1 ∧ val (rd s'.mem (s.reg 0) n) + val (rd s.mem (s.reg 2) n) = val (rd s.mem (s.reg 1) n) + 2 ^ (64 * n) * b := by
  obtain ⟨s', f1, f2⟩ := rawSubRegular_run hn hw ho ha hb h1 h2
  refine ⟨s', f1, .of f2, ?_⟩
  rw [f2.out]
  unfold FF.rawSubRegular
  have e := subNC_val (rd s.mem (s.reg 1) n) (rd s.mem (s.reg 2) n) 0 (by rw [rd_length, rd_length]) (by omega)
  rw [rd_length, W_pow, Nat.add_zero] at e
  exact ⟨_, subNC_borrow_le _ _ 0 (by omega), e⟩

/-- C69, negation. -/
theorem C69_neg {q : Nat} {s : State} (h : ArmReady q s) (ha : ArmClear s (s.reg 1) (n64 q))
    (ht : ArmApart (n64 q) (s.sym .q) (s.reg 0)) :
    ∃ s', run (Arm.rawNeg (n64 q)) s = some s' ∧
      ArmReturns (n64 q) s s' (FF.rawNeg q (rd s.mem (s.reg 1) (n64 q))) ∧
      (val (rd s.mem (s.reg 1) (n64 q)) < q →
        (val (rd s'.mem (s.reg 0) (n64 q)) : ℤ) = (-(val (rd s.mem (s.reg 1) (n64 q)) : ℤ)) % q) := by
  obtain ⟨s', h1, h2⟩ := rawNeg_run h.ctx ht ha
  refine ⟨s', h1, .of h2, fun hx => ?_⟩
  rw [h2.out]
  exact (C04_neg (rd_length _ _ _) hx).2

/-- What is left of the first difference `d` when `rawNegLS` subtracts the long operand `a` from it: `d`, but with eleven limbs its word
10 is the word 8 of `a`, and with twelve limbs its words 9, 10 and 11 are the words 8, 9 and 10 of `a`. -/
def armKept (n d a : Nat) : Nat :=
  if n = 11 then d % 2 ^ 640 + 2 ^ 640 * (a / 2 ^ 512 % 2 ^ 64)
  else if n = 12 then d % 2 ^ 576 + 2 ^ 576 * (a / 2 ^ 512 % 2 ^ 192)
  else d

theorem val_negDiff {n : Nat} {d a : Limbs} (hn : n ≤ 12) (hd : d.length = n) (ha : a.length = n) :
    val (negDiff n d a) = armKept n (val d) (val a) := by
  unfold armKept
  split
  · rename_i e
    subst e
    rw [negDiff_11 hd ha, val_append, val_take_mod _ _ (by omega), val_take_mod _ _ (by simp [ha]), val_drop_div _ _ (by omega)]
    simp only [List.length_take, hd, W_pow]
    rfl
  · split
    · rename_i e
      subst e
      rw [negDiff_12 hd ha, val_append, val_take_mod _ _ (by omega), val_take_mod _ _ (by simp [ha]), val_drop_div _ _ (by omega)]
      simp only [List.length_take, hd, W_pow]
      rfl
    · rw [negDiff_small (by omega) hd]

/-- C69, partial: minus (long plus short).  The routine adds the modulus unless both of its subtractions borrow, instead of if one of
them does; on reduced operands it returns `2q - w - a` cut to the array, which is the residue only when `a + w` is above `q`; with
eleven and twelve limbs the loads of the second subtraction overwrite words of the first difference `q - w` besides.  Missing: the
residue for the other operands, which the routine does not return (`C69_negLS_violation`, `C69_negLS_wide_violation`). -/
theorem C69_negLS_partial {q : Nat} {s : State} (h : ArmReady q s) (ha : ArmClear s (s.reg 1) (n64 q)) :
    ∃ s', run (Arm.rawNegLS (n64 q)) s = some s' ∧ (∃ out, ArmReturns (n64 q) s s' out) ∧
      (val (rd s.mem (s.reg 1) (n64 q)) < q → (s.reg 2).toNat < q →
        val (rd s'.mem (s.reg 0) (n64 q)) = (armKept (n64 q) (q - (s.reg 2).toNat) (val (rd s.mem (s.reg 1) (n64 q))) + q
          - val (rd s.mem (s.reg 1) (n64 q))) % 2 ^ (64 * n64 q)) ∧
      (n64 q ≤ 10 → val (rd s.mem (s.reg 1) (n64 q)) < q → (s.reg 2).toNat < q → q < val (rd s.mem (s.reg 1) (n64 q)) + (s.reg 2).toNat →
        (val (rd s'.mem (s.reg 0) (n64 q)) : ℤ) = (-((val (rd s.mem (s.reg 1) (n64 q)) : ℤ) + (s.reg 2).toNat)) % q) := by
  obtain ⟨s', h1, h2⟩ := rawNegLS_run h.ctx ha
  have hv : val (rd s.mem (s.reg 1) (n64 q)) < q → (s.reg 2).toNat < q →
      val (rd s'.mem (s.reg 0) (n64 q)) = (armKept (n64 q) (q - (s.reg 2).toNat) (val (rd s.mem (s.reg 1) (n64 q))) + q
          - val (rd s.mem (s.reg 1) (n64 q))) % 2 ^ (64 * n64 q) := by
    intro hx hy
    obtain ⟨e1, e2, e3⟩ := negLSArm_val (rd_length _ _ _) hx hy
    rw [h2.out, e3, W_pow, val_negDiff h.width e2 (rd_length _ _ _), e1]
  refine ⟨s', h1, ⟨_, .of h2⟩, hv, fun h10 hx hy hs => ?_⟩
  rw [hv hx hy, armKept, if_neg (by omega), if_neg (by omega),
    Nat.mod_eq_of_lt (by have := q_lt_Wn q; rw [W_pow] at this; omega)]
  rw [← Int.add_mul_emod_self_right _ 2, Int.emod_eq_of_lt (by omega) (by omega)]
  omega

/-- C69, violated: up to ten limbs, whenever `a + w ≤ q` the array `rawNegLS` returns is not the residue of `-(a + w)`; it is not even
reduced when `2q - a - w` fits the array. -/
theorem C69_negLS_violation {q : Nat} {s : State} (h : ArmReady q s) (h10 : n64 q ≤ 10) (ha : ArmClear s (s.reg 1) (n64 q))
    (hx : val (rd s.mem (s.reg 1) (n64 q)) < q) (hw : (s.reg 2).toNat < q)
    (hs : val (rd s.mem (s.reg 1) (n64 q)) + (s.reg 2).toNat ≤ q) (h0 : 0 < val (rd s.mem (s.reg 1) (n64 q)) + (s.reg 2).toNat) :
    ∃ s', run (Arm.rawNegLS (n64 q)) s = some s' ∧
      (val (rd s'.mem (s.reg 0) (n64 q)) : ℤ) ≠ (-((val (rd s.mem (s.reg 1) (n64 q)) : ℤ) + (s.reg 2).toNat)) % q ∧
      (2 * q - (s.reg 2).toNat - val (rd s.mem (s.reg 1) (n64 q)) < 2 ^ (64 * n64 q) → q ≤ val (rd s'.mem (s.reg 0) (n64 q))) := by
  obtain ⟨s', h1, -, h2, -⟩ := C69_negLS_partial h ha
  refine ⟨s', h1, ?_⟩
  have hq := q_lt_Wn q
  rw [W_pow] at hq
  rw [h2 hx hw, armKept, if_neg (by omega), if_neg (by omega)]
  generalize val (rd s.mem (s.reg 1) (n64 q)) = a at *
  generalize (s.reg 2).toNat = w at *
  generalize 2 ^ (64 * n64 q) = M at *
  constructor
  · intro he
    rw [← Int.add_mul_emod_self_right _ 1, Int.one_mul] at he
    by_cases hl : q - w + q - a < M
    · rw [Nat.mod_eq_of_lt hl, Int.emod_eq_of_lt (by omega) (by omega)] at he
      omega
    · rw [Nat.mod_eq_sub_mod (by omega), Nat.mod_eq_of_lt (by omega), Int.emod_eq_of_lt (by omega) (by omega)] at he
      omega
  · intro hf
    rw [Nat.mod_eq_of_lt (by omega)]
    omega

/-- C69, violated for every modulus of eleven or twelve limbs: minus (zero plus `w`) is not the residue. -/
theorem C69_negLS_wide_violation {q : Nat} {s : State} (h : ArmReady q s) (h11 : 11 ≤ n64 q) (ha : ArmClear s (s.reg 1) (n64 q))
    (hx : val (rd s.mem (s.reg 1) (n64 q)) = 0) (hw : (s.reg 2).toNat < q) (h0 : 0 < (s.reg 2).toNat) :
    ∃ s', run (Arm.rawNegLS (n64 q)) s = some s' ∧ (val (rd s'.mem (s.reg 0) (n64 q)) : ℤ) ≠ (-((s.reg 2).toNat : ℤ)) % q := by
  obtain ⟨s', h1, -, h2, -⟩ := C69_negLS_partial h ha
  refine ⟨s', h1, ?_⟩
  have hq := q_lt_Wn q
  rw [W_pow] at hq
  have hl := h.width
  have hk : armKept (n64 q) (q - (s.reg 2).toNat) 0 < 2 ^ 640 := by
    unfold armKept
    split
    · rw [Nat.zero_div, Nat.zero_mod, Nat.mul_zero, Nat.add_zero]
      exact Nat.mod_lt _ (by norm_num)
    · rw [if_pos (by omega), Nat.zero_div, Nat.zero_mod, Nat.mul_zero, Nat.add_zero]
      exact lt_trans (Nat.mod_lt _ (by norm_num)) (Nat.pow_lt_pow_right (by decide) (by decide))
  have hM : 2 ^ (640 + 1) ≤ 2 ^ (64 * n64 q) := Nat.pow_le_pow_right (by decide) (by omega)
  have h64 : (s.reg 2).toNat < 2 ^ 64 := (s.reg 2).isLt
  have hx' := h2 (by omega) hw
  rw [hx] at hx'
  rw [hx', Nat.sub_zero]
  generalize (s.reg 2).toNat = w at *
  generalize armKept (n64 q) (q - w) 0 = k at *
  have h6 : 2 ^ 64 ≤ 2 ^ 640 := Nat.pow_le_pow_right (by decide) (by decide)
  have hs : 2 ^ 640 + 2 ^ 64 ≤ 2 ^ (64 * n64 q) :=
    (Nat.add_le_add_left h6 _).trans ((Nat.two_mul _).symm.trans (pow_succ' 2 640).symm |>.le.trans hM)
  generalize 2 ^ (64 * n64 q) = M at *
  generalize 2 ^ 640 = A at *
  intro he
  rw [← Int.add_mul_emod_self_right _ 1, Int.one_mul, Int.emod_eq_of_lt (a := -(w : ℤ) + q) (by omega) (by omega)] at he
  by_cases hl : k + q < M
  · rw [Nat.mod_eq_of_lt hl] at he
    omega
  · rw [Nat.mod_eq_sub_mod (by omega), Nat.mod_eq_of_lt (by omega)] at he
    omega

/-- C69, `rawCopy`. -/
theorem C69_copy {n : Nat} {s : State} (hn : 0 < n) (hw : n ≤ 12) (ho : ArmClear s (s.reg 0) n) (ha : ArmApart n (s.reg 1) (s.reg 0)) :
    ∃ s', run (Arm.rawCopy n) s = some s' ∧ ArmReturns n s s' (rd s.mem (s.reg 1) n) := by
  obtain ⟨s', h1, h2⟩ := rawCopy_run hn hw ho ha
  exact ⟨s', h1, .of h2⟩

/-- C69, `rawCopyS2L`: the residue of a signed 64-bit integer. -/
theorem C69_copyS2L {q : Nat} {s : State} (h : ArmReady q s) (ht : ArmApart (n64 q) (s.sym .q) (s.reg 0)) :
    ∃ s', run (Arm.rawCopyS2L (n64 q)) s = some s' ∧ ArmReturns (n64 q) s s' (FF.rawCopyS2L q (s.reg 1)) ∧
      ((s.reg 1).toInt.natAbs < q → (val (rd s'.mem (s.reg 0) (n64 q)) : ℤ) = (s.reg 1).toInt % q) := by
  obtain ⟨s', h1, h2⟩ := rawCopyS2L_run h.ctx ht
  refine ⟨s', h1, .of h2, fun hv => ?_⟩
  rw [h2.out]
  exact (C04_copyS2L hv).2

/-- C69, `rawSwap` exchanges two arrays that do not meet. -/
theorem C69_swap {n : Nat} {s : State} (hn : 0 < n) (hw : n ≤ 12)
    (hsep : ∀ i j, i < n → j < n → cell (s.reg 0) i ≠ cell (s.reg 1) j) :
    ∃ s', run (Arm.rawSwap n) s = some s' ∧ rd s'.mem (s.reg 0) n = rd s.mem (s.reg 1) n ∧
      rd s'.mem (s.reg 1) n = rd s.mem (s.reg 0) n ∧
      (∀ a, (∀ i, i < n → a ≠ cell (s.reg 0) i ∧ a ≠ cell (s.reg 1) i) → s'.mem a = s.mem a) ∧
      (∀ r, 19 ≤ r → r ≤ 30 → s'.reg r = s.reg r) ∧ s'.sp = s.sp := rawSwap_run hn hw s hsep

/-- C69, the word operations: same limbs as the portable code; the word operation cut to the bit length of the modulus and reduced. -/
theorem C69_bits {q : Nat} (hq : 0 < q) {s : State} (h : ArmReady q s) (ha : ArmClear s (s.reg 1) (n64 q)) :
    (ArmClear s (s.reg 2) (n64 q) →
      (∃ s', run (Arm.rawBinOp (n64 q) .and) s = some s' ∧
        ArmReturns (n64 q) s s' (FF.rawAnd q (rd s.mem (s.reg 1) (n64 q)) (rd s.mem (s.reg 2) (n64 q))) ∧
        val (rd s'.mem (s.reg 0) (n64 q))
          = (val (rd s.mem (s.reg 1) (n64 q)) &&& val (rd s.mem (s.reg 2) (n64 q))) % 2 ^ bitLen q % q) ∧
      (∃ s', run (Arm.rawBinOp (n64 q) .orr) s = some s' ∧
        ArmReturns (n64 q) s s' (FF.rawOr q (rd s.mem (s.reg 1) (n64 q)) (rd s.mem (s.reg 2) (n64 q))) ∧
        val (rd s'.mem (s.reg 0) (n64 q))
          = (val (rd s.mem (s.reg 1) (n64 q)) ||| val (rd s.mem (s.reg 2) (n64 q))) % 2 ^ bitLen q % q) ∧
      (∃ s', run (Arm.rawBinOp (n64 q) .eor) s = some s' ∧
        ArmReturns (n64 q) s s' (FF.rawXor q (rd s.mem (s.reg 1) (n64 q)) (rd s.mem (s.reg 2) (n64 q))) ∧
        val (rd s'.mem (s.reg 0) (n64 q))
          = (val (rd s.mem (s.reg 1) (n64 q)) ^^^ val (rd s.mem (s.reg 2) (n64 q))) % 2 ^ bitLen q % q)) ∧
    (∃ s', run (Arm.rawBinOp (n64 q) .mvn) s = some s' ∧
      ArmReturns (n64 q) s s' (FF.rawNot q (rd s.mem (s.reg 1) (n64 q))) ∧
      (val (rd s.mem (s.reg 1) (n64 q)) < 2 ^ bitLen q →
        val (rd s'.mem (s.reg 0) (n64 q)) = (2 ^ bitLen q - 1 - val (rd s.mem (s.reg 1) (n64 q))) % q)) := by
  refine ⟨fun hb => ⟨?_, ?_, ?_⟩, ?_⟩
  · obtain ⟨s', h1, h2⟩ := rawBinOp_run (o := .and) (by simp) h.ctx ha (fun _ => hb)
    exact ⟨s', h1, .of h2, by rw [h2.out]; exact (rawAnd_val hq (rd_length _ _ _) (rd_length _ _ _)).1⟩
  · obtain ⟨s', h1, h2⟩ := rawBinOp_run (o := .orr) (by simp) h.ctx ha (fun _ => hb)
    exact ⟨s', h1, .of h2, by rw [h2.out]; exact (rawOr_val hq (rd_length _ _ _) (rd_length _ _ _)).1⟩
  · obtain ⟨s', h1, h2⟩ := rawBinOp_run (o := .eor) (by simp) h.ctx ha (fun _ => hb)
    exact ⟨s', h1, .of h2, by rw [h2.out]; exact (rawXor_val hq (rd_length _ _ _) (rd_length _ _ _)).1⟩
  · obtain ⟨s', h1, h2⟩ := rawBinOp_run (o := .mvn) (by simp) h.ctx ha (by simp)
    exact ⟨s', h1, .of h2, fun hx => by rw [h2.out]; exact (rawNot_val hq (rd_length _ _ _) hx).1⟩

/-- What a caller sees after a routine that only answers in `x0`. -/
structure ArmAnswers (s s' : State) : Prop where
  mem : s'.mem = s.mem
  saved : ∀ r, 19 ≤ r → r ≤ 30 → s'.reg r = s.reg r
  sp : s'.sp = s.sp

/-- C69, `rawIsZero`. -/
theorem C69_isZero {n : Nat} {s : State} (hn : 0 < n) (hw : n ≤ 12) :
    ∃ s', run (Arm.rawIsZero n) s = some s' ∧
      s'.reg 0 = (if val (rd s.mem (s.reg 0) n) = 0 then 1 else 0) ∧ ArmAnswers s s' := by
  obtain ⟨s', h1, h2⟩ := rawIsZero_run hn hw s
  refine ⟨s', h1, ?_, h2.mem, h2.saved, h2.sp⟩
  have := h2.res
  rw [rawIsZero_iff] at this
  split
  · exact this.1 ‹_›
  · exact this.2 ‹_›

/-- C69, `rawCmp`: the answer read as a C `int` has the sign of the comparison. -/
theorem C69_cmp {n : Nat} {s : State} (hn : 0 < n) (hw : n ≤ 12) :
    ∃ s', run (Arm.rawCmp n) s = some s' ∧
      (((s'.reg 0).setWidth 32).toInt < 0 ↔ val (rd s.mem (s.reg 0) n) < val (rd s.mem (s.reg 1) n)) ∧
      (((s'.reg 0).setWidth 32).toInt = 0 ↔ val (rd s.mem (s.reg 0) n) = val (rd s.mem (s.reg 1) n)) ∧
      (0 < ((s'.reg 0).setWidth 32).toInt ↔ val (rd s.mem (s.reg 1) n) < val (rd s.mem (s.reg 0) n)) ∧ ArmAnswers s s' := by
  obtain ⟨s', h1, h2⟩ := rawCmp_run hn hw s
  have h3 := h2.res
  rw [FF.rawCmp, mpn_cmp_eq _ _ (by rw [rd_length, rd_length])] at h3
  refine ⟨s', h1, ?_⟩
  have h4 : ArmAnswers s s' := ⟨h2.mem, h2.saved, h2.sp⟩
  generalize ((s'.reg 0).setWidth 32).toInt = x at *
  rcases hc : compare (val (rd s.mem (s.reg 0) n)) (val (rd s.mem (s.reg 1) n)) with _ | _ | _
  · rw [hc] at h3
    have := Nat.compare_eq_lt.mp hc
    simp only at h3
    exact ⟨by omega, by omega, by omega, h4⟩
  · rw [hc] at h3
    have := Nat.compare_eq_eq.mp hc
    simp only at h3
    exact ⟨by omega, by omega, by omega, h4⟩
  · rw [hc] at h3
    have := Nat.compare_eq_gt.mp hc
    simp only at h3
    exact ⟨by omega, by omega, by omega, h4⟩

/-- The words `rawIsEq` looks at: all of them, except for seven limbs, where the words 0 to 3 are never compared. -/
def armSeen (n : Nat) : List Nat := if n = 7 then [4, 5, 6] else List.range n

/-- C69, partial: `rawIsEq` answers 1 exactly when the words it looks at agree; for every width but seven this is equality of the
numbers. Missing: seven limbs (`C69_isEq_violation`). -/
theorem C69_isEq_partial {n : Nat} {s : State} (hn : 0 < n) (hw : n ≤ 12) :
    ∃ s', run (Arm.rawIsEq n) s = some s' ∧ ArmAnswers s s' ∧
      s'.reg 0 = (if ∀ i ∈ armSeen n, s.mem (cell (s.reg 0) i) = s.mem (cell (s.reg 1) i) then 1 else 0) ∧
      (n ≠ 7 → s'.reg 0 = (if val (rd s.mem (s.reg 0) n) = val (rd s.mem (s.reg 1) n) then 1 else 0)) := by
  obtain ⟨s', h1, h2⟩ := rawIsEq_run hn hw s
  have e : s'.reg 0 = (if ∀ i ∈ armSeen n, s.mem (cell (s.reg 0) i) = s.mem (cell (s.reg 1) i) then 1 else 0) := by
    split
    · exact h2.res.1 ‹_›
    · exact h2.res.2 ‹_›
  refine ⟨s', h1, ⟨h2.mem, h2.saved, h2.sp⟩, e, fun h7 => ?_⟩
  rw [e]
  refine if_congr ?_ rfl rfl
  have hv : val (rd s.mem (s.reg 0) n) = val (rd s.mem (s.reg 1) n) ↔ rd s.mem (s.reg 0) n = rd s.mem (s.reg 1) n :=
    ⟨val_inj (by rw [rd_length, rd_length]), congrArg val⟩
  rw [hv, rd_map, rd_map, armSeen, if_neg h7, List.map_inj_left]

/-- C69, violated: for every array of seven limbs and every other one that differs from it in the words 0 to 3 only, `rawIsEq`
answers that they are equal. -/
theorem C69_isEq_violation {s : State} (h4 : s.mem (cell (s.reg 0) 4) = s.mem (cell (s.reg 1) 4))
    (h5 : s.mem (cell (s.reg 0) 5) = s.mem (cell (s.reg 1) 5)) (h6 : s.mem (cell (s.reg 0) 6) = s.mem (cell (s.reg 1) 6)) :
    ∃ s', run (Arm.rawIsEq 7) s = some s' ∧ s'.reg 0 = 1 := by
  obtain ⟨s', h1, -, h3, -⟩ := C69_isEq_partial (n := 7) (s := s) (by decide) (by decide)
  refine ⟨s', h1, ?_⟩
  rw [h3, if_pos]
  simp [armSeen, h4, h5, h6]

/-! ## The hypotheses are met

A machine with the tables of the BN254 scalar field at addresses 0, 32 and 40, operands at 64 and 128, the result at 192 and the stack
pointer at 65536. -/

def armDemo (x y : Nat) : State where
  reg := fun r => match r with | 0 => 192 | 1 => 64 | 2 => 128 | _ => 7
  sp := 65536
  fl := ⟨true, true, true, true⟩
  mem := fun a => (rawq bnR ++ [np bnR, lboMask bnR, 0, 0] ++ toLimbs 4 x ++ List.replicate 4 0 ++ toLimbs 4 y).getD (a.toNat / 8) 0
  sym := fun y => match y with | .q => 0 | .np => 32 | .lboMask => 40
  code := 0

theorem armDemo_clear (x y : Nat) {a : BitVec 64} (h : ∀ i : Fin 4, ∀ k : Fin 17, cell a i ≠ 65536 - BitVec.ofNat 64 (8 * k)) :
    ArmClear (armDemo x y) a 4 := fun i hi k _ hk => h ⟨i, hi⟩ ⟨k, by omega⟩

theorem armDemo_ready (x y : Nat) : ArmReady bnR (armDemo x y) := by
  have h0 : ∀ x y, (rawq bnR ++ [np bnR, lboMask bnR, 0, 0] ++ toLimbs 4 x ++ List.replicate 4 0 ++ toLimbs 4 y).take 6
      = rawq bnR ++ [np bnR, lboMask bnR] := fun x y => by
    rw [show rawq bnR = [4891460686036598785, 2896914383306846353, 13281191951274694749, 3486998266802970665] by decide +kernel]
    rfl
  have hm : ∀ i, i < 6 → (armDemo x y).mem (BitVec.ofNat 64 (8 * i)) = (rawq bnR ++ [np bnR, lboMask bnR]).getD i 0 := by
    intro i hi
    show List.getD _ _ _ = _
    rw [BitVec.toNat_ofNat, Nat.mod_eq_of_lt (by omega), Nat.mul_div_cancel_left _ (by decide), ← h0 x y, List.getD_eq_getElem?_getD,
      List.getD_eq_getElem?_getD, List.getElem?_take, if_pos hi]
  refine ⟨by rw [n64_bnR]; decide, ?_, ?_, ?_, ?_, ?_, ?_, ?_⟩
  · rw [n64_bnR, rd_map]
    show [(armDemo x y).mem (BitVec.ofNat 64 (8 * 0)), (armDemo x y).mem (BitVec.ofNat 64 (8 * 1)),
      (armDemo x y).mem (BitVec.ofNat 64 (8 * 2)), (armDemo x y).mem (BitVec.ofNat 64 (8 * 3))] = _
    rw [hm 0 (by decide), hm 1 (by decide), hm 2 (by decide), hm 3 (by decide)]
    decide +kernel
  · exact (hm 4 (by decide)).trans (by decide +kernel)
  · exact (hm 5 (by decide)).trans (by decide +kernel)
  · rw [n64_bnR]; exact armDemo_clear x y (a := 192) (by decide +kernel)
  · rw [n64_bnR]; exact armDemo_clear x y (a := 0) (by decide +kernel)
  · exact fun i hi => armDemo_clear x y (a := 32) (by decide +kernel) i (by omega)
  · exact fun i hi => armDemo_clear x y (a := 40) (by decide +kernel) i (by omega)

theorem armDemo_ops (x y : Nat) : ArmClear (armDemo x y) ((armDemo x y).reg 1) (n64 bnR) ∧
    ArmClear (armDemo x y) ((armDemo x y).reg 2) (n64 bnR) := by
  rw [n64_bnR]
  exact ⟨armDemo_clear x y (a := 64) (by decide +kernel), armDemo_clear x y (a := 128) (by decide +kernel)⟩

example : ∃ s', run (Arm.rawAdd (n64 bnR) false) (armDemo (bnR - 1) (bnR - 2)) = some s' ∧ val (rd s'.mem 192 (n64 bnR)) = bnR - 3 := by
  obtain ⟨s', h1, -, h3⟩ := C69_add (armDemo_ready (bnR - 1) (bnR - 2)) (armDemo_ops _ _).1 (armDemo_ops _ _).2
  refine ⟨s', h1, ?_⟩
  have e1 : val (rd (armDemo (bnR - 1) (bnR - 2)).mem 64 (n64 bnR)) = bnR - 1 := by rw [n64_bnR]; decide +kernel
  have e2 : val (rd (armDemo (bnR - 1) (bnR - 2)).mem 128 (n64 bnR)) = bnR - 2 := by rw [n64_bnR]; decide +kernel
  have := h3 (by show val (rd _ 64 _) < _; rw [e1]; decide +kernel) (by show val (rd _ 128 _) < _; rw [e2]; decide +kernel)
  refine this.trans ?_
  show (val (rd _ 64 _) + val (rd _ 128 _)) % _ = _
  rw [e1, e2]
  decide +kernel

example : ∃ s', run (Arm.rawSub (n64 bnR) .LL) (armDemo 3 5) = some s' ∧ (val (rd s'.mem 192 (n64 bnR)) : ℤ) = bnR - 2 := by
  obtain ⟨s', h1, -, h3⟩ := C69_sub (armDemo_ready 3 5) (armDemo_ops _ _).1 (armDemo_ops _ _).2
  refine ⟨s', h1, ?_⟩
  have e1 : val (rd (armDemo 3 5).mem 64 (n64 bnR)) = 3 := by rw [n64_bnR]; decide +kernel
  have e2 : val (rd (armDemo 3 5).mem 128 (n64 bnR)) = 5 := by rw [n64_bnR]; decide +kernel
  have := h3 (by show val (rd _ 64 _) < _; rw [e1]; decide +kernel) (by show val (rd _ 128 _) < _; rw [e2]; decide +kernel)
  refine this.trans ?_
  show ((val (rd _ 64 _) : ℤ) - val (rd _ 128 _)) % _ = _
  rw [e1, e2]
  decide +kernel

/-- `-128 - 5` with the short operand `-128` and the long operand 5 comes out as `2q - 133`, which is not below `q`. -/
example : ∃ s', run (Arm.rawNegLS (n64 bnR)) (armDemo 5 0) = some s' ∧ bnR ≤ val (rd s'.mem 192 (n64 bnR)) := by
  have e1 : val (rd (armDemo 5 0).mem ((armDemo 5 0).reg 1) (n64 bnR)) = 5 := by
    show val (rd _ 64 _) = _
    rw [n64_bnR]; decide +kernel
  have e2 : ((armDemo 5 0).reg 2).toNat = 128 := by decide
  obtain ⟨s', h1, -, h3⟩ := C69_negLS_violation (armDemo_ready 5 0) (by rw [n64_bnR]; decide) (armDemo_ops _ _).1
    (by rw [e1]; decide +kernel) (by rw [e2]; decide +kernel) (by rw [e1, e2]; decide +kernel) (by rw [e1]; omega)
  exact ⟨s', h1, h3 (by rw [e1, e2, n64_bnR]; decide +kernel)⟩

/-- … and comes out right when the sum is above `q`. -/
example : ∃ s', run (Arm.rawNegLS (n64 bnR)) (armDemo (bnR - 1) 0) = some s' ∧ (val (rd s'.mem 192 (n64 bnR)) : ℤ) = bnR - 127 := by
  have e1 : val (rd (armDemo (bnR - 1) 0).mem ((armDemo (bnR - 1) 0).reg 1) (n64 bnR)) = bnR - 1 := by
    show val (rd _ 64 _) = _
    rw [n64_bnR]; decide +kernel
  have e2 : ((armDemo (bnR - 1) 0).reg 2).toNat = 128 := by decide
  obtain ⟨s', h1, -, -, h4⟩ := C69_negLS_partial (armDemo_ready (bnR - 1) 0) (armDemo_ops _ _).1
  refine ⟨s', h1, (h4 (by rw [n64_bnR]; decide) (by rw [e1]; decide +kernel) (by rw [e2]; decide +kernel) (by rw [e1, e2]; decide +kernel)).trans ?_⟩
  rw [e1, e2]
  decide +kernel

theorem armDemo_apart (x y : Nat) : ArmApart (n64 bnR) ((armDemo x y).sym .q) ((armDemo x y).reg 0) ∧
    ArmApart (n64 bnR) ((armDemo x y).reg 1) ((armDemo x y).reg 0) ∧ ArmApart (n64 bnR) ((armDemo x y).reg 2) ((armDemo x y).reg 0) := by
  rw [n64_bnR]
  have h : ∀ i j : Fin 4, cell 0 i ≠ cell 192 j ∧ cell 64 i ≠ cell 192 j ∧ cell 128 i ≠ cell 192 j := by decide +kernel
  exact ⟨fun i j hi hj _ => (h ⟨i, hi⟩ ⟨j, hj⟩).1, fun i j hi hj _ => (h ⟨i, hi⟩ ⟨j, hj⟩).2.1, fun i j hi hj _ => (h ⟨i, hi⟩ ⟨j, hj⟩).2.2⟩

example : ∃ s', run (Arm.rawNeg (n64 bnR)) (armDemo 3 0) = some s' ∧ (val (rd s'.mem 192 (n64 bnR)) : ℤ) = bnR - 3 := by
  obtain ⟨s', h1, -, h3⟩ := C69_neg (armDemo_ready 3 0) (armDemo_ops _ _).1 (armDemo_apart _ _).1
  refine ⟨s', h1, ?_⟩
  have e1 : val (rd (armDemo 3 0).mem ((armDemo 3 0).reg 1) (n64 bnR)) = 3 := by
    show val (rd _ 64 _) = _
    rw [n64_bnR]; decide +kernel
  refine (h3 (by rw [e1]; decide +kernel)).trans ?_
  rw [e1]
  decide +kernel

example : ∃ s', run (Arm.rawAdd (n64 bnR) true) (armDemo 3 0) = some s' :=
  (C69_addLS (armDemo_ready 3 0) (armDemo_ops _ _).1).imp fun _ h => h.1
example : ∃ s', run (Arm.rawSub (n64 bnR) .LS) (armDemo 3 0) = some s' :=
  (C69_subLS (armDemo_ready 3 0) (armDemo_ops _ _).1).imp fun _ h => h.1
example : ∃ s', run (Arm.rawSub (n64 bnR) .SL) (armDemo 3 0) = some s' :=
  (C69_subSL (armDemo_ready 3 0) (armDemo_ops _ _).2).imp fun _ h => h.1
example : ∃ s', run (Arm.rawSubRegular (n64 bnR)) (armDemo 3 5) = some s' :=
  (C69_subRegular (n64_pos bnR) (armDemo_ready 3 5).width (armDemo_ready 3 5).out (armDemo_ops _ _).1 (armDemo_ops _ _).2
    (armDemo_apart _ _).2.1 (armDemo_apart _ _).2.2).imp fun _ h => h.1
example : ∃ s', run (Arm.rawCopy (n64 bnR)) (armDemo 3 5) = some s' :=
  (C69_copy (n64_pos bnR) (armDemo_ready 3 5).width (armDemo_ready 3 5).out (armDemo_apart _ _).2.1).imp fun _ h => h.1
example : ∃ s', run (Arm.rawCopyS2L (n64 bnR)) (armDemo 3 5) = some s' :=
  (C69_copyS2L (armDemo_ready 3 5) (armDemo_apart _ _).1).imp fun _ h => h.1
example : ∃ s', run (Arm.rawSwap 4) (armDemo 3 5) = some s' ∧ rd s'.mem 192 4 = rd (armDemo 3 5).mem 64 4 := by
  have h : ∀ i j : Fin 4, cell 192 i ≠ cell 64 j := by decide +kernel
  obtain ⟨s', h1, h2, -⟩ := C69_swap (n := 4) (s := armDemo 3 5) (by decide) (by decide) (fun i j hi hj => h ⟨i, hi⟩ ⟨j, hj⟩)
  exact ⟨s', h1, h2⟩
example : ∃ s', run (Arm.rawBinOp (n64 bnR) .and) (armDemo 3 5) = some s' :=
  ((C69_bits (by decide +kernel) (armDemo_ready 3 5) (armDemo_ops _ _).1).1 (armDemo_ops _ _).2).1.imp fun _ h => h.1

/-- Two different arrays of seven limbs, at 192 and 64, that `rawIsEq` calls equal. -/
example : ∃ s', run (Arm.rawIsEq 7) (armDemo 5 0) = some s' ∧ s'.reg 0 = 1 :=
  C69_isEq_violation (by decide +kernel) (by decide +kernel) (by decide +kernel)
example : rd (armDemo 5 0).mem 192 7 ≠ rd (armDemo 5 0).mem 64 7 := by decide +kernel

end FF.Props
