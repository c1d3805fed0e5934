import Verif.ArmImpl
import Verif.Props.Program
import Verif.Props.Arm
import Verif.Props.ArmMont
import Verif.Props.ArmShift

/-!
# Property C76: the tagged library on the ARM64 raw routines

`Over.Fr_op q (Arm.impl q)` is the C++ function of `fr_generic.cpp.ejs` with every raw routine replaced by a run of the text the ARM64
generator prints.  The theorems are those of C06–C20.  `hw` says that an element which is both result and operand has its `N64` limbs,
which every C element has.
-/

namespace FF.Props

open FF FF.Arm
open FF.X86 (cell rd rd_length)

variable {q : Nat} {m : Mem} {r a b p : Nat} {x y z : ZMod q} {u : Elem}

/-! ## The entries stand for every call

`Arm.impl` runs each routine with its operands and its result in three disjoint arrays.  The same limbs come out for every other
placement of the arrays, in place included. -/

/-- C76: two operand arrays. -/
theorem C76_placement {s : State} (hq : q % 2 = 1) (h : ArmReady q s) (ha : ArmClear s (s.reg 1) (n64 q)) (hb : ArmClear s (s.reg 2) (n64 q)) :
    let A := rd s.mem (s.reg 1) (n64 q)
    let B := rd s.mem (s.reg 2) (n64 q)
    (∃ s', Arm.run (Arm.rawAdd (n64 q) false) s = some s' ∧ ArmReturns (n64 q) s s' ((Arm.impl q).add A B)) ∧
    (∃ s', Arm.run (Arm.rawSub (n64 q) .LL) s = some s' ∧ ArmReturns (n64 q) s s' ((Arm.impl q).sub A B)) ∧
    (val B < q → ∃ s', Arm.run (Arm.rawMMul (n64 q) (canOpt q)) s = some s' ∧ ArmReturns (n64 q) s s' ((Arm.impl q).mmul A B)) ∧
    (∃ s', Arm.run (Arm.rawBinOp (n64 q) .and) s = some s' ∧ ArmReturns (n64 q) s s' ((Arm.impl q).and A B)) ∧
    (∃ s', Arm.run (Arm.rawBinOp (n64 q) .orr) s = some s' ∧ ArmReturns (n64 q) s s' ((Arm.impl q).or A B)) ∧
    (∃ s', Arm.run (Arm.rawBinOp (n64 q) .eor) s = some s' ∧ ArmReturns (n64 q) s s' ((Arm.impl q).xor A B)) ∧
    (ArmApart (n64 q) (s.reg 1) (s.reg 0) → ArmApart (n64 q) (s.reg 2) (s.reg 0) →
      ∃ s', Arm.run (Arm.rawSubRegular (n64 q)) s = some s' ∧ ArmReturns (n64 q) s s' ((Arm.impl q).subRegular A B)) := by
  intro A B
  have hI := impl_agree hq h.width
  have la : A.length = n64 q := rd_length ..
  have lb : B.length = n64 q := rd_length ..
  rw [hI.add la lb, hI.sub la lb, hI.and la lb, hI.or la lb, hI.xor la lb, hI.subRegular la lb]
  refine ⟨?_, ?_, fun hv => ?_, ?_, ?_, ?_, fun h1 h2 => ?_⟩
  · obtain ⟨s', k1, k2, -⟩ := C69_add h ha hb; exact ⟨s', k1, k2⟩
  · obtain ⟨s', k1, k2, -⟩ := C69_sub h ha hb; exact ⟨s', k1, k2⟩
  · rw [hI.mmul la lb hv]
    obtain ⟨s', k1, k2, -⟩ := C70_mmul hq h id ha hb hv; exact ⟨s', k1, k2⟩
  · obtain ⟨s', k1, k2⟩ := rawBinOp_run (o := .and) (by simp) h.ctx ha (fun _ => hb); exact ⟨s', k1, .of k2⟩
  · obtain ⟨s', k1, k2⟩ := rawBinOp_run (o := .orr) (by simp) h.ctx ha (fun _ => hb); exact ⟨s', k1, .of k2⟩
  · obtain ⟨s', k1, k2⟩ := rawBinOp_run (o := .eor) (by simp) h.ctx ha (fun _ => hb); exact ⟨s', k1, .of k2⟩
  · obtain ⟨s', k1, k2, -⟩ := C69_subRegular (n64_pos q) h.width h.out ha hb h1 h2; exact ⟨s', k1, k2⟩

/-- C76: one operand array, in the first operand register, and possibly a machine word in the second. -/
theorem C76_placement1 {s : State} (hq : q % 2 = 1) (h : ArmReady q s) (ha : ArmClear s (s.reg 1) (n64 q)) :
    let A := rd s.mem (s.reg 1) (n64 q)
    (∃ s', Arm.run (Arm.rawAdd (n64 q) true) s = some s' ∧ ArmReturns (n64 q) s s' ((Arm.impl q).addLS A (s.reg 2))) ∧
    (∃ s', Arm.run (Arm.rawSub (n64 q) .LS) s = some s' ∧ ArmReturns (n64 q) s s' ((Arm.impl q).subLS A (s.reg 2))) ∧
    (∃ s', Arm.run (Arm.rawNegLS (n64 q)) s = some s' ∧ ArmReturns (n64 q) s s' ((Arm.impl q).negLS A (s.reg 2))) ∧
    (val A < q → ∃ s', Arm.run (Arm.rawMul1 (n64 q) true (canOpt q)) s = some s' ∧ ArmReturns (n64 q) s s' ((Arm.impl q).mmul1 A (s.reg 2))) ∧
    (∃ s', Arm.run (Arm.rawMul1 (n64 q) false (canOpt q)) s = some s' ∧ ArmReturns (n64 q) s s' ((Arm.impl q).fromMontgomery A)) ∧
    (∃ s', Arm.run (Arm.rawBinOp (n64 q) .mvn) s = some s' ∧ ArmReturns (n64 q) s s' ((Arm.impl q).not A)) ∧
    ((s.reg 2).toNat < 64 * n64 q → ∃ s', Arm.run (Arm.rawShr (n64 q)) s = some s' ∧ ArmReturns (n64 q) s s' ((Arm.impl q).shr A (s.reg 2))) ∧
    (n64 q ≠ 1 → (s.reg 2).toNat < 64 * n64 q →
      ∃ s', Arm.run (Arm.rawShl (n64 q)) s = some s' ∧ ArmReturns (n64 q) s s' ((Arm.impl q).shl A (s.reg 2))) ∧
    (ArmApart (n64 q) (s.sym .q) (s.reg 0) → ∃ s', Arm.run (Arm.rawNeg (n64 q)) s = some s' ∧ ArmReturns (n64 q) s s' ((Arm.impl q).neg A)) ∧
    (ArmApart (n64 q) (s.reg 1) (s.reg 0) → ∃ s', Arm.run (Arm.rawCopy (n64 q)) s = some s' ∧ ArmReturns (n64 q) s s' ((Arm.impl q).copy A)) := by
  intro A
  have hI := impl_agree hq h.width
  have la : A.length = n64 q := rd_length ..
  rw [hI.addLS _ la, hI.subLS _ la, impl_negLS h.width la, hI.fromMontgomery la, hI.not la, hI.neg la, hI.copy la]
  refine ⟨?_, ?_, ?_, fun hv => ?_, ?_, ?_, fun hc => ?_, fun h1 hc => ?_, fun h1 => ?_, fun h1 => ?_⟩
  · obtain ⟨s', k1, k2, -⟩ := C69_addLS h ha; exact ⟨s', k1, k2⟩
  · obtain ⟨s', k1, k2, -⟩ := C69_subLS h ha; exact ⟨s', k1, k2⟩
  · obtain ⟨s', k1, k2⟩ := rawNegLS_run h.ctx ha; exact ⟨s', k1, .of k2⟩
  · rw [hI.mmul1 _ la hv]
    obtain ⟨s', k1, k2, -⟩ := C70_mmul1 hq h id ha hv; exact ⟨s', k1, k2⟩
  · obtain ⟨s', k1, k2, -⟩ := C70_fromMontgomery hq h id ha; exact ⟨s', k1, k2⟩
  · obtain ⟨s', k1, k2⟩ := rawBinOp_run (o := .mvn) (by simp) h.ctx ha (by simp); exact ⟨s', k1, .of k2⟩
  · rw [hI.shr la hc]
    obtain ⟨s', k1, k2, -⟩ := C71_shr h ha hc; exact ⟨s', k1, k2⟩
  · rw [hI.shl h1 la hc]
    obtain ⟨s', k1, k2⟩ := rawShl_run h.ctx ha h1 hc; exact ⟨s', k1, .of k2⟩
  · obtain ⟨s', k1, k2, -⟩ := C69_neg h ha h1; exact ⟨s', k1, k2⟩
  · obtain ⟨s', k1, k2⟩ := C69_copy (n64_pos q) h.width h.out h1; exact ⟨s', k1, k2⟩

/-- C76: a machine word in the first operand register, and possibly an array in the second. -/
theorem C76_placement2 {s : State} (hq : q % 2 = 1) (h : ArmReady q s) :
    (ArmClear s (s.reg 2) (n64 q) → ∃ s', Arm.run (Arm.rawSub (n64 q) .SL) s = some s' ∧
      ArmReturns (n64 q) s s' ((Arm.impl q).subSL (s.reg 1) (rd s.mem (s.reg 2) (n64 q)))) ∧
    (ArmApart (n64 q) (s.sym .q) (s.reg 0) →
      ∃ s', Arm.run (Arm.rawCopyS2L (n64 q)) s = some s' ∧ ArmReturns (n64 q) s s' ((Arm.impl q).copyS2L (s.reg 1))) := by
  have hI := impl_agree hq h.width
  rw [hI.subSL _ (rd_length ..), hI.copyS2L]
  refine ⟨fun hb => ?_, fun ht => ?_⟩
  · obtain ⟨s', k1, k2, -⟩ := C69_subSL h hb; exact ⟨s', k1, k2⟩
  · obtain ⟨s', k1, k2, -⟩ := C69_copyS2L h ht; exact ⟨s', k1, k2⟩

/-- C76: the two routines that answer a C `int`, from arrays anywhere. -/
theorem C76_placement3 {s : State} (hq : q % 2 = 1) (hn : n64 q ≤ 12) :
    (∃ s', Arm.run (Arm.rawIsZero (n64 q)) s = some s' ∧ ArmAnswers s s' ∧
      (((s'.reg 0).setWidth 32).toInt ≠ 0 ↔ (Arm.impl q).isZero (rd s.mem (s.reg 0) (n64 q)) = true)) ∧
    (∃ s', Arm.run (Arm.rawCmp (n64 q)) s = some s' ∧ ArmAnswers s s' ∧
      (((s'.reg 0).setWidth 32).toInt < 0 ↔ (Arm.impl q).cmp (rd s.mem (s.reg 0) (n64 q)) (rd s.mem (s.reg 1) (n64 q)) = .lt) ∧
      (((s'.reg 0).setWidth 32).toInt = 0 ↔ (Arm.impl q).cmp (rd s.mem (s.reg 0) (n64 q)) (rd s.mem (s.reg 1) (n64 q)) = .eq)) := by
  have hI := impl_agree hq hn
  rw [hI.isZero (rd_length ..), hI.cmp (rd_length ..) (rd_length ..)]
  constructor
  · obtain ⟨s', k1, k2⟩ := rawIsZero_run (n64_pos q) hn s
    refine ⟨s', k1, ⟨k2.mem, k2.saved, k2.sp⟩, ?_⟩
    by_cases h : FF.rawIsZero (rd s.mem (s.reg 0) (n64 q)) = true
    · simp [h, k2.res.1 h]
    · simp [h, k2.res.2 h]
  · obtain ⟨s', k1, k2⟩ := rawCmp_run (n64_pos q) hn s
    refine ⟨s', k1, ⟨k2.mem, k2.saved, k2.sp⟩, ?_⟩
    have k3 := k2.res
    generalize ((s'.reg 0).setWidth 32).toInt = c at *
    cases h : FF.rawCmp (rd s.mem (s.reg 0) (n64 q)) (rd s.mem (s.reg 1) (n64 q)) <;> rw [h] at k3 <;> simp only at k3 <;>
      constructor <;> constructor <;> intro h' <;> first | rfl | omega | exact absurd h' (by simp)

/-- The machine of `Arm.impl` meets the hypotheses. -/
theorem machine_ready {X Y : Limbs} {r1 r2 : BitVec 64} (hn : n64 q ≤ 12) : ArmReady q (Arm.machine q X Y 512 r1 r2) :=
  have c := machine_ctx (x := X) (y := Y) (r0 := 512) (r1 := r1) (r2 := r2) hn (by decide)
  ⟨c.lim, c.tab, c.np, c.mask, c.dst, c.tabOff, c.npOff, c.maskOff⟩

/-- In place, with both operands in the result array: doubling. -/
example : ∃ s', Arm.run (Arm.rawAdd (n64 bnR) false) (Arm.machine bnR [] [] 512 512 512) = some s' ∧
    ArmReturns (n64 bnR) (Arm.machine bnR [] [] 512 512 512) s'
      ((Arm.impl bnR).add (rd (Arm.machine bnR [] [] 512 512 512).mem 512 (n64 bnR)) (rd (Arm.machine bnR [] [] 512 512 512).mem 512 (n64 bnR))) :=
  have hn : n64 bnR ≤ 12 := by rw [n64_bnR]; decide
  (C76_placement bnR_modulus.odd (machine_ready hn) (machine_off (a := 512) hn (by decide)) (machine_off (a := 512) hn (by decide))).1

/-- C69 with eleven limbs: minus (zero plus one) modulo `2^703 + 1` (`C69_negLS_wide_violation`). -/
example : ∃ s', Arm.run (Arm.rawNegLS (n64 (2 ^ 703 + 1))) (Arm.machine (2 ^ 703 + 1) (List.replicate 11 0) [] 512 256 1) = some s' ∧
    (val (rd s'.mem 512 (n64 (2 ^ 703 + 1))) : ℤ) ≠ (-1) % ((2 ^ 703 + 1 : Nat) : ℤ) := by
  have hn : n64 (2 ^ 703 + 1) = 11 := by decide +kernel
  refine C69_negLS_wide_violation (machine_ready (by omega)) (by omega) (machine_off (a := 256) (by omega) (by decide)) ?_ ?_ (by decide)
  · rw [show rd _ ((Arm.machine (2 ^ 703 + 1) (List.replicate 11 0) [] 512 256 1).reg 1) _ = List.replicate 11 0 from
      machine_x (by rw [hn]; rfl) (by omega)]
    decide +kernel
  · show (1 : BitVec 64).toNat < _
    decide +kernel

/-! ## Arithmetic -/

/-- C76, addition. -/
theorem C76_add (hq : Modulus q) (hn : n64 q ≤ 12) (ha : Rep q (m a) x) (hb : Rep q (m b) y) (hal : ¬ ConvClash m r a b)
    (hw : r = a ∨ r = b → (m r).longVal.length = n64 q) :
    Rep q (Over.Fr_add q (Arm.impl q) u m r a b r) (x + y) ∧ ∀ p, p ≠ r → Over.Fr_add q (Arm.impl q) u m r a b p = m p := by
  rw [Over.Fr_add_eq hq (impl_agree hq.odd hn) ha.sized.1 hb.sized.1 (fun e => e ▸ hw (Or.inl e)) (fun e => e ▸ hw (Or.inr e))]
  exact C06_add hq ha hb hal

/-- The operands of a subtraction that go through `rawNegLS`: a negative short minus a long normal element. -/
def NegShort (m : Mem) (a b : Nat) : Prop :=
  (m a).long = false ∧ (m a).shortVal.toInt < 0 ∧ (m b).long = true ∧ (m b).mont = false

/-- The element `Fr_sub` leaves for these operands, in place or not. -/
theorem armSub_negShort (h : NegShort m a b) :
    (Over.Fr_sub q (Arm.impl q) u m r a b r).long = true ∧ (Over.Fr_sub q (Arm.impl q) u m r a b r).mont = false ∧
    (Over.Fr_sub q (Arm.impl q) u m r a b r).longVal = (Arm.impl q).negLS (m b).longVal (-(sx (m a).shortVal)) := by
  obtain ⟨h1, h2, h3, h4⟩ := h
  unfold Over.Fr_sub Over.sub_s1l2n
  simp only [h1, h3, h4, setTy_shortVal, setTy_longVal, Bool.false_eq_true, if_false, if_true, if_neg (Int.not_le.mpr h2)]
  simp [Mem.setLong, Mem.setTy, Mem.set]

/-- C76, partial: subtraction.  A negative short minus a long normal element is right when the modulus has at most ten limbs and the
subtrahend is above `q - |a|`; unlike the portable code, the result may then overwrite the subtrahend.  Missing: the other negative
shorts (`C76_sub_violation`). -/
theorem C76_sub_partial (hq : Modulus q) (hn : n64 q ≤ 12) (ha : Rep q (m a) x) (hb : Rep q (m b) y) (hal : ¬ ConvClash m r a b)
    (hw : r = a ∨ r = b → (m r).longVal.length = n64 q)
    (hneg : NegShort m a b → n64 q ≤ 10 ∧ (q : ℤ) < y.val - (m a).shortVal.toInt) :
    Rep q (Over.Fr_sub q (Arm.impl q) u m r a b r) (x - y) ∧ ∀ p, p ≠ r → Over.Fr_sub q (Arm.impl q) u m r a b p = m p := by
  have hI := impl_agree hq.odd hn
  have := hq.ne
  by_cases hN : NegShort m a b
  · obtain ⟨h1, h2, h3, h4⟩ := hN
    obtain ⟨h10, hlt⟩ := hneg ⟨h1, h2, h3, h4⟩
    obtain ⟨e1, e2, e3⟩ := armSub_negShort (r := r) (u := u) (q := q) ⟨h1, h2, h3, h4⟩
    obtain ⟨l1, l2, l3⟩ := hb.getLong h3 h4
    have hv : val (m b).longVal = y.val := by rw [← l3, ZMod.val_natCast, Nat.mod_eq_of_lt l2]
    have hs := neg_sx_toNat_of_neg h2
    refine ⟨Rep.long e1 e2 ?_, fun p hp => ?_⟩
    · rw [e3, hI.negLS h10 l1 l2 (neg_sx_lt hq h2) (by omega)]
      have k := C07_sub_distinct (u := u) (r := a + b + 1) hq ha hb (by omega) (by omega)
      unfold Fr_sub sub_s1l2n at k
      simp only [h1, h3, h4, setTy_shortVal, setTy_longVal, Bool.false_eq_true, if_false, if_true, if_neg (Int.not_le.mpr h2)] at k
      rw [show (a + b + 1 == b) = false from beq_eq_false_iff_ne.mpr (by omega)] at k
      have := k.getLong (by simp [Mem.setLong, Mem.setTy, Mem.set]) (by simp [Mem.setLong, Mem.setTy, Mem.set])
      simpa [Mem.setLong, Mem.setTy, Mem.set] using this
    · unfold Over.Fr_sub Over.sub_s1l2n
      simp only [h1, h3, h4, setTy_shortVal, Bool.false_eq_true, if_false, if_true, if_neg (Int.not_le.mpr h2)]
      simp [Mem.setLong, Mem.setTy, Mem.set, hp]
  · rw [Over.Fr_sub_eq hq hI ha.sized.1 hb.sized.1 (fun e => e ▸ hw (Or.inl e)) (fun e => e ▸ hw (Or.inr e))
      (fun h1 h3 h4 h2 => absurd ⟨h1, h2, h3, h4⟩ hN)]
    exact C07_sub hq ha hb hal (fun h => hN h.2)

/-- C76, violated: up to ten limbs, a negative short minus a long normal element not above `q - |a|` does not give the difference,
wherever the result is stored. -/
theorem C76_sub_violation (hq : Modulus q) (hn : n64 q ≤ 10) (ha : Rep q (m a) x) (hb : Rep q (m b) y) (h : NegShort m a b)
    (hle : (y.val : ℤ) - (m a).shortVal.toInt ≤ q) : ¬ Rep q (Over.Fr_sub q (Arm.impl q) u m r a b r) (x - y) := by
  obtain ⟨e1, e2, e3⟩ := armSub_negShort (r := r) (u := u) (q := q) h
  intro k
  obtain ⟨k1, k2, k3⟩ := k.getLong e1 e2
  obtain ⟨h1, h2, h3, h4⟩ := h
  obtain ⟨l1, l2, l3⟩ := hb.getLong h3 h4
  have := hq.ne
  have hv : val (m b).longVal = y.val := by rw [← l3, ZMod.val_natCast, Nat.mod_eq_of_lt l2]
  have hs := neg_sx_toNat_of_neg h2
  have hlt := neg_sx_lt hq h2
  rw [e3, impl_negLS (by omega) l1] at k1 k2 k3
  obtain ⟨f1, f2, f3⟩ := negLSArm_val l1 l2 hlt
  rw [negDiff_small hn f2, f1, hv] at f3
  rw [hv] at l2
  have hx := ha.getShort h1
  have hc : ((val (negLSArm q (m b).longVal (-(sx (m a).shortVal))) : ℤ) : ZMod q) = (((m a).shortVal.toInt - y.val : ℤ) : ZMod q) := by
    push_cast
    rw [k3, hx, ZMod.natCast_zmod_val]
  rw [ZMod.intCast_eq_intCast_iff_dvd_sub] at hc
  have hW := q_lt_Wn q
  generalize val (negLSArm q (m b).longVal (-(sx (m a).shortVal))) = v at *
  generalize (-(sx (m a).shortVal)).toNat = w at *
  generalize (m a).shortVal.toInt = t at *
  generalize W ^ n64 q = M at *
  obtain ⟨c, hc⟩ := hc
  generalize y.val = y at *
  have hnn : 0 < w := by omega
  rcases Nat.lt_or_ge (q - w + q - y) M with hlt | hge
  · rw [Nat.mod_eq_of_lt hlt] at f3
    omega
  · rw [Nat.mod_eq_sub_mod hge, Nat.mod_eq_of_lt (by omega)] at f3
    have hc' : (q : ℤ) * c = M - 2 * q := by rw [← hc]; omega
    rcases le_or_gt 0 c with h0 | h0
    · have := mul_nonneg (Int.natCast_nonneg q) h0
      omega
    · have := mul_le_mul_of_nonneg_left (show c ≤ -1 by omega) (Int.natCast_nonneg q)
      omega

/-- `-128 - 5` is stored as `2q - 133`, `C76_sub_violation` on the BN254 scalar field, in place. -/
example : ¬ Rep bnR (Over.Fr_sub bnR (Arm.impl bnR) (sS 9) (mem4 (sS (-128)) (sL 5) (sS 0) (sS 0)) 1 0 1 1)
    (((bnR - 128 : Nat) : ZMod bnR) - ((5 : Nat) : ZMod bnR)) := by
  refine C76_sub_violation bnR_modulus (by rw [n64_bnR]; decide) (Rep_iff.mpr (by decide +kernel)) (Rep_iff.mpr (by decide +kernel)) ?_ ?_
  · exact ⟨rfl, by decide, rfl, rfl⟩
  · rw [ZMod.val_natCast]
    decide +kernel

/-- C76, multiplication. -/
theorem C76_mul (hq : Modulus q) (hn : n64 q ≤ 12) (ha : Rep q (m a) x) (hb : Rep q (m b) y) :
    Rep q (Over.Fr_mul q (Arm.impl q) m r a b r) (x * y) ∧ ∀ p, p ≠ r → Over.Fr_mul q (Arm.impl q) m r a b p = m p := by
  rw [Over.Fr_mul_eq hq (impl_agree hq.odd hn) ha.sized.1 ha.sized.2 hb.sized.1 hb.sized.2]
  exact C08_mul hq ha hb

/-- C76, squaring. -/
theorem C76_square (hq : Modulus q) (hn : n64 q ≤ 12) (ha : Rep q (m a) x) :
    Rep q (Over.Fr_square q (Arm.impl q) m r a r) (x * x) ∧ ∀ p, p ≠ r → Over.Fr_square q (Arm.impl q) m r a p = m p := by
  rw [Over.Fr_square_eq hq (impl_agree hq.odd hn) ha.sized.1 ha.sized.2]
  exact C08_square hq ha

/-- C76, negation. -/
theorem C76_neg (hq : Modulus q) (hn : n64 q ≤ 12) (ha : Rep q (m a) x) :
    Rep q (Over.Fr_neg q (Arm.impl q) m r a r) (-x) ∧ ∀ p, p ≠ r → Over.Fr_neg q (Arm.impl q) m r a p = m p := by
  rw [Over.Fr_neg_eq (impl_agree hq.odd hn) ha.sized.1]
  exact C09_neg hq ha

theorem bnR_width : n64 bnR ≤ 12 := by rw [n64_bnR]; decide

example : Rep bnR (Over.Fr_add bnR (Arm.impl bnR) (sS 9) sX 0 1 2 0) (((bnR - 5 : Nat) : ZMod bnR) + ((12345678901234567890 : Nat) : ZMod bnR)) :=
  (C76_add bnR_modulus bnR_width (Rep_iff.mpr (by decide +kernel)) (Rep_iff.mpr (by decide +kernel)) (by rintro (h | h) <;> cases h.1)
    (by rintro (h | h) <;> cases h)).1
/-- `-5 - (q - 3)`, one of the differences the ARM64 routine gets right, over the subtrahend. -/
example : Rep bnR (Over.Fr_sub bnR (Arm.impl bnR) (sS 9) sX 3 1 3 3) (((bnR - 5 : Nat) : ZMod bnR) - ((bnR - 3 : Nat) : ZMod bnR)) :=
  (C76_sub_partial bnR_modulus bnR_width (Rep_iff.mpr (by decide +kernel)) (Rep_iff.mpr (by decide +kernel))
    (by rintro (h | h)
        · cases h.1
        · exact absurd h.2.2.1 (by decide))
    (fun _ => by rw [n64_bnR]; decide) (fun _ => ⟨by rw [n64_bnR]; decide, by rw [ZMod.val_natCast]; decide +kernel⟩)).1
example : Rep bnR (Over.Fr_mul bnR (Arm.impl bnR) sX 1 1 3 1) (((bnR - 5 : Nat) : ZMod bnR) * ((bnR - 3 : Nat) : ZMod bnR)) :=
  (C76_mul bnR_modulus bnR_width (Rep_iff.mpr (by decide +kernel)) (Rep_iff.mpr (by decide +kernel))).1

/-! ## Predicates -/

/-- C76, equality. -/
theorem C76_eq (hq : Modulus q) (hn : n64 q ≤ 12) (ha : Rep q (m a) x) (hb : Rep q (m b) y) :
    Rep q (Over.Fr_eq q (Arm.impl q) u m r a b r) (if x = y then 1 else 0) ∧
    Rep q (Over.Fr_neq q (Arm.impl q) u m r a b r) (if x = y then 0 else 1) ∧
    (∀ p, p ≠ r → Over.Fr_eq q (Arm.impl q) u m r a b p = m p) ∧ ∀ p, p ≠ r → Over.Fr_neq q (Arm.impl q) u m r a b p = m p := by
  obtain ⟨-, -, -, -, e1, e2⟩ := Over.cmp_eqs (u := u) (r := r) hq (impl_agree hq.odd hn) ha.sized.1 hb.sized.1
  rw [e1, e2]
  exact C10_eq hq ha hb

/-- C76, the four orderings by signed representative. -/
theorem C76_order (hq : Modulus q) (hn : n64 q ≤ 12) (ha : Rep q (m a) x) (hb : Rep q (m b) y) :
    Rep q (Over.Fr_lt q (Arm.impl q) u m r a b r) (if sval x < sval y then 1 else 0) ∧
    Rep q (Over.Fr_gt q (Arm.impl q) u m r a b r) (if sval y < sval x then 1 else 0) ∧
    Rep q (Over.Fr_leq q (Arm.impl q) u m r a b r) (if sval x ≤ sval y then 1 else 0) ∧
    Rep q (Over.Fr_geq q (Arm.impl q) u m r a b r) (if sval y ≤ sval x then 1 else 0) ∧
    ∀ p, p ≠ r → Over.Fr_lt q (Arm.impl q) u m r a b p = m p ∧ Over.Fr_gt q (Arm.impl q) u m r a b p = m p ∧
      Over.Fr_leq q (Arm.impl q) u m r a b p = m p ∧ Over.Fr_geq q (Arm.impl q) u m r a b p = m p := by
  obtain ⟨e1, e2, e3, e4, -, -⟩ := Over.cmp_eqs (u := u) (r := r) hq (impl_agree hq.odd hn) ha.sized.1 hb.sized.1
  rw [e1, e2, e3, e4]
  obtain ⟨k1, k2, k3, k4⟩ := C11_order (u := u) (r := r) hq ha hb
  exact ⟨k1, k2, k3, k4, fun p h => ⟨storeBool_other h, storeBool_other h, storeBool_other h, storeBool_other h⟩⟩

/-- C76, truth value and logical operations. -/
theorem C76_logical (hq : Modulus q) (hn : n64 q ≤ 12) (ha : Rep q (m a) x) (hb : Rep q (m b) y) :
    Over.Fr_isTrue (Arm.impl q) (m a) = decide (x ≠ 0) ∧
    Rep q (Over.Fr_land (Arm.impl q) m r a b r) (if x ≠ 0 ∧ y ≠ 0 then 1 else 0) ∧
    Rep q (Over.Fr_lor (Arm.impl q) m r a b r) (if x ≠ 0 ∨ y ≠ 0 then 1 else 0) ∧
    Rep q (Over.Fr_lnot (Arm.impl q) m r a r) (if x = 0 then 1 else 0) ∧
    ∀ p, p ≠ r → Over.Fr_land (Arm.impl q) m r a b p = m p ∧ Over.Fr_lor (Arm.impl q) m r a b p = m p ∧
      Over.Fr_lnot (Arm.impl q) m r a p = m p := by
  have hI := impl_agree hq.odd hn
  rw [Over.isTrue_eq hI ha.sized.1, Over.Fr_land_eq hI ha.sized.1 hb.sized.1, Over.Fr_lor_eq hI ha.sized.1 hb.sized.1,
    Over.Fr_lnot_eq hI ha.sized.1]
  exact ⟨C12_isTrue hq ha, C12_logical hq ha hb⟩

example : Rep bnR (Over.Fr_lt bnR (Arm.impl bnR) (sS 9) sX 1 1 3 1)
    (if sval ((bnR - 5 : Nat) : ZMod bnR) < sval ((bnR - 3 : Nat) : ZMod bnR) then 1 else 0) :=
  (C76_order bnR_modulus bnR_width (Rep_iff.mpr (by decide +kernel)) (Rep_iff.mpr (by decide +kernel))).1

/-! ## Bitwise operations and shifts -/

/-- C76, bitwise operations. -/
theorem C76_bitwise (hq : Modulus q) (hn : n64 q ≤ 12) (ha : Rep q (m a) x) (hb : Rep q (m b) y)
    (h1 : r = a → BitOverwriteOK (m a) (m b)) (h2 : r = b → BitOverwriteOK (m b) (m a))
    (hw : r = a ∨ r = b → (m r).longVal.length = n64 q) :
    (Rep q (Over.Fr_band q (Arm.impl q) u m r a b r) ((x.val &&& y.val : Nat) : ZMod q) ∧
      ∀ p, p ≠ r → Over.Fr_band q (Arm.impl q) u m r a b p = m p) ∧
    (Rep q (Over.Fr_bor q (Arm.impl q) u m r a b r) ((x.val ||| y.val : Nat) : ZMod q) ∧
      ∀ p, p ≠ r → Over.Fr_bor q (Arm.impl q) u m r a b p = m p) ∧
    (Rep q (Over.Fr_bxor q (Arm.impl q) u m r a b r) ((x.val ^^^ y.val : Nat) : ZMod q) ∧
      ∀ p, p ≠ r → Over.Fr_bxor q (Arm.impl q) u m r a b p = m p) := by
  have hI := impl_agree hq.odd hn
  have w1 : r = a → (m a).longVal.length = n64 q := fun e => e ▸ hw (Or.inl e)
  have w2 : r = b → (m b).longVal.length = n64 q := fun e => e ▸ hw (Or.inr e)
  unfold Over.Fr_band Over.Fr_bor Over.Fr_bxor
  rw [Over.Fr_bitop_eq hq hI hI.and ha.sized.1 hb.sized.1 w1 w2, Over.Fr_bitop_eq hq hI hI.or ha.sized.1 hb.sized.1 w1 w2,
    Over.Fr_bitop_eq hq hI hI.xor ha.sized.1 hb.sized.1 w1 w2]
  exact ⟨C13_and hq ha hb h1 h2, C13_or hq ha hb h1 h2, C13_xor hq ha hb h1 h2⟩

/-- C76, complement. -/
theorem C76_not (hq : Modulus q) (hn : n64 q ≤ 12) (ha : Rep q (m a) x) (h1 : r = a → (m a).long = true ∧ (m a).mont = false) :
    Rep q (Over.Fr_bnot q (Arm.impl q) u m r a r) ((2 ^ bitLen q - 1 - x.val : Nat) : ZMod q) ∧
      ∀ p, p ≠ r → Over.Fr_bnot q (Arm.impl q) u m r a p = m p := by
  rw [Over.Fr_bnot_eq hq (impl_agree hq.odd hn) ha.sized.1 (fun e => ha.sized.1 (Or.inl (h1 e).1))]
  exact C13_not hq ha h1

/-- C76, partial: shifts, for every placement of the result; the portable code is undefined for some in-place shifts (C14).
Missing: moduli of one limb, whose left shifts are wrong (`C76_shl_one_violation`). -/
theorem C76_shift_partial (hq : Modulus q) (hn : n64 q ≤ 12) (hn1 : n64 q ≠ 1) (ha : Rep q (m a) x) (hb : Rep q (m b) y) :
    (Rep q (Over.Fr_shl q (Arm.impl q) u m r a b r) (shlSpec x y) ∧ ∀ p, p ≠ r → Over.Fr_shl q (Arm.impl q) u m r a b p = m p) ∧
    (Rep q (Over.Fr_shr q (Arm.impl q) u m r a b r) (shrSpec x y) ∧ ∀ p, p ≠ r → Over.Fr_shr q (Arm.impl q) u m r a b p = m p) :=
  ⟨⟨Over.Fr_shl_rep hq (impl_agree hq.odd hn) hn1 ha hb, fun _ h => Over.Fr_shl_other h⟩,
    ⟨Over.Fr_shr_rep hq (impl_agree hq.odd hn) hn1 ha hb, fun _ h => Over.Fr_shr_other h⟩⟩

/-- C76, violated: for a modulus of one limb, a long normal element shifted left by a short count so that the number fits 64 bits but is
not below the modulus, leaves an element that stands for nothing. -/
theorem C76_shl_one_violation (hn1 : n64 q = 1) (ha : Rep q (m a) x) (hl : (m a).long = true) (hm : (m a).mont = false)
    (hs : (m b).long = false) {c : Nat} (hc : (m b).shortVal.toInt = c) (hc0 : 0 < c) (hc1 : c < bitLen q)
    (hf : x.val * 2 ^ c < 2 ^ 64) (hb : q ≤ x.val * 2 ^ c) :
    ¬ ∃ z, Rep q (Over.Fr_shl q (Arm.impl q) u m r a b r) z := by
  obtain ⟨l1, l2, l3⟩ := ha.getLong hl hm
  have : NeZero q := ⟨by omega⟩
  have hv : val (m a).longVal = x.val := by rw [← l3, ZMod.val_natCast, Nat.mod_eq_of_lt l2]
  have hcw : (sx (m b).shortVal).toNat = c := by
    have := sx_toNat_of_nonneg (v := (m b).shortVal) (by omega)
    omega
  have hbl : c < 64 := by
    have := bitLen_le_n64 q
    omega
  have e : Over.Fr_shl q (Arm.impl q) u m r a b = (m.setTy r true false).setLong r ((Arm.impl q).shl (m a).longVal (sx (m b).shortVal)) := by
    unfold Over.Fr_shl Over.do_shl Over.stRawShl
    simp only [hs, hl, hm, sx_toInt, hc, setTy_longVal, hcw, Bool.false_eq_true, if_false, if_true, Bool.and_false]
    rw [if_neg (by omega), if_neg (by omega), if_neg (by omega), if_neg (by omega)]
  have e2 : (Arm.impl q).shl (m a).longVal (sx (m b).shortVal) = [limbAt (m a).longVal 0 <<< c] := by
    have hn : n64 q ≤ 12 := by omega
    obtain ⟨s', k1, k2⟩ := rawShl_one_run (s := Arm.machine q (m a).longVal [] 512 256 (sx (m b).shortVal))
      (machine_off (a := 512) (by decide) (by decide)) (by show (sx (m b).shortVal).toNat < 64; omega)
    refine call_of ⟨s', by rw [hn1]; exact k1, ?_⟩
    rw [hn1]
    rw [show (Arm.machine q (m a).longVal [] 512 256 (sx (m b).shortVal)).reg 2 = sx (m b).shortVal from rfl, hcw,
      show (Arm.machine q (m a).longVal [] 512 256 (sx (m b).shortVal)).mem
        (cell ((Arm.machine q (m a).longVal [] 512 256 (sx (m b).shortVal)).reg 1) 0) = limbAt (m a).longVal 0 from
        machine_at (a := 256) (k := 32) rfl rfl] at k2
    exact k2
  rintro ⟨z, hz⟩
  rw [e] at hz
  obtain ⟨-, k, -⟩ := hz.getLong (by simp [Mem.setLong, Mem.setTy, Mem.set]) (by simp [Mem.setLong, Mem.setTy, Mem.set])
  rw [show ((m.setTy r true false).setLong r ((Arm.impl q).shl (m a).longVal (sx (m b).shortVal)) r).longVal
    = (Arm.impl q).shl (m a).longVal (sx (m b).shortVal) by simp [Mem.setLong, Mem.setTy, Mem.set], e2] at k
  have e3 : (limbAt (m a).longVal 0).toNat = x.val := by
    rw [hn1] at l1
    obtain ⟨w, hw⟩ := List.length_eq_one_iff.mp l1
    rw [hw] at hv ⊢
    simpa [limbAt] using hv
  simp only [val_cons, val_nil, Nat.mul_zero, Nat.add_zero, BitVec.toNat_shiftLeft, Nat.shiftLeft_eq, e3, Nat.mod_eq_of_lt hf] at k
  omega

example : Rep bnR (Over.Fr_bxor bnR (Arm.impl bnR) (sS 9) sX 0 1 2 0)
    ((((bnR - 5 : Nat) : ZMod bnR).val ^^^ ((12345678901234567890 : Nat) : ZMod bnR).val : Nat) : ZMod bnR) :=
  (C76_bitwise bnR_modulus bnR_width (Rep_iff.mpr (by decide +kernel)) (Rep_iff.mpr (by decide +kernel)) (fun h => by cases h) (fun h => by cases h)
    (by rintro (h | h) <;> cases h)).2.2.1
/-- In place, by more than a word: undefined behaviour in the portable code. -/
example : Rep bnR (Over.Fr_shl bnR (Arm.impl bnR) (sS 9) (mem4 (sL 5) (sS 100) (sS 0) (sS 0)) 0 0 1 0)
    (shlSpec ((5 : Nat) : ZMod bnR) ((100 : Nat) : ZMod bnR)) :=
  (C76_shift_partial bnR_modulus bnR_width (by rw [n64_bnR]; decide) (Rep_iff.mpr (by decide +kernel)) (Rep_iff.mpr (by decide +kernel))).1.1
example : ¬ ∃ z, Rep gl (Over.Fr_shl gl (Arm.impl gl) (sS 9) (mem4 ⟨0, true, false, [0x7FFFFFFF80000001]⟩ (sS 1) (sS 0) (sS 0)) 2 0 1 2) z :=
  C76_shl_one_violation (x := ((0x7FFFFFFF80000001 : Nat) : ZMod gl)) (c := 1) (by decide +kernel) (Rep_iff.mpr (by decide +kernel)) rfl rfl rfl (by decide)
    (by decide) (by decide +kernel) (by rw [ZMod.val_natCast]; decide +kernel) (by rw [ZMod.val_natCast]; decide +kernel)

/-! ## Conversions -/

/-- C76, conversions: same residue, in the requested representation. -/
theorem C76_convert (hq : Modulus q) (hn : n64 q ≤ 12) (ha : Rep q (m a) x) :
    (Rep q (Over.Fr_toNormal q (Arm.impl q) m r a r) x ∧
      ¬ ((Over.Fr_toNormal q (Arm.impl q) m r a r).long = true ∧ (Over.Fr_toNormal q (Arm.impl q) m r a r).mont = true) ∧
      ∀ p, p ≠ r → Over.Fr_toNormal q (Arm.impl q) m r a p = m p) ∧
    (Rep q (Over.Fr_toLongNormal q (Arm.impl q) m r a r) x ∧ (Over.Fr_toLongNormal q (Arm.impl q) m r a r).long = true ∧
      (Over.Fr_toLongNormal q (Arm.impl q) m r a r).mont = false ∧ ∀ p, p ≠ r → Over.Fr_toLongNormal q (Arm.impl q) m r a p = m p) ∧
    (((m a).long = false → (m a).mont = false → (m r).shortVal = (m a).shortVal) →
      Rep q (Over.Fr_toMontgomery q (Arm.impl q) m r a r) x ∧ (Over.Fr_toMontgomery q (Arm.impl q) m r a r).mont = true ∧
      ∀ p, p ≠ r → Over.Fr_toMontgomery q (Arm.impl q) m r a p = m p) := by
  have hI := impl_agree hq.odd hn
  rw [Over.Fr_toNormal_eq hI ha.sized.1, Over.Fr_toLongNormal_eq hI ha.sized.1, Over.Fr_toMontgomery_eq hq hI ha.sized.1]
  exact ⟨C16_toNormal hq ha, C16_toLongNormal hq ha, C16_toMontgomery_partial hq ha⟩

/-- C76: conversion to a machine integer answers what the portable code answers (C17, with its error on wide moduli). -/
theorem C76_toInt_same (hq : Modulus q) (hn : n64 q ≤ 12) {e : Elem} (he : Rep q e x) :
    Over.Fr_toInt q (Arm.impl q) u e = Fr_toInt q u e ∧
    (-2147483648 ≤ sval x → sval x ≤ 2147483647 → ∃ v, Over.Fr_toInt q (Arm.impl q) u e = some v ∧ v.toInt = sval x) := by
  rw [Over.Fr_toInt_eq hq (impl_agree hq.odd hn) he.sized.1]
  exact ⟨rfl, C17_toInt_fits_partial hq he⟩

example : Rep bnR (Over.Fr_toMontgomery bnR (Arm.impl bnR) sX 1 1 1) ((bnR - 5 : Nat) : ZMod bnR) :=
  ((C76_convert bnR_modulus bnR_width (Rep_iff.mpr (by decide +kernel))).2.2 (fun _ _ => rfl)).1

/-! ## Programs -/

/-- Running one call on the ARM64 build. -/
def Instr.execArm (q : Nat) (u : Elem) (i : Instr) (m : Mem) : Mem :=
  match i.op with
  | .copy => Fr_copy m i.r i.a
  | .toNormal => Over.Fr_toNormal q (Arm.impl q) m i.r i.a
  | .toLongNormal => Over.Fr_toLongNormal q (Arm.impl q) m i.r i.a
  | .toMontgomery => Over.Fr_toMontgomery q (Arm.impl q) m i.r i.a
  | .add => Over.Fr_add q (Arm.impl q) u m i.r i.a i.b
  | .sub => Over.Fr_sub q (Arm.impl q) u m i.r i.a i.b
  | .mul => Over.Fr_mul q (Arm.impl q) m i.r i.a i.b
  | .square => Over.Fr_square q (Arm.impl q) m i.r i.a
  | .neg => Over.Fr_neg q (Arm.impl q) m i.r i.a
  | .eq => Over.Fr_eq q (Arm.impl q) u m i.r i.a i.b
  | .neq => Over.Fr_neq q (Arm.impl q) u m i.r i.a i.b
  | .lt => Over.Fr_lt q (Arm.impl q) u m i.r i.a i.b
  | .gt => Over.Fr_gt q (Arm.impl q) u m i.r i.a i.b
  | .leq => Over.Fr_leq q (Arm.impl q) u m i.r i.a i.b
  | .geq => Over.Fr_geq q (Arm.impl q) u m i.r i.a i.b
  | .land => Over.Fr_land (Arm.impl q) m i.r i.a i.b
  | .lor => Over.Fr_lor (Arm.impl q) m i.r i.a i.b
  | .lnot => Over.Fr_lnot (Arm.impl q) m i.r i.a
  | .band => Over.Fr_band q (Arm.impl q) u m i.r i.a i.b
  | .bor => Over.Fr_bor q (Arm.impl q) u m i.r i.a i.b
  | .bxor => Over.Fr_bxor q (Arm.impl q) u m i.r i.a i.b
  | .bnot => Over.Fr_bnot q (Arm.impl q) u m i.r i.a
  | .shl => Over.Fr_shl q (Arm.impl q) u m i.r i.a i.b
  | .shr => Over.Fr_shr q (Arm.impl q) u m i.r i.a i.b

/-- Running a program on the ARM64 build. -/
def runArm (q : Nat) (u : Elem) (prog : List Instr) (m : Mem) : Mem := prog.foldl (fun m i => i.execArm q u m) m

/-- Placement on ARM64: as for the portable code (`Instr.placed`), with shifts free. -/
def Instr.placedArm (i : Instr) : Prop :=
  match i.op with
  | .add | .sub | .band | .bor | .bxor => i.r ≠ i.a ∧ i.r ≠ i.b
  | .bnot => i.r ≠ i.a
  | .toMontgomery => i.r = i.a
  | _ => True

/-- No subtraction of the program meets a negative short first and a long normal element second. -/
def NoNegShort (q : Nat) (u : Elem) (prog : List Instr) (m : Mem) : Prop :=
  ∀ pre i post, prog = pre ++ i :: post → i.op = .sub → ¬ NegShort (runArm q u pre m) i.a i.b

theorem execArm_refines (hq : Modulus q) (hn : n64 q ≤ 12) (u : Elem) (i : Instr) (hi : i.placedArm)
    (h1 : i.op = .shl ∨ i.op = .shr → n64 q ≠ 1) (m : Mem) (σ : Nat → ZMod q) (hs : i.op = .sub → ¬ NegShort m i.a i.b)
    (h : ∀ p, Rep q (m p) (σ p)) :
    Rep q (i.execArm q u m i.r) (i.op.den (σ i.a) (σ i.b)) ∧ ∀ p, p ≠ i.r → i.execArm q u m p = m p := by
  obtain ⟨op, r, a, b⟩ := i
  have ha := h a
  have hb := h b
  cases op <;> simp only [Instr.placedArm] at hi <;> simp only [Instr.execArm, Op.den]
  case copy => exact ⟨by simpa [Fr_copy] using ha, fun p hp => set_other _ _ hp⟩
  case toNormal => exact ⟨(C76_convert hq hn ha).1.1, (C76_convert hq hn ha).1.2.2⟩
  case toLongNormal => exact ⟨(C76_convert hq hn ha).2.1.1, (C76_convert hq hn ha).2.1.2.2.2⟩
  case toMontgomery =>
    subst hi
    exact ⟨((C76_convert hq hn ha).2.2 (fun _ _ => rfl)).1, ((C76_convert hq hn ha).2.2 (fun _ _ => rfl)).2.2⟩
  case add =>
    exact C76_add hq hn ha hb (by rintro (h | h); exact hi.1 h.1; exact hi.2 h.1) (by rintro (e | e); exact absurd e hi.1; exact absurd e hi.2)
  case sub =>
    exact C76_sub_partial hq hn ha hb (by rintro (h | h); exact hi.1 h.1; exact hi.2 h.1)
      (by rintro (e | e); exact absurd e hi.1; exact absurd e hi.2) (fun hN => absurd hN (hs rfl))
  case mul => exact C76_mul hq hn ha hb
  case square => exact C76_square hq hn ha
  case neg => exact C76_neg hq hn ha
  case eq => exact ⟨(C76_eq hq hn ha hb).1, (C76_eq hq hn ha hb).2.2.1⟩
  case neq => exact ⟨(C76_eq hq hn ha hb).2.1, (C76_eq hq hn ha hb).2.2.2⟩
  case lt => exact ⟨(C76_order hq hn ha hb).1, fun p hp => ((C76_order hq hn ha hb).2.2.2.2 p hp).1⟩
  case gt => exact ⟨(C76_order hq hn ha hb).2.1, fun p hp => ((C76_order hq hn ha hb).2.2.2.2 p hp).2.1⟩
  case leq => exact ⟨(C76_order hq hn ha hb).2.2.1, fun p hp => ((C76_order hq hn ha hb).2.2.2.2 p hp).2.2.1⟩
  case geq => exact ⟨(C76_order hq hn ha hb).2.2.2.1, fun p hp => ((C76_order hq hn ha hb).2.2.2.2 p hp).2.2.2⟩
  case land => exact ⟨(C76_logical hq hn ha hb).2.1, fun p hp => ((C76_logical hq hn ha hb).2.2.2.2 p hp).1⟩
  case lor => exact ⟨(C76_logical hq hn ha hb).2.2.1, fun p hp => ((C76_logical hq hn ha hb).2.2.2.2 p hp).2.1⟩
  case lnot => exact ⟨(C76_logical hq hn ha hb).2.2.2.1, fun p hp => ((C76_logical hq hn ha hb).2.2.2.2 p hp).2.2⟩
  case band =>
    exact (C76_bitwise hq hn ha hb (fun e => absurd e hi.1) (fun e => absurd e hi.2)
      (by rintro (e | e); exact absurd e hi.1; exact absurd e hi.2)).1
  case bor =>
    exact (C76_bitwise hq hn ha hb (fun e => absurd e hi.1) (fun e => absurd e hi.2)
      (by rintro (e | e); exact absurd e hi.1; exact absurd e hi.2)).2.1
  case bxor =>
    exact (C76_bitwise hq hn ha hb (fun e => absurd e hi.1) (fun e => absurd e hi.2)
      (by rintro (e | e); exact absurd e hi.1; exact absurd e hi.2)).2.2
  case bnot => exact C76_not hq hn ha (fun e => absurd e hi)
  case shl => exact (C76_shift_partial hq hn (h1 (Or.inl rfl)) ha hb).1
  case shr => exact (C76_shift_partial hq hn (h1 (Or.inr rfl)) ha hb).2

/-- C76, partial: a program of any length on the ARM64 build leaves in every element the residue computed by the same program on residues.
Missing: the operands that `C76_sub_violation` and `C76_shl_one_violation` show to be wrong. -/
theorem C76_program_partial (hq : Modulus q) (hn : n64 q ≤ 12) (u : Elem) (prog : List Instr) (hp : ∀ i ∈ prog, i.placedArm)
    (h1 : ∀ i ∈ prog, i.op = .shl ∨ i.op = .shr → n64 q ≠ 1) (m : Mem) (hs : NoNegShort q u prog m) (σ : Nat → ZMod q)
    (h : ∀ p, Rep q (m p) (σ p)) : ∀ p, Rep q (runArm q u prog m p) (runSpec prog σ p) := by
  induction prog generalizing m σ with
  | nil => exact h
  | cons i is ih =>
    obtain ⟨k1, k2⟩ := execArm_refines hq hn u i (hp i (by simp)) (h1 i (by simp)) m σ (fun e => hs [] i is rfl e) h
    refine ih (fun j hj => hp j (by simp [hj])) (fun j hj => h1 j (by simp [hj])) (i.execArm q u m)
      (fun pre j post e => hs (i :: pre) j post (by rw [e]; rfl)) _ fun p => ?_
    by_cases e : p = i.r
    · subst e; simpa using k1
    · simp only [e, if_false]; rw [k2 p e]; exact h p

example : ∀ p, Rep bnR (runArm bnR (sS 7) [⟨.mul, 0, 1, 2⟩, ⟨.neg, 4, 3, 3⟩, ⟨.add, 5, 0, 4⟩, ⟨.toMontgomery, 1, 1, 1⟩, ⟨.shl, 5, 5, 1⟩] sX p)
    (runSpec [⟨.mul, 0, 1, 2⟩, ⟨.neg, 4, 3, 3⟩, ⟨.add, 5, 0, 4⟩, ⟨.toMontgomery, 1, 1, 1⟩, ⟨.shl, 5, 5, 1⟩]
      (fun p => ((match p with | 1 => bnR - 5 | 2 => 12345678901234567890 | 3 => bnR - 3 | _ => 0 : Nat) : ZMod bnR)) p) := by
  apply C76_program_partial bnR_modulus bnR_width
  · intro i hi
    simp only [List.mem_cons, List.not_mem_nil, or_false] at hi
    rcases hi with rfl | rfl | rfl | rfl | rfl <;> simp [Instr.placedArm]
  · intro i _ _
    rw [n64_bnR]; decide
  · intro pre i post e hop
    have hi : i ∈ [(⟨.mul, 0, 1, 2⟩ : Instr), ⟨.neg, 4, 3, 3⟩, ⟨.add, 5, 0, 4⟩, ⟨.toMontgomery, 1, 1, 1⟩, ⟨.shl, 5, 5, 1⟩] := by rw [e]; simp
    simp only [List.mem_cons, List.not_mem_nil, or_false] at hi
    rcases hi with rfl | rfl | rfl | rfl | rfl <;> cases hop
  · intro p
    match p with
    | 0 => exact Rep_iff.mpr (by decide +kernel)
    | 1 => exact Rep_iff.mpr (by decide +kernel)
    | 2 => exact Rep_iff.mpr (by decide +kernel)
    | 3 => exact Rep_iff.mpr (by decide +kernel)
    | p + 4 => exact Rep_iff.mpr (by simp [sX, mem4, repB])

end FF.Props
