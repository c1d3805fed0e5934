import Verif.AsmShiftAll
import Verif.Props.AsmPred

/-!
# Properties C62 and C67: the shifts of the x86-64 assembly

`libShift q ra` is the library `lib q ra` with the two raw shifts, which the tagged ones call.  The states quantified over are
those of C61.

* C62: where the portable code defines a result, the assembly leaves, bit for bit, the same element.
* C67: the raw shifts shift limb arrays; the tagged shifts compute the residues of C14, also in place, also where the portable code
  runs into undefined behaviour.

The generated code compares the count with `bitLength(q)` as a 32-bit number: the moduli are those of fewer than `2^31` bits.
-/

namespace FF.Props

open FF FF.X86

section shifts

variable {q : Nat} {s : State} {ra : BitVec 64} {x y : ZMod q}

theorem shift_fits (q : Nat) : shiftCells q + 1 ≤ tagStack q := by
  have := callCells_le q
  unfold shiftCells tagStack
  omega

/-- C62, the two shifts, whatever the memory holds, also in place.  Missing: the long operands in Montgomery form
of the seven-limb moduli, for which C55 has no right conversion. -/
theorem C62_shift_partial (u : Elem) (hq : q % 2 = 1) (h7a : FromOk q (opAt q s .rsi)) (h7b : FromOk q (opAt q s .rdx)) (hbl : bitLen q < 2 ^ 31) (h : TagReady q s)
    (ha : TagOperand q s .rsi) (hb : TagOperand q s .rdx) :
    (∀ m', Fr_shl q u (absMem (n64 q) s.mem) (s.reg .rdi).toNat (s.reg .rsi).toNat (s.reg .rdx).toNat = some m' →
      ∃ s', run (libShift q ra) ra (shlCode (bitLen q) (n64 q)) s = some s' ∧ TagReturns q s s' (m' (s.reg .rdi).toNat)) ∧
    (∀ m', Fr_shr q u (absMem (n64 q) s.mem) (s.reg .rdi).toNat (s.reg .rsi).toNat (s.reg .rdx).toNat = some m' →
      ∃ s', run (libShift q ra) ra (shrCode (bitLen q) (n64 q)) s = some s' ∧ TagReturns q s s' (m' (s.reg .rdi).toNat)) := by
  have e := stack_succ q
  have hF := shift_fits q
  have h' := h.args; have ha' := ha.opnd; have hb' := hb.opnd
  rw [e] at h' ha' hb'
  obtain ⟨s1, r1, r2⟩ := shlCode_run (ra := ra) hq (n64_pos q) h7a h7b hbl u h' ha' hb' (by omega)
  obtain ⟨s2, r3, r4⟩ := shrCode_run (ra := ra) hq (n64_pos q) h7a h7b hbl u h' ha' hb' (by omega)
  rw [← e] at r2 r4
  refine ⟨fun m' hm => ⟨s1, r1, ?_⟩, fun m' hm => ⟨s2, r3, ?_⟩⟩
  · have := Fr_shl_elem hm
    rw [absMem_at, absMem_at, absMem_at] at this
    rw [this]; exact tagReturns_of r2
  · have := Fr_shr_elem hm
    rw [absMem_at, absMem_at, absMem_at] at this
    rw [this]; exact tagReturns_of r4

/-- Three elements at three places. -/
def three (r a b : Elem) : Mem := fun i => if i = 0 then r else if i = 1 then a else b

/-- C67, the tagged shifts, also in place, also by 64 bits and more, where the portable code is undefined (C14).  Missing: the
long operands in Montgomery form of the seven-limb moduli, for which C55 has no right conversion. -/
theorem C67_shift_partial (ra : BitVec 64) (hq : Modulus q) (h7a : FromOk q (opAt q s .rsi)) (h7b : FromOk q (opAt q s .rdx)) (hbl : bitLen q < 2 ^ 31) (h : TagReady q s)
    (ha : TagOperand q s .rsi) (hb : TagOperand q s .rdx) (hx : Rep q (opAt q s .rsi) x) (hy : Rep q (opAt q s .rdx) y) :
    TagDenotes (libShift q ra) ra (shlCode (bitLen q) (n64 q)) q s (shlSpec x y) ∧
    TagDenotes (libShift q ra) ra (shrCode (bitLen q) (n64 q)) q s (shrSpec x y) := by
  have e := stack_succ q
  have hF := shift_fits q
  have h' := h.args; have ha' := ha.opnd; have hb' := hb.opnd
  rw [e] at h' ha' hb'
  obtain ⟨s1, r1, r2⟩ := shlCode_run (ra := ra) hq.odd (n64_pos q) h7a h7b hbl (opAt q s .rdi) h' ha' hb' (by omega)
  obtain ⟨s2, r3, r4⟩ := shrCode_run (ra := ra) hq.odd (n64_pos q) h7a h7b hbl (opAt q s .rdi) h' ha' hb' (by omega)
  rw [← e] at r2 r4
  obtain ⟨m1, k1, k2, -⟩ := C14_shl (m := three (opAt q s .rdi) (opAt q s .rsi) (opAt q s .rdx)) (u := opAt q s .rdi) (r := 0) (a := 1) (b := 2)
    hq hx hy (by simp)
  obtain ⟨m2, k3, k4, -⟩ := C14_shr (m := three (opAt q s .rdi) (opAt q s .rsi) (opAt q s .rdx)) (u := opAt q s .rdi) (r := 0) (a := 1) (b := 2)
    hq hx hy (by simp)
  rw [Fr_shl_elem k1] at k2
  rw [Fr_shr_elem k3] at k4
  exact ⟨⟨s1, _, r1, tagReturns_of r2, k2⟩, ⟨s2, _, r3, tagReturns_of r4, k4⟩⟩

/-- A raw shift returns normally: the limbs of the result have value `v`, every other cell is as it was, and so are the callee-saved registers. -/
def RawShifts (env : String → Option (State → Option State)) (ra : BitVec 64) (code : List Line) (q : Nat) (s : State) (v : Nat) : Prop :=
  ∃ s', run env ra code s = some s' ∧ val (rd s'.mem (s.reg .rdi) (n64 q)) = v ∧
    (∀ a, ¬ InArr (s.reg .rdi) (n64 q) a → s'.mem a = s.mem a) ∧ (∀ r ∈ calleeSaved, s'.reg r = s.reg r) ∧ s'.reg .rsp = s.reg .rsp + 8

/-- C67, `rawShr(r, a, n)`: division by `2^n`, zero from `bitLen q` on, also in place, whatever the limbs. -/
theorem C67_rawShr (env : String → Option (State → Option State)) (ra : BitVec 64) (hn : 8 * n64 q ≤ 2 ^ 64) (hbl : bitLen q < 2 ^ 31)
    (ha : s.reg .rsi = s.reg .rdi ∨ Sep (s.reg .rsi) (s.reg .rdi) (n64 q)) :
    RawShifts env ra (rawShrCode (bitLen q) (n64 q)) q s
      (if (s.reg .rdx).toNat < bitLen q then val (rd s.mem (s.reg .rsi) (n64 q)) / 2 ^ (s.reg .rdx).toNat else 0) := by
  obtain ⟨s', h1, h2⟩ := rawShr_run (env := env) (ra := ra) hn hbl ha
  refine ⟨s', h1, ?_, fun a h => h2.frame a fun i hi e => h ⟨i, hi, e⟩, fun r hr => h2.regs r (.inr (.inr hr)), h2.rsp⟩
  rw [h2.out]
  split
  · rename_i hc
    exact (rawShr_val (rd_length _ _ _) (by have := bitLen_le_n64 q; omega)).1
  · exact FF.val_replicate_zero _

/-- C67, `rawShl(r, a, n)`: multiplication by `2^n` within `bitLen q` bits, reduced once, zero from `bitLen q` on, also in place. -/
theorem C67_rawShl (env : String → Option (State → Option State)) (ra : BitVec 64) (hbl : bitLen q < 2 ^ 31) (h : TagReady q s)
    (ha : s.reg .rsi = s.reg .rdi ∨ Sep (s.reg .rsi) (s.reg .rdi) (n64 q)) (hv : val (rd s.mem (s.reg .rsi) (n64 q)) < q) :
    RawShifts env ra (rawShlCode (bitLen q) (n64 q)) q s
      (if (s.reg .rdx).toNat < bitLen q then val (rd s.mem (s.reg .rsi) (n64 q)) * 2 ^ (s.reg .rdx).toNat % 2 ^ bitLen q % q else 0) := by
  have hb : 0 < bitLen q := Nat.pos_of_ne_zero (by simp [bitLen])
  obtain ⟨s', h1, h2⟩ := rawShl_run (env := env) (ra := ra) (by have := h.fits; omega) hbl ha h.args.ok.data
    fun a h' => h.tablesDst a (by obtain ⟨i, hi, e⟩ := h'; exact ⟨i, by omega, e⟩)
  refine ⟨s', h1, ?_, fun a h => h2.frame a fun i hi e => h ⟨i, hi, e⟩, fun r hr => h2.regs r (.inr (.inr hr)), h2.rsp⟩
  rw [h2.out]
  by_cases h0 : (s.reg .rdx).toNat = 0
  · rw [if_pos h0, h0, if_pos hb, pow_zero, Nat.mul_one, Nat.mod_eq_of_lt (lt_trans hv bitLen_lt), Nat.mod_eq_of_lt hv]
  · rw [if_neg h0]
    split
    · exact (rawShl_val (by omega) (rd_length _ _ _) (by have := bitLen_le_n64 q; omega)).1
    · exact FF.val_replicate_zero _

end shifts

/-! ## The hypotheses are met -/

theorem bnR_bits : bitLen bnR < 2 ^ 31 := by decide +kernel

example : TagDenotes (libShift bnR 0) 0 (shlCode (bitLen bnR) (n64 bnR)) bnR (tagDemo (sS (-5)) (sL (bnR - 3)) (sM 77) 1 1 2)
    (shlSpec ((bnR - 3 : Nat) : ZMod bnR) ((77 : Nat) : ZMod bnR)) :=
  (C67_shift_partial 0 bnR_modulus (.of_ne bnR_seven _) (.of_ne bnR_seven _) bnR_bits (tagDemo_ready (by decide) (by decide +kernel))
    (tagDemo_opnds (by decide) (by decide) (by decide)).1 (tagDemo_opnds (by decide) (by decide) (by decide)).2
    (Rep_iff.mpr (by decide +kernel)) (Rep_iff.mpr (by decide +kernel))).1
example : TagDenotes (libShift bnR 0) 0 (shrCode (bitLen bnR) (n64 bnR)) bnR (tagDemo (sS (-5)) (sL (bnR - 3)) (sM 77) 0 2 0)
    (shrSpec ((77 : Nat) : ZMod bnR) ((bnR - 5 : Nat) : ZMod bnR)) :=
  (C67_shift_partial 0 bnR_modulus (.of_ne bnR_seven _) (.of_ne bnR_seven _) bnR_bits (tagDemo_ready (by decide) (by decide +kernel))
    (tagDemo_opnds (by decide) (by decide) (by decide)).1 (tagDemo_opnds (by decide) (by decide) (by decide)).2
    (Rep_iff.mpr (by decide +kernel)) (Rep_iff.mpr (by decide +kernel))).2

example : ∃ m', Fr_shl bnR (sS 0) (absMem (n64 bnR) (tagDemo (sS (-5)) (sL (bnR - 3)) (sM 77) 1 0 2).mem) 184 144 224 = some m' :=
  Fr_shl_apart (by decide)

/-- The limbs of `bnR - 3` at `rsi`, the count 70 in `rdx`. -/
def shiftDemo : State :=
  let d := tagDemo (sS (-5)) (sL (bnR - 3)) (sM 77) 0 1 2
  { d with reg := upd (upd d.reg .rsi 192) .rdx 70 }

theorem shiftDemo_ready : TagReady bnR shiftDemo :=
  have h : TagReady bnR (tagDemo (sS (-5)) (sL (bnR - 3)) (sM 77) 0 1 2) := tagDemo_ready (by decide) (by decide +kernel)
  ⟨h.fits, h.mod, h.half, h.r2, h.r3, h.mask, h.np, h.stackTables, h.stackDst, h.tablesDst⟩

theorem shiftDemo_sep : Sep (shiftDemo.reg .rsi) (shiftDemo.reg .rdi) (n64 bnR) := by
  have h : ∀ i : Fin 4, ∀ j : Fin 4, cell (shiftDemo.reg .rsi) i ≠ cell (shiftDemo.reg .rdi) j := by decide
  rw [n64_bnR]; exact fun i j hi hj => h ⟨i, hi⟩ ⟨j, hj⟩

example : RawShifts noCalls 0 (rawShrCode (bitLen bnR) (n64 bnR)) bnR shiftDemo ((bnR - 3) / 2 ^ 70) := by
  have := C67_rawShr (q := bnR) (s := shiftDemo) noCalls 0 (by rw [n64_bnR]; decide) bnR_bits (.inr shiftDemo_sep)
  have e : (if (shiftDemo.reg .rdx).toNat < bitLen bnR then val (rd shiftDemo.mem (shiftDemo.reg .rsi) (n64 bnR)) / 2 ^ (shiftDemo.reg .rdx).toNat
    else 0) = (bnR - 3) / 2 ^ 70 := by rw [n64_bnR]; decide +kernel
  rw [e] at this; exact this

example : RawShifts noCalls 0 (rawShlCode (bitLen bnR) (n64 bnR)) bnR shiftDemo ((bnR - 3) * 2 ^ 70 % 2 ^ 254 % bnR) := by
  have := C67_rawShl (q := bnR) (s := shiftDemo) noCalls 0 bnR_bits shiftDemo_ready (.inr shiftDemo_sep) (by rw [n64_bnR]; decide +kernel)
  have e : (if (shiftDemo.reg .rdx).toNat < bitLen bnR then val (rd shiftDemo.mem (shiftDemo.reg .rsi) (n64 bnR)) * 2 ^ (shiftDemo.reg .rdx).toNat %
    2 ^ bitLen bnR % bnR else 0) = (bnR - 3) * 2 ^ 70 % 2 ^ 254 % bnR := by rw [n64_bnR]; decide +kernel
  rw [e] at this; exact this

end FF.Props
