import Mathlib.Data.Nat.Log
import Mathlib.Tactic.IntervalCases
import Mathlib.Tactic.NormNum

/-!
# Integer logarithms: `c/misc.cpp`, `c/fft.cpp`
-/

namespace FF

/-- `tab32`, `misc.cpp:3-7`. -/
def tab32 : List Nat := [
     0,  9,  1, 10, 13, 21,  2, 29,
    11, 14, 16, 18, 22, 25,  3, 30,
     8, 12, 20, 28, 15, 17, 24,  7,
    19, 27, 23,  6, 26,  5,  4, 31]

/-- `log2(uint32_t)`, `misc.cpp:9-17`. -/
def log2w (value : BitVec 32) : Nat :=
  let value := value ||| value >>> 1
  let value := value ||| value >>> 2
  let value := value ||| value >>> 4
  let value := value ||| value >>> 8
  let value := value ||| value >>> 16
  tab32.getD ((value * 0x07C4ACDD#32) >>> 27).toNat 0

/-- The loop of `FFT::log2`, `fft.cpp:13-16`: `fuel` bounds the number of iterations (64 suffice, `fftLog2_eq`). -/
def fftLog2Loop : Nat → BitVec 64 → Nat → Option Nat
  | 0, _, _ => none
  | fuel + 1, n, res => if n ≠ 1 then fftLog2Loop fuel (n >>> 1) (res + 1) else some res

/-- `FFT::log2(u_int64_t)`, `fft.cpp:9-18`; `none` when the assertion `n != 0` fails. -/
def fftLog2 (n : BitVec 64) : Option Nat := if n = 0 then none else fftLog2Loop 64 n 0

/-- Bits above `k` are clear, the `w` bits from `k` down are set. -/
def Smear (k w : Nat) (v : BitVec 32) : Prop :=
  (∀ i, k < i → v.getLsbD i = false) ∧ ∀ i, i ≤ k → k < i + w → v.getLsbD i = true

theorem Smear.step {k w : Nat} {v : BitVec 32} (h : Smear k w v) : Smear k (2 * w) (v ||| v >>> w) := by
  refine ⟨fun i hi => ?_, fun i hi hk => ?_⟩
  · simp [h.1 i hi, h.1 (w + i) (by omega)]
  · rw [BitVec.getLsbD_or, BitVec.getLsbD_ushiftRight]
    by_cases h1 : k < i + w
    · simp [h.2 i hi h1]
    · simp [h.2 (w + i) (by omega) (by omega)]

theorem Smear.full {k : Nat} (hk : k < 32) {v : BitVec 32} (h : Smear k 32 v) : v = BitVec.ofNat 32 (2 ^ (k + 1) - 1) := by
  apply BitVec.eq_of_getLsbD_eq
  intro i hi
  rw [BitVec.getLsbD_ofNat, Nat.testBit_two_pow_sub_one]
  by_cases h1 : i ≤ k
  · rw [h.2 i h1 (by omega)]; simp [hi]; omega
  · rw [h.1 i (by omega)]; simp; omega

theorem log2w_table : ∀ k : Fin 32, tab32.getD ((BitVec.ofNat 32 (2 ^ (k.val + 1) - 1) * 0x07C4ACDD#32) >>> 27).toNat 0 = k.val := by
  decide +kernel

theorem log2w_eq (v : BitVec 32) (hv : v ≠ 0) : log2w v = Nat.log2 v.toNat := by
  have hv0 : v.toNat ≠ 0 := fun e => hv (BitVec.eq_of_toNat_eq (by simpa using e))
  set k := Nat.log2 v.toNat with hk
  have hk32 : k < 32 := (Nat.log2_lt hv0).mpr v.isLt
  have h0 : Smear k 1 v := by
    refine ⟨fun i hi => ?_, fun i hi hi' => ?_⟩
    · rw [BitVec.getLsbD]
      exact Nat.testBit_lt_two_pow (lt_of_lt_of_le (Nat.lt_log2_self (n := v.toNat)) (Nat.pow_le_pow_right (by norm_num) (by omega)))
    · have : i = k := by omega
      subst this
      rw [BitVec.getLsbD, Nat.testBit_eq_decide_div_mod_eq]
      have h1 := Nat.log2_self_le hv0
      have h2 := Nat.lt_log2_self (n := v.toNat)
      rw [← hk] at h1 h2
      have : v.toNat / 2 ^ k = 1 := by
        rw [Nat.div_eq_iff (by positivity)]
        rw [pow_succ] at h2
        omega
      simp [this]
  have h5 := h0.step.step.step.step.step
  have e := h5.full hk32
  unfold log2w
  simp only []
  norm_num at e
  rw [e]
  exact log2w_table ⟨k, hk32⟩

theorem fftLog2Loop_eq : ∀ fuel (n : BitVec 64) res, n ≠ 0 → Nat.log2 n.toNat < fuel →
    fftLog2Loop fuel n res = some (res + Nat.log2 n.toNat) := by
  intro fuel
  induction fuel with
  | zero => intro n res h h'; omega
  | succ fuel ih =>
    intro n res hn hl
    have hn0 : n.toNat ≠ 0 := fun e => hn (BitVec.eq_of_toNat_eq (by simpa using e))
    unfold fftLog2Loop
    by_cases h1 : n = 1
    · subst h1; simp; decide
    · have hn1 : n.toNat ≠ 1 := fun e => h1 (BitVec.eq_of_toNat_eq (by simpa using e))
      have hs : (n >>> 1).toNat = n.toNat / 2 := by simp [Nat.shiftRight_eq_div_pow]
      have hlog : Nat.log2 n.toNat = Nat.log2 (n.toNat / 2) + 1 := by
        rw [Nat.log2_def n.toNat, if_pos (by omega)]
      rw [if_pos h1, ih, hs, hlog]
      · congr 1; omega
      · intro e
        have : n.toNat / 2 = 0 := by rw [← hs, e]; rfl
        omega
      · rw [hs]; omega

theorem fftLog2_eq (n : BitVec 64) (hn : n ≠ 0) : fftLog2 n = some (Nat.log2 n.toNat) := by
  have hn0 : n.toNat ≠ 0 := fun e => hn (BitVec.eq_of_toNat_eq (by simpa using e))
  rw [fftLog2, if_neg hn, fftLog2Loop_eq _ _ _ hn ((Nat.log2_lt hn0).mpr n.isLt)]
  simp

end FF
