import Verif.Fft
import Mathlib.Tactic.IntervalCases

/-! # Bit reversal -/

namespace FF.Fft

/-- The 32-bit reversal before the final shift of `BR`. -/
def rev32 (x : BitVec 64) : BitVec 64 :=
  let x := (x >>> 16) ||| (x <<< 16)
  let x := ((x &&& 0xFF00FF00#64) >>> 8) ||| ((x &&& 0x00FF00FF#64) <<< 8)
  let x := ((x &&& 0xF0F0F0F0#64) >>> 4) ||| ((x &&& 0x0F0F0F0F#64) <<< 4)
  let x := ((x &&& 0xCCCCCCCC#64) >>> 2) ||| ((x &&& 0x33333333#64) <<< 2)
  (((x &&& 0xAAAAAAAA#64) >>> 1) ||| ((x &&& 0x55555555#64) <<< 1))

theorem rev32_getLsbD (x : BitVec 64) (hx : x.toNat < 2 ^ 32) (j : Nat) (hj : j < 64) :
    (rev32 x).getLsbD j = (decide (j < 32) && x.getLsbD (31 - j)) := by
  have h32 : ∀ i, 32 ≤ i → x.getLsbD i = false := by
    intro i hi
    rw [BitVec.getLsbD]
    exact Nat.testBit_lt_two_pow (lt_of_lt_of_le hx (Nat.pow_le_pow_right (by norm_num) hi))
  have h32' : ∀ i (h : i < 64), 32 ≤ i → x[i] = false := fun i h hi => by rw [← BitVec.getLsbD_eq_getElem]; exact h32 i hi
  unfold rev32
  interval_cases j <;> simp [h32']

/-- Reversal of the `w` low bits. -/
def revN : Nat → Nat → Nat
  | 0, _ => 0
  | w + 1, x => (x % 2) * 2 ^ w + revN w (x / 2)

theorem revN_lt : ∀ w x, revN w x < 2 ^ w := by
  intro w
  induction w with
  | zero => intro x; simp [revN]
  | succ w ih =>
    intro x
    have := ih (x / 2)
    rw [revN, pow_succ]
    rcases Nat.mod_two_eq_zero_or_one x with h | h <;> rw [h] <;> omega

theorem revN_testBit : ∀ w x j, (revN w x).testBit j = (decide (j < w) && x.testBit (w - 1 - j)) := by
  intro w
  induction w with
  | zero => intro x j; simp [revN]
  | succ w ih =>
    intro x j
    rw [revN, mul_comm, Nat.testBit_two_pow_mul_add _ (revN_lt w _), ih]
    by_cases h : j < w
    · rw [if_pos h, Nat.testBit_div_two]
      simp only [h, decide_true, Bool.true_and, show j < w + 1 by omega]
      congr 1; omega
    · rw [if_neg h]
      by_cases h' : j = w
      · subst h'
        simp only [Nat.sub_self, Nat.lt_succ_self, decide_true, Bool.true_and, Nat.add_sub_cancel]
        rw [Nat.testBit_zero, Nat.testBit_zero, Nat.mod_mod]
      · have : j - w ≠ 0 := by omega
        obtain ⟨d, hd⟩ := Nat.exists_eq_succ_of_ne_zero this
        rw [hd, Nat.testBit_succ, Nat.div_eq_of_lt (Nat.mod_lt _ (by norm_num))]
        simp [show ¬(j < w + 1) by omega]

theorem BR_toNat {k i : Nat} (hk : k ≤ 32) (hi : i < 2 ^ k) : (BR (BitVec.ofNat 64 i) k).toNat = revN k i := by
  have hi32 : i < 2 ^ 32 := lt_of_lt_of_le hi (Nat.pow_le_pow_right (by norm_num) hk)
  have hi64 : i < 2 ^ 64 := lt_trans hi32 (by norm_num)
  have hx : (BitVec.ofNat 64 i).toNat = i := by rw [BitVec.toNat_ofNat, Nat.mod_eq_of_lt hi64]
  apply Nat.eq_of_testBit_eq
  intro j
  rw [revN_testBit]
  show (BR (BitVec.ofNat 64 i) k).getLsbD j = _
  have e : BR (BitVec.ofNat 64 i) k = rev32 (BitVec.ofNat 64 i) >>> (32 - k) := rfl
  rw [e, BitVec.getLsbD_ushiftRight]
  by_cases h : 32 - k + j < 64
  · rw [rev32_getLsbD _ (by rw [hx]; exact hi32) _ h]
    by_cases hjk : j < k
    · simp only [show 32 - k + j < 32 by omega, hjk, decide_true, Bool.true_and]
      rw [show 31 - (32 - k + j) = k - 1 - j by omega, BitVec.getLsbD, hx]
    · simp [show ¬(32 - k + j < 32) by omega, hjk]
  · rw [BitVec.getLsbD_of_ge _ _ (by omega)]
    simp [show ¬ j < k by omega]

theorem revN_revN (w x : Nat) (hx : x < 2 ^ w) : revN w (revN w x) = x := by
  apply Nat.eq_of_testBit_eq
  intro j
  rw [revN_testBit, revN_testBit]
  by_cases h : j < w
  · simp only [h, decide_true, Bool.true_and, show w - 1 - j < w by omega]
    congr 1; omega
  · simp only [h, decide_false, Bool.false_and]
    exact (Nat.testBit_lt_two_pow (lt_of_lt_of_le hx (Nat.pow_le_pow_right (by norm_num) (by omega)))).symm

end FF.Fft
