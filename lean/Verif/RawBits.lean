import Verif.Montgomery

/-!
# Values computed by the raw bitwise and shift routines
-/

namespace FF

theorem lboMask_toNat {q : Nat} : (lboMask q).toNat = 2 ^ (bitLen q - 64 * (n64 q - 1)) - 1 := by
  have hn := n64_pos q
  have hb := bitLen_le_n64 q
  have hb2 : 64 * (n64 q - 1) < bitLen q := by unfold n64 bitLen; omega
  have e : 2 ^ 64 / 2 ^ (n64 q * 64 - bitLen q) = 2 ^ (bitLen q - 64 * (n64 q - 1)) := by
    rw [Nat.pow_div (by omega) (by norm_num)]; congr 1; omega
  rw [lboMask, e, BitVec.toNat_ofNat, Nat.mod_eq_of_lt]
  have : 2 ^ (bitLen q - 64 * (n64 q - 1)) ≤ 2 ^ 64 := Nat.pow_le_pow_right (by norm_num) (by omega)
  have := Nat.two_pow_pos (bitLen q - 64 * (n64 q - 1))
  omega

@[simp] theorem maskTop_length {q : Nat} (r : Limbs) : (maskTop q r).length = r.length := by simp [maskTop]

theorem maskTop_val {q : Nat} {r : Limbs} (h : r.length = n64 q) : val (maskTop q r) = val r % 2 ^ bitLen q := by
  have hn := n64_pos q
  have hb2 : 64 * (n64 q - 1) < bitLen q := by unfold n64 bitLen; omega
  obtain ⟨xs, x, rfl⟩ : ∃ xs x, r = xs ++ [x] := by
    rcases List.eq_nil_or_concat r with h' | ⟨xs, x, h'⟩
    · subst h'; simp at h; omega
    · exact ⟨xs, x, by simpa using h'⟩
  have hx : n64 q - 1 = xs.length := by simp at h; omega
  have e1 : maskTop q (xs ++ [x]) = xs ++ [x &&& lboMask q] := by
    unfold maskTop limbAt
    rw [hx, List.set_append_right _ _ (le_refl _)]
    simp
  have hv := val_lt xs
  rw [e1, val_append, val_append]
  simp only [val_cons, val_nil, Nat.mul_zero, Nat.add_zero]
  rw [BitVec.toNat_and, lboMask_toNat, Nat.and_two_pow_sub_one_eq_mod]
  have e2 : 2 ^ bitLen q = W ^ xs.length * 2 ^ (bitLen q - 64 * (n64 q - 1)) := by
    rw [W_pow, ← hx, ← pow_add]; congr 1; omega
  rw [e2, Nat.mod_mul]
  congr 1
  · rw [Nat.add_mul_mod_self_left, Nat.mod_eq_of_lt hv]
  · rw [Nat.add_mul_div_left _ _ (pow_pos W_pos _), Nat.div_eq_of_lt hv, Nat.zero_add]

theorem two_pow_bitLen {q : Nat} (hq : 0 < q) : 2 ^ bitLen q ≤ 2 * q := by
  have h := bitLen_le (q := q) (by omega)
  have e : 2 ^ bitLen q = 2 * 2 ^ (bitLen q - 1) := by
    rw [← pow_succ']; congr 1
  omega

/-- Masking followed by one conditional subtraction reduces the low `bitLength(q)` bits modulo `q`. -/
theorem mask_condSub_val {q : Nat} (hq : 0 < q) {r : Limbs} (h : r.length = n64 q) :
    val (condSub q false (maskTop q r)) = val r % 2 ^ bitLen q % q ∧
    (condSub q false (maskTop q r)).length = n64 q := by
  have hl : (maskTop q r).length = n64 q := by simp [h]
  refine ⟨?_, condSub_length _ hl⟩
  rw [condSub_false_val hl, maskTop_val h]
  rw [maskTop_val h]
  exact lt_of_lt_of_le (Nat.mod_lt _ (Nat.two_pow_pos _)) (two_pow_bitLen hq)

theorem rawAnd_val {q : Nat} (hq : 0 < q) {a b : Limbs} (ha : a.length = n64 q) (hb : b.length = n64 q) :
    val (rawAnd q a b) = (val a &&& val b) % 2 ^ bitLen q % q ∧ (rawAnd q a b).length = n64 q := by
  have := mask_condSub_val hq (r := mpn_and_n a b) (by simp [ha, hb])
  rwa [mpn_and_n_val a b (by omega)] at this

theorem rawOr_val {q : Nat} (hq : 0 < q) {a b : Limbs} (ha : a.length = n64 q) (hb : b.length = n64 q) :
    val (rawOr q a b) = (val a ||| val b) % 2 ^ bitLen q % q ∧ (rawOr q a b).length = n64 q := by
  have := mask_condSub_val hq (r := mpn_ior_n a b) (by simp [ha, hb])
  rwa [mpn_ior_n_val a b (by omega)] at this

theorem rawXor_val {q : Nat} (hq : 0 < q) {a b : Limbs} (ha : a.length = n64 q) (hb : b.length = n64 q) :
    val (rawXor q a b) = (val a ^^^ val b) % 2 ^ bitLen q % q ∧ (rawXor q a b).length = n64 q := by
  have := mask_condSub_val hq (r := mpn_xor_n a b) (by simp [ha, hb])
  rwa [mpn_xor_n_val a b (by omega)] at this

/-- Complement of a number of at most `bitLength` bits, seen through the mask. -/
theorem compl_mod {n k x : Nat} (hk : k ≤ n) (hx : x < 2 ^ k) : (2 ^ n - 1 - x) % 2 ^ k = 2 ^ k - 1 - x := by
  obtain ⟨d, rfl⟩ : ∃ d, n = k + d := ⟨n - k, by omega⟩
  have h1 := Nat.two_pow_pos d
  have e : 2 ^ (k + d) - 1 - x = (2 ^ k - 1 - x) + 2 ^ k * (2 ^ d - 1) := by
    rw [pow_add, Nat.mul_sub, Nat.mul_one]
    have : 2 ^ k * 1 ≤ 2 ^ k * 2 ^ d := Nat.mul_le_mul_left _ h1
    omega
  rw [e, Nat.add_mul_mod_self_left, Nat.mod_eq_of_lt (by omega)]

theorem rawNot_val {q : Nat} (hq : 0 < q) {a : Limbs} (ha : a.length = n64 q) (hlt : val a < 2 ^ bitLen q) :
    val (rawNot q a) = (2 ^ bitLen q - 1 - val a) % q ∧ (rawNot q a).length = n64 q := by
  have := mask_condSub_val hq (r := mpn_com a) (by simp [ha])
  rw [mpn_com_val a, ha, W_pow, compl_mod (bitLen_le_n64 q) hlt] at this
  exact this

theorem val_take_mod (a : Limbs) (k : Nat) (hk : k ≤ a.length) : val (a.take k) = val a % W ^ k := by
  have h := val_append (a.take k) (a.drop k)
  have hl := val_lt (a.take k)
  rw [List.take_append_drop, List.length_take, Nat.min_eq_left hk] at h
  rw [List.length_take, Nat.min_eq_left hk] at hl
  rw [h, Nat.add_mul_mod_self_left, Nat.mod_eq_of_lt hl]

theorem val_drop_div (a : Limbs) (k : Nat) (hk : k ≤ a.length) : val (a.drop k) = val a / W ^ k := by
  have h := val_append (a.take k) (a.drop k)
  have hl := val_lt (a.take k)
  rw [List.take_append_drop, List.length_take, Nat.min_eq_left hk] at h
  rw [List.length_take, Nat.min_eq_left hk] at hl
  rw [h, Nat.add_mul_div_left _ _ (pow_pos W_pos _), Nat.div_eq_of_lt hl, Nat.zero_add]

theorem mul_pow_mod_pow (v n k : Nat) (hk : k ≤ n) : 2 ^ k * (v % 2 ^ (n - k)) = v * 2 ^ k % 2 ^ n := by
  rw [show 2 ^ n = 2 ^ k * 2 ^ (n - k) by rw [← pow_add]; congr 1; omega, Nat.mul_comm v, Nat.mul_mod_mul_left]

/-- `Fr_rawShl` (distinct arrays): shift, keep `bitLength(q)` bits, reduce. -/
theorem rawShl_val {q : Nat} (hq : 0 < q) {a : Limbs} {b : Nat} (ha : a.length = n64 q) (hb : b < 64 * n64 q) :
    val (rawShl q a b) = val a * 2 ^ b % 2 ^ bitLen q % q ∧ (rawShl q a b).length = n64 q := by
  have hbl := bitLen_le_n64 q
  have hw : b / 64 < n64 q := by omega
  unfold rawShl
  set r0 : Limbs := List.replicate (b / 64) 0 ++ a.take (n64 q - b / 64) with hr0
  have l0 : r0.length = n64 q := by simp [hr0, ha]; omega
  have v0 : val r0 = val a * 2 ^ (64 * (b / 64)) % 2 ^ (64 * n64 q) := by
    rw [hr0, val_append, val_take_mod _ _ (by omega), List.length_replicate, W_pow, W_pow,
      show val (List.replicate (b / 64) (0 : Limb)) = 0 from val_replicate_zero _, Nat.zero_add,
      show 64 * (n64 q - b / 64) = 64 * n64 q - 64 * (b / 64) by omega, mul_pow_mod_pow _ _ _ (by omega)]
  set r1 : Limbs := if b % 64 ≠ 0 then mpn_lshift r0 (b % 64) 0 else r0 with hr1
  have l1 : r1.length = n64 q := by rw [hr1]; split <;> simp [l0]
  have v1 : val r1 = val a * 2 ^ b % 2 ^ (64 * n64 q) := by
    have hbb : 2 ^ b = 2 ^ (64 * (b / 64)) * 2 ^ (b % 64) := by rw [← pow_add]; congr 1; omega
    rw [hr1]
    split
    · rw [mpn_lshift_val, l0, W_pow, v0, Nat.add_zero, Nat.mod_mul_mod, hbb]; congr 1; ring
    · rename_i h
      have h0 : b % 64 = 0 := by simpa using h
      rw [v0, hbb, h0, pow_zero, Nat.mul_one]
  have := mask_condSub_val hq l1
  rw [v1, Nat.mod_mod_of_dvd _ (pow_dvd_pow 2 hbl)] at this
  exact this

/-- `Fr_rawShr`. -/
theorem rawShr_val {q : Nat} {a : Limbs} {b : Nat} (ha : a.length = n64 q) (hb : b < 64 * n64 q) :
    val (rawShr q a b) = val a / 2 ^ b ∧ (rawShr q a b).length = n64 q := by
  have hw : b / 64 < n64 q := by omega
  unfold rawShr
  set r0 : Limbs := (a.drop (b / 64)).take (n64 q - b / 64) ++ List.replicate (b / 64) 0 with hr0
  have l0 : r0.length = n64 q := by simp [hr0, ha]; omega
  have ht : (a.drop (b / 64)).take (n64 q - b / 64) = a.drop (b / 64) := by
    apply List.take_of_length_le; simp [ha]
  have v0 : val r0 = val a / 2 ^ (64 * (b / 64)) := by
    rw [hr0, ht, val_append,
      show val (List.replicate (b / 64) (0 : Limb)) = 0 from val_replicate_zero _, Nat.mul_zero, Nat.add_zero,
      val_drop_div _ _ (by omega), W_pow]
  have hbb : 2 ^ b = 2 ^ (64 * (b / 64)) * 2 ^ (b % 64) := by rw [← pow_add]; congr 1; omega
  by_cases h : b % 64 = 0
  · simp only [h, ne_eq, not_true_eq_false, if_false]
    rw [← hr0]
    refine ⟨?_, l0⟩
    rw [v0, hbb, h, pow_zero, Nat.mul_one]
  · simp only [ne_eq, h, not_false_eq_true, if_true]
    rw [← hr0]
    refine ⟨?_, by simp [l0]⟩
    rw [mpn_rshift_val _ _ (by omega), v0, hbb, Nat.div_div_eq_div_mul]

end FF
