import Verif.Spec
import Mathlib.Tactic.LinearCombination

/-!
# The raw routines in terms of residues
-/

namespace FF

theorem Modulus.pos {q : Nat} (h : Modulus q) : 0 < q := by have := h.odd; omega
theorem Modulus.gt {q : Nat} (h : Modulus q) : 4611686018427387904 < q := by have := h.big; norm_num at this; omega
theorem Modulus.ne {q : Nat} (h : Modulus q) : NeZero q := ⟨by have := h.pos; omega⟩

theorem R_cast (q : Nat) : ((W ^ n64 q : Nat) : ZMod q) = R q := by
  rw [W_pow, R, Nat.cast_pow, Nat.cast_ofNat]

theorem two_isUnit {q : Nat} (h : q % 2 = 1) : IsUnit (2 : ZMod q) := by
  have := (ZMod.isUnit_iff_coprime 2 q).mpr (Nat.coprime_two_left.mpr (Nat.odd_iff.mpr h))
  simpa using this

theorem R_isUnit {q : Nat} (h : q % 2 = 1) : IsUnit (R q) := (two_isUnit h).pow _

theorem R_cancel {q : Nat} (h : q % 2 = 1) {x y : ZMod q} (e : x * R q = y * R q) : x = y :=
  (R_isUnit h).mul_right_cancel e

theorem cast_mod_eq {q a b : Nat} (h : a % q = b % q) : (a : ZMod q) = (b : ZMod q) :=
  (ZMod.natCast_eq_natCast_iff' a b q).mpr h

theorem cast_mod (q a : Nat) : ((a % q : Nat) : ZMod q) = a := by simp

theorem cast_ifsub {q x y : Nat} (h : y ≤ x + q) :
    ((if x < y then x + q - y else x - y : Nat) : ZMod q) = (x : ZMod q) - y := by
  split
  · rw [Nat.cast_sub h]; simp
  · rw [Nat.cast_sub (by omega)]

/-- The array is determined by the residue. -/
theorem LRep.inj {q : Nat} {l l' : Limbs} {x : ZMod q} (h : LRep q l x) (h' : LRep q l' x) : l = l' := by
  apply val_inj (h.1.trans h'.1.symm)
  have e : (val l : ZMod q) = val l' := h.2.2.trans h'.2.2.symm
  rw [ZMod.natCast_eq_natCast_iff'] at e
  rwa [Nat.mod_eq_of_lt h.2.1, Nat.mod_eq_of_lt h'.2.1] at e

theorem LRep.val_eq {q : Nat} {l : Limbs} {x : ZMod q} (h : LRep q l x) : val l = x.val := by
  rw [← h.2.2, ZMod.val_natCast, Nat.mod_eq_of_lt h.2.1]

theorem LRep.congr {q : Nat} {l : Limbs} {x y : ZMod q} (h : LRep q l x) (e : x = y) : LRep q l y := e ▸ h

theorem LRep.of_val {q : Nat} {l : Limbs} {x : ZMod q} [NeZero q] (hl : l.length = n64 q) (hv : val l = x.val) :
    LRep q l x := ⟨hl, by rw [hv]; exact ZMod.val_lt x, by rw [hv]; simp⟩

theorem LRep.zero {q : Nat} (hq : 0 < q) : LRep q (rawZero q) 0 :=
  ⟨by simp, by simpa using hq, by simp⟩

theorem LRep.add {q : Nat} {a b : Limbs} {x y : ZMod q} (ha : LRep q a x) (hb : LRep q b y) :
    LRep q (rawAdd q a b) (x + y) := by
  have := ha.2.1; have := hb.2.1
  refine ⟨rawAdd_length ha.1, ?_, ?_⟩ <;> rw [rawAdd_val ha.1 hb.1 (by omega)]
  · exact Nat.mod_lt _ (by omega)
  · rw [cast_mod, Nat.cast_add, ha.2.2, hb.2.2]

theorem LRep.addLS {q : Nat} {a : Limbs} {w : Limb} {x : ZMod q} (ha : LRep q a x) (hw : w.toNat < q) :
    LRep q (rawAddLS q a w) (x + (w.toNat : ZMod q)) := by
  have := ha.2.1
  refine ⟨rawAddLS_length ha.1, ?_, ?_⟩ <;> rw [rawAddLS_val ha.1 (by omega)]
  · exact Nat.mod_lt _ (by omega)
  · rw [cast_mod, Nat.cast_add, ha.2.2]

theorem LRep.sub {q : Nat} {a b : Limbs} {x y : ZMod q} (ha : LRep q a x) (hb : LRep q b y) :
    LRep q (rawSub q a b) (x - y) := by
  have := ha.2.1; have := hb.2.1
  refine ⟨rawSub_length ha.1, ?_, ?_⟩ <;> rw [rawSub_val ha.1 hb.1 (by omega)]
  · split <;> omega
  · rw [cast_ifsub (by omega), ha.2.2, hb.2.2]

theorem LRep.subLS {q : Nat} {a : Limbs} {w : Limb} {x : ZMod q} (ha : LRep q a x) (hw : w.toNat < q) :
    LRep q (rawSubLS q a w) (x - (w.toNat : ZMod q)) := by
  have := ha.2.1
  refine ⟨rawSubLS_length ha.1, ?_, ?_⟩ <;> rw [rawSubLS_val ha.1 (by omega)]
  · split <;> omega
  · rw [cast_ifsub (by omega), ha.2.2]

theorem LRep.subSL {q : Nat} {b : Limbs} {w : Limb} {y : ZMod q} (hb : LRep q b y) (hw : w.toNat < q) :
    LRep q (rawSubSL q w b) ((w.toNat : ZMod q) - y) := by
  have := hb.2.1
  refine ⟨rawSubSL_length, ?_, ?_⟩ <;> rw [rawSubSL_val hb.1 (by omega)]
  · split <;> omega
  · rw [cast_ifsub (by omega), hb.2.2]

theorem LRep.neg {q : Nat} {a : Limbs} {x : ZMod q} (ha : LRep q a x) : LRep q (rawNeg q a) (-x) := by
  have := ha.2.1
  refine ⟨rawNeg_length, ?_, ?_⟩ <;> rw [rawNeg_val ha.1 ha.2.1]
  · exact Nat.mod_lt _ (by omega)
  · rw [cast_mod, Nat.cast_sub (by omega), ha.2.2]; simp

theorem LRep.negLS {q : Nat} {a : Limbs} {w : Limb} {x : ZMod q} (ha : LRep q a x) (hw : w.toNat < q)
    (h0 : 0 < w.toNat) : LRep q (rawNegLS q false a w) (-(w.toNat : ZMod q) - x) := by
  have := ha.2.1
  refine ⟨rawNegLS_length, ?_, ?_⟩ <;> rw [rawNegLS_val ha.1 ha.2.1 hw]
  · split <;> omega
  · rw [cast_ifsub (by omega), Nat.cast_sub (by omega), ha.2.2]; simp

/-- Montgomery product; the first operand need not be reduced. -/
theorem LRep.mmul {q : Nat} (hq : q % 2 = 1) {a b : Limbs} {y z : ZMod q} (ha : a.length = n64 q) (hb : LRep q b y)
    (hz : z * R q = (val a : ZMod q) * y) : LRep q (rawMMul q a b) z := by
  obtain ⟨h1, h2, h3⟩ := rawMMul_spec hq ha hb.1 hb.2.1
  refine ⟨h1, h2, R_cancel hq ?_⟩
  rw [hz, ← hb.2.2, ← R_cast, ← Nat.cast_mul, ← Nat.cast_mul]
  exact cast_mod_eq h3

theorem LRep.mmul' {q : Nat} (hq : q % 2 = 1) {a b : Limbs} {x y z : ZMod q} (ha : LRep q a x) (hb : LRep q b y)
    (hz : z * R q = x * y) : LRep q (rawMMul q a b) z := LRep.mmul hq ha.1 hb (by rw [ha.2.2, hz])

theorem LRep.mmul1 {q : Nat} (hq : q % 2 = 1) {a : Limbs} {w : Limb} {x z : ZMod q} (ha : LRep q a x)
    (hz : z * R q = x * (w.toNat : ZMod q)) : LRep q (rawMMul1 q a w) z := by
  obtain ⟨h1, h2, h3⟩ := rawMMul1_spec (b := w) hq ha.1 ha.2.1
  refine ⟨h1, h2, R_cancel hq ?_⟩
  rw [hz, ← ha.2.2, ← R_cast, ← Nat.cast_mul, ← Nat.cast_mul]
  exact cast_mod_eq h3

theorem LRep.fromMont {q : Nat} (hq : q % 2 = 1) {a : Limbs} {x : ZMod q} (ha : LRep q a (x * R q)) :
    LRep q (rawFromMontgomery q a) x := by
  obtain ⟨h1, h2, h3⟩ := rawFromMontgomery_spec hq ha.1
  refine ⟨h1, h2, R_cancel hq ?_⟩
  rw [← ha.2.2, ← R_cast, ← Nat.cast_mul]
  exact cast_mod_eq h3

theorem LRep.R2 {q : Nat} (hq : 0 < q) : LRep q (rawR2 q) (R q * R q) := by
  refine ⟨by simp, ?_, ?_⟩ <;> rw [rawR2_val hq]
  · exact Nat.mod_lt _ hq
  · rw [cast_mod]; simp only [R, Nat.cast_pow, Nat.cast_ofNat]; rw [← pow_add]; congr 1; ring

theorem LRep.R3 {q : Nat} (hq : 0 < q) : LRep q (rawR3 q) (R q * R q * R q) := by
  refine ⟨by simp, ?_, ?_⟩ <;> rw [rawR3_val hq]
  · exact Nat.mod_lt _ hq
  · rw [cast_mod]; simp only [R, Nat.cast_pow, Nat.cast_ofNat]; rw [← pow_add, ← pow_add]; congr 1; ring

/-- A 64-bit integer of absolute value below `q` copied to the long format. -/
theorem LRep.copyS2L {q : Nat} {v : BitVec 64} (hv : v.toInt.natAbs < q) :
    LRep q (rawCopyS2L q v) ((v.toInt : ℤ) : ZMod q) := by
  have h := rawCopyS2L_val (q := q) (v := v) (Or.inl hv)
  refine ⟨rawCopyS2L_length, ?_, ?_⟩
  · have : (val (rawCopyS2L q v) : ℤ) < q := by rw [h]; split <;> omega
    exact_mod_cast this
  · have e : ((val (rawCopyS2L q v) : ℤ) : ZMod q) = ((v.toInt : ℤ) : ZMod q) := by
      rw [h]; split <;> simp
    rw [← e]; simp

/-! ## Short values -/

theorem sx_toInt (v : BitVec 32) : (sx v).toInt = v.toInt := by
  unfold sx; exact BitVec.toInt_signExtend_of_le (by norm_num)

theorem short_bounds (v : BitVec 32) : -2147483648 ≤ v.toInt ∧ v.toInt ≤ 2147483647 := by
  have h1 := BitVec.le_toInt v; have h2 := @BitVec.toInt_lt 32 v
  norm_num at h1 h2; omega

/-- A non-negative short value as an unsigned word. -/
theorem sx_toNat_of_nonneg {v : BitVec 32} (h : 0 ≤ v.toInt) : ((sx v).toNat : ℤ) = v.toInt := by
  have e := sx_toInt v
  have b := short_bounds v
  rw [BitVec.toInt_eq_toNat_cond] at e
  have := (sx v).isLt
  split at e <;> omega

/-- The negation of a negative short value as an unsigned word. -/
theorem neg_sx_toNat_of_neg {v : BitVec 32} (h : v.toInt < 0) : ((-(sx v)).toNat : ℤ) = -v.toInt := by
  have e := sx_toInt v
  have b := short_bounds v
  rw [BitVec.toInt_eq_toNat_cond] at e
  have := (sx v).isLt
  rw [BitVec.toNat_neg]
  split at e <;> omega

theorem sx_cast {q : Nat} {v : BitVec 32} (h : 0 ≤ v.toInt) : ((sx v).toNat : ZMod q) = ((v.toInt : ℤ) : ZMod q) := by
  rw [← sx_toNat_of_nonneg h]; simp

theorem neg_sx_cast {q : Nat} {v : BitVec 32} (h : v.toInt < 0) :
    ((-(sx v)).toNat : ZMod q) = -((v.toInt : ℤ) : ZMod q) := by
  rw [← Int.cast_neg, ← neg_sx_toNat_of_neg h, Int.cast_natCast]

theorem sx_lt {q : Nat} (hq : Modulus q) {v : BitVec 32} (h : 0 ≤ v.toInt) : (sx v).toNat < q := by
  have := hq.gt; have := sx_toNat_of_nonneg h; have := short_bounds v; omega

theorem neg_sx_lt {q : Nat} (hq : Modulus q) {v : BitVec 32} (h : v.toInt < 0) : (-(sx v)).toNat < q := by
  have := hq.gt; have := neg_sx_toNat_of_neg h; have := short_bounds v; omega

theorem shortLimbs_rep {q : Nat} {w : Limb} (hw : w.toNat < q) : LRep q (shortLimbs q w) (w.toNat : ZMod q) :=
  ⟨shortLimbs_length q w, by rwa [shortLimbs_val], by rw [shortLimbs_val]⟩

/-- The residue of a short value, as a number. -/
theorem short_val {q : Nat} (hq : Modulus q) (v : BitVec 32) :
    ((((v.toInt : ℤ) : ZMod q).val : ℤ)) = if v.toInt < 0 then (q : ℤ) + v.toInt else v.toInt := by
  have := hq.gt; have := short_bounds v
  have := hq.ne
  rw [ZMod.val_intCast]
  split
  · rw [← Int.add_emod_left, Int.emod_eq_of_lt (by omega) (by omega)]
  · rw [Int.emod_eq_of_lt (by omega) (by omega)]

theorem short_sval {q : Nat} (hq : Modulus q) (v : BitVec 32) : sval ((v.toInt : ℤ) : ZMod q) = v.toInt := by
  have := hq.gt; have := short_bounds v
  have h := short_val hq v
  unfold sval
  split at h <;> split <;> omega

theorem sshift31 {v : BitVec 64} {k : ℤ} (hk : v.toInt / 2147483648 = k) :
    v.sshiftRight 31 = BitVec.ofInt 64 k := by
  apply BitVec.eq_of_toInt_eq
  rw [BitVec.toInt_sshiftRight, BitVec.toInt_ofInt, Int.shiftRight_eq_div_pow]
  have e : ((2 ^ 31 : Nat) : ℤ) = 2147483648 := by norm_num
  rw [e, hk]
  have h1 := BitVec.le_toInt v
  have h2 := @BitVec.toInt_lt 64 v
  norm_num at h1 h2
  rw [Int.bmod_eq_of_le (by norm_num; omega) (by norm_num; omega)]

/-- `has_add32_overflow` is exact on sums and differences of two `int32_t`. -/
theorem hasAdd32_eq {v : BitVec 64} (h1 : -4294967296 ≤ v.toInt) (h2 : v.toInt < 4294967296) :
    hasAdd32Overflow v = !decide (-2147483648 ≤ v.toInt ∧ v.toInt < 2147483648) := by
  have hk : v.toInt / 2147483648 = -2 ∨ v.toInt / 2147483648 = -1 ∨ v.toInt / 2147483648 = 0 ∨
      v.toInt / 2147483648 = 1 := by omega
  unfold hasAdd32Overflow
  rcases hk with h | h | h | h
  · rw [sshift31 h, decide_eq_false (by omega)]; rfl
  · rw [sshift31 h, decide_eq_true (by omega)]; rfl
  · rw [sshift31 h, decide_eq_true (by omega)]; rfl
  · rw [sshift31 h, decide_eq_false (by omega)]; rfl

theorem truncate32_toInt {v : BitVec 64} (h1 : -2147483648 ≤ v.toInt) (h2 : v.toInt < 2147483648) :
    (v.truncate 32).toInt = v.toInt := by
  have e : v.truncate 32 = v.setWidth 32 := rfl
  rw [e, BitVec.toInt_setWidth]
  have h : (v.toNat : ℤ) = v.toInt ∨ (v.toNat : ℤ) = v.toInt + 18446744073709551616 := by
    rw [BitVec.toInt_eq_toNat_cond]; split <;> omega
  rcases h with h | h
  · rw [h, Int.bmod_eq_of_le (by norm_num; omega) (by norm_num; omega)]
  · rw [h, show v.toInt + 18446744073709551616 = v.toInt + ((2 ^ 32 : Nat) : ℤ) * 4294967296 by norm_num,
      Int.add_mul_bmod_self_left, Int.bmod_eq_of_le (by norm_num; omega) (by norm_num; omega)]

theorem toInt_of_bounds {w : Nat} {z : ℤ} (v : BitVec w) (h : v.toInt = z.bmod (2 ^ w))
    (h1 : -((2 ^ w : Nat) : ℤ) ≤ 2 * z) (h2 : 2 * z < ((2 ^ w : Nat) : ℤ)) : v.toInt = z := by
  rw [h, Int.bmod_eq_of_le (by omega) (by omega)]

theorem sx_add_toInt (a b : BitVec 32) : (sx a + sx b).toInt = a.toInt + b.toInt := by
  have := short_bounds a; have := short_bounds b
  apply toInt_of_bounds _ (by rw [BitVec.toInt_add, sx_toInt, sx_toInt]) <;> norm_num <;> omega

theorem sx_sub_toInt (a b : BitVec 32) : (sx a - sx b).toInt = a.toInt - b.toInt := by
  have := short_bounds a; have := short_bounds b
  apply toInt_of_bounds _ (by rw [BitVec.toInt_sub, sx_toInt, sx_toInt]) <;> norm_num <;> omega

theorem sx_neg_toInt (a : BitVec 32) : (-(sx a)).toInt = -a.toInt := by
  have := short_bounds a
  apply toInt_of_bounds _ (by rw [BitVec.toInt_neg, sx_toInt]) <;> norm_num <;> omega

theorem short_mul_bounds (a b : BitVec 32) :
    -4611686018427387904 ≤ a.toInt * b.toInt ∧ a.toInt * b.toInt ≤ 4611686018427387904 := by
  have ha := short_bounds a; have hb := short_bounds b
  have h : |a.toInt * b.toInt| ≤ 2147483648 * 2147483648 := by
    rw [abs_mul]
    exact mul_le_mul (abs_le.mpr (by omega)) (abs_le.mpr (by omega)) (abs_nonneg _) (by norm_num)
  have := abs_le.mp h
  norm_num at this
  exact this

theorem sx_mul_toInt (a b : BitVec 32) : (sx a * sx b).toInt = a.toInt * b.toInt := by
  have := short_mul_bounds a b
  generalize hz : a.toInt * b.toInt = z at *
  apply toInt_of_bounds _ (by rw [BitVec.toInt_mul, sx_toInt, sx_toInt, hz]) <;> norm_num <;> omega

end FF
