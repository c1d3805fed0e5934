import Verif.Montgomery
import Verif.RawBits
import Verif.LRep
import Verif.Consts

/-!
# Properties C01–C05: the raw limb routines

`val l` is the number written by the little-endian array `l`; `W = 2^64`.
-/

namespace FF.Props

open FF

/-- C01.  For every odd modulus and all `n64 q`-limb operands, the second one reduced, the generated Montgomery product is *the*
reduced array `r` with `r·2^(64n) ≡ a·b (mod q)`. -/
theorem C01_mmul {q : Nat} (hq : q % 2 = 1) {a b : Limbs} (ha : a.length = n64 q) (hb : b.length = n64 q) (hbq : val b < q) :
    ∀ r : Limbs, r = rawMMul q a b ↔
      (r.length = n64 q ∧ val r < q ∧ val r * 2 ^ (64 * n64 q) ≡ val a * val b [MOD q]) := by
  have h := rawMMul_spec hq ha hb hbq
  rw [W_pow] at h
  intro r
  constructor
  · rintro rfl; exact h
  · rintro ⟨h1, h2, h3⟩
    apply val_inj (h1.trans h.1.symm)
    have hc : Nat.gcd q (2 ^ (64 * n64 q)) = 1 :=
      Nat.Coprime.pow_right _ (Nat.coprime_two_right.mpr (Nat.odd_iff.mpr hq))
    have : val r ≡ val (rawMMul q a b) [MOD q] :=
      Nat.ModEq.cancel_right_of_coprime hc (h3.trans (Nat.ModEq.symm h.2.2))
    exact Nat.ModEq.eq_of_lt_of_lt this h2 h.2.1

/-- C01, squaring. -/
theorem C01_msquare {q : Nat} (hq : q % 2 = 1) {a : Limbs} (ha : a.length = n64 q) (haq : val a < q) :
    (rawMSquare q a).length = n64 q ∧ val (rawMSquare q a) < q ∧
      val (rawMSquare q a) * 2 ^ (64 * n64 q) ≡ val a * val a [MOD q] := by
  have h := rawMMul_spec hq ha ha haq
  rwa [W_pow] at h

/-- C01, both code variants.  The plain variant is exact whenever `a·b < q·2^(64n)`; the variant without carry words is exact
when in addition `b + q` fits the limbs — and the builder selects it only when every reduced `b` satisfies that. -/
theorem C01_both_variants {q : Nat} (hq : q % 2 = 1) (opt : Bool) {a b : Limbs} (ha : a.length = n64 q)
    (hb : b.length = n64 q) (hbq : opt = true → val b + q ≤ 2 ^ (64 * n64 q)) (hab : val a * val b < q * 2 ^ (64 * n64 q)) :
    (rawMMulV q opt a b).length = n64 q ∧ val (rawMMulV q opt a b) < q ∧
      val (rawMMulV q opt a b) * 2 ^ (64 * n64 q) ≡ val a * val b [MOD q] := by
  have h := rawMMulV_spec hq opt ha hb (by rwa [W_pow]) (by rwa [W_pow])
  rwa [W_pow] at h

/-- C01, the builder's choice is sound. -/
theorem C01_choice_sound {q b : Nat} (hopt : canOpt q = true) (hbq : b < q) : b + q ≤ 2 ^ (64 * n64 q) := by
  have := canOpt_add hbq hopt
  rwa [W_pow] at this

example : (rawMMul bnR (toLimbs 4 (2 ^ 256 - 1)) (toLimbs 4 (bnR - 1))).length = n64 bnR :=
  ((C01_mmul (q := bnR) (by decide +kernel) (by simp [toLimbs_length, n64_bnR]) (by simp [toLimbs_length, n64_bnR])
    (by decide +kernel) _).mp rfl).1
example : (rawMMul gl (toLimbs 1 (2 ^ 64 - 1)) (toLimbs 1 (gl - 1))).length = n64 gl :=
  ((C01_mmul (q := gl) (by decide +kernel) (by simp [toLimbs_length, n64_gl]) (by simp [toLimbs_length, n64_gl])
    (by decide +kernel) _).mp rfl).1

/-- C02.  Product by a single word. -/
theorem C02_mmul1 {q : Nat} (hq : q % 2 = 1) {a : Limbs} (b : Limb) (ha : a.length = n64 q) (haq : val a < q) :
    ∀ r : Limbs, r = rawMMul1 q a b ↔
      (r.length = n64 q ∧ val r < q ∧ val r * 2 ^ (64 * n64 q) ≡ val a * b.toNat [MOD q]) := by
  have h := rawMMul1_spec (b := b) hq ha haq
  rw [W_pow] at h
  intro r
  constructor
  · rintro rfl; exact h
  · rintro ⟨h1, h2, h3⟩
    apply val_inj (h1.trans h.1.symm)
    have hc : Nat.gcd q (2 ^ (64 * n64 q)) = 1 :=
      Nat.Coprime.pow_right _ (Nat.coprime_two_right.mpr (Nat.odd_iff.mpr hq))
    have : val r ≡ val (rawMMul1 q a b) [MOD q] :=
      Nat.ModEq.cancel_right_of_coprime hc (h3.trans (Nat.ModEq.symm h.2.2))
    exact Nat.ModEq.eq_of_lt_of_lt this h2 h.2.1

example : (rawMMul1 bnR (toLimbs 4 (bnR - 1)) (-1)).length = n64 bnR :=
  ((C02_mmul1 (q := bnR) (by decide +kernel) (-1) (by simp [toLimbs_length, n64_bnR]) (by decide +kernel) _).mp rfl).1

/-- C03.  Into Montgomery form: any `n`-limb input (reduced or not) is mapped to the canonical residue of `a·2^(64n)`. -/
theorem C03_toMontgomery {q : Nat} (hq : q % 2 = 1) (hq1 : 1 < q) {a : Limbs} (ha : a.length = n64 q) :
    (rawToMontgomery q a).length = n64 q ∧ val (rawToMontgomery q a) = val a * 2 ^ (64 * n64 q) % q := by
  have h := rawToMontgomery_spec hq hq1 ha
  rw [W_pow] at h
  exact ⟨h.1, h.2.2⟩

/-- C03.  Out of Montgomery form: any `n`-limb input is mapped to the reduced `r` with `r·2^(64n) ≡ a`. -/
theorem C03_fromMontgomery {q : Nat} (hq : q % 2 = 1) {a : Limbs} (ha : a.length = n64 q) :
    (rawFromMontgomery q a).length = n64 q ∧ val (rawFromMontgomery q a) < q ∧
      val (rawFromMontgomery q a) * 2 ^ (64 * n64 q) ≡ val a [MOD q] := by
  have h := rawFromMontgomery_spec hq ha
  rw [W_pow] at h
  exact h

/-- C03.  Back and forth, from any `n`-limb input: the canonical residue, hence the same limbs when the input is reduced. -/
theorem C03_roundtrip {q : Nat} (hq : q % 2 = 1) (hq1 : 1 < q) {a : Limbs} (ha : a.length = n64 q) :
    rawFromMontgomery q (rawToMontgomery q a) = toLimbs (n64 q) (val a % q) := by
  have h1 := C03_toMontgomery hq hq1 ha
  have h2 := C03_fromMontgomery hq h1.1
  have hlt : val a % q < q := Nat.mod_lt _ (by omega)
  have hW := q_lt_Wn q
  apply val_inj (by rw [h2.1, toLimbs_length])
  rw [val_toLimbs_of_lt (by omega)]
  have hc : Nat.gcd q (2 ^ (64 * n64 q)) = 1 :=
    Nat.Coprime.pow_right _ (Nat.coprime_two_right.mpr (Nat.odd_iff.mpr hq))
  have e : val (rawFromMontgomery q (rawToMontgomery q a)) ≡ val a [MOD q] := by
    refine Nat.ModEq.cancel_right_of_coprime hc (h2.2.2.trans ?_)
    rw [h1.2]; exact Nat.mod_modEq _ _
  exact Nat.ModEq.eq_of_lt_of_lt (e.trans (Nat.mod_modEq _ _).symm) h2.2.1 hlt

/-- C03.  Reduced arrays: into Montgomery form and back is the identity. -/
theorem C03_roundtrip_reduced {q : Nat} (hq : q % 2 = 1) (hq1 : 1 < q) {a : Limbs} (ha : a.length = n64 q) (haq : val a < q) :
    rawFromMontgomery q (rawToMontgomery q a) = a := by
  rw [C03_roundtrip hq hq1 ha, Nat.mod_eq_of_lt haq, ← ha, toLimbs_val]

/-- C03.  The opposite order is the identity on reduced arrays. -/
theorem C03_roundtrip' {q : Nat} (hq : q % 2 = 1) (hq1 : 1 < q) {a : Limbs} (ha : a.length = n64 q) (haq : val a < q) :
    rawToMontgomery q (rawFromMontgomery q a) = a := by
  have h1 := C03_fromMontgomery hq ha
  have h2 := C03_toMontgomery hq hq1 h1.1
  apply val_inj (h2.1.trans ha.symm)
  rw [h2.2]
  have : val (rawFromMontgomery q a) * 2 ^ (64 * n64 q) % q = val a % q := h1.2.2
  rw [this, Nat.mod_eq_of_lt haq]

example : rawFromMontgomery bnR (rawToMontgomery bnR (toLimbs 4 12345)) = toLimbs 4 12345 :=
  C03_roundtrip_reduced (by decide +kernel) (by decide +kernel) (by simp [toLimbs_length, n64_bnR]) (by decide +kernel)

/-- C04.  Addition of reduced operands. -/
theorem C04_add {q : Nat} {a b : Limbs} (ha : a.length = n64 q) (hb : b.length = n64 q) (haq : val a < q) (hbq : val b < q) :
    (rawAdd q a b).length = n64 q ∧ val (rawAdd q a b) = (val a + val b) % q :=
  ⟨rawAdd_length ha, rawAdd_val ha hb (by omega)⟩

/-- C04.  Long plus short (short below `q`). -/
theorem C04_addLS {q : Nat} {a : Limbs} {w : Limb} (ha : a.length = n64 q) (haq : val a < q) (hw : w.toNat < q) :
    (rawAddLS q a w).length = n64 q ∧ val (rawAddLS q a w) = (val a + w.toNat) % q :=
  ⟨rawAddLS_length ha, rawAddLS_val ha (by omega)⟩

theorem ifsub_eq {q x y : Nat} (hx : x < q) (hy : y < q) : ((if x < y then x + q - y else x - y : Nat) : ℤ) = ((x : ℤ) - y) % q := by
  split
  · rw [← Int.add_emod_right, Int.emod_eq_of_lt (by omega) (by omega)]; omega
  · rw [Int.emod_eq_of_lt (by omega) (by omega)]; omega

/-- C04.  Subtraction: the canonical residue of the integer difference. -/
theorem C04_sub {q : Nat} {a b : Limbs} (ha : a.length = n64 q) (hb : b.length = n64 q) (haq : val a < q) (hbq : val b < q) :
    (rawSub q a b).length = n64 q ∧ (val (rawSub q a b) : ℤ) = ((val a : ℤ) - val b) % q :=
  ⟨rawSub_length ha, by rw [rawSub_val ha hb (by omega), ifsub_eq haq hbq]⟩

/-- C04.  Long minus short. -/
theorem C04_subLS {q : Nat} {a : Limbs} {w : Limb} (ha : a.length = n64 q) (haq : val a < q) (hw : w.toNat < q) :
    (rawSubLS q a w).length = n64 q ∧ (val (rawSubLS q a w) : ℤ) = ((val a : ℤ) - w.toNat) % q :=
  ⟨rawSubLS_length ha, by rw [rawSubLS_val ha (by omega), ifsub_eq haq hw]⟩

/-- C04.  Short minus long. -/
theorem C04_subSL {q : Nat} {b : Limbs} {w : Limb} (hb : b.length = n64 q) (hbq : val b < q) (hw : w.toNat < q) :
    (rawSubSL q w b).length = n64 q ∧ (val (rawSubSL q w b) : ℤ) = ((w.toNat : ℤ) - val b) % q :=
  ⟨rawSubSL_length, by rw [rawSubSL_val hb (by omega), ifsub_eq hw hbq]⟩

/-- C04.  Negation. -/
theorem C04_neg {q : Nat} {a : Limbs} (ha : a.length = n64 q) (haq : val a < q) :
    (rawNeg q a).length = n64 q ∧ (val (rawNeg q a) : ℤ) = (-(val a : ℤ)) % q := by
  refine ⟨rawNeg_length, ?_⟩
  rw [rawNeg_val ha haq]
  push_cast [Nat.cast_sub haq.le]
  rw [sub_eq_neg_add, Int.add_emod_right]

/-- C04.  Minus (long plus short), result array distinct from the operand array, short part not zero. -/
theorem C04_negLS {q : Nat} {a : Limbs} {w : Limb} (ha : a.length = n64 q) (haq : val a < q) (hw : w.toNat < q)
    (h0 : 0 < w.toNat) :
    (rawNegLS q false a w).length = n64 q ∧ (val (rawNegLS q false a w) : ℤ) = (-((val a : ℤ) + w.toNat)) % q := by
  refine ⟨rawNegLS_length, ?_⟩
  rw [rawNegLS_val ha haq hw, ifsub_eq (by omega) haq]
  push_cast [Nat.cast_sub hw.le]
  rw [show ((q : ℤ) - w.toNat - val a) = -((val a : ℤ) + w.toNat) + q by ring, Int.add_emod_right]

/-- C04.  With a zero short part the value is `q - a`: canonical except for `a = 0`, which comes out as `q` itself. -/
theorem C04_negLS_zero {q : Nat} {a : Limbs} (ha : a.length = n64 q) (haq : val a < q) : val (rawNegLS q false a 0) = q - val a := by
  rw [rawNegLS_val ha haq (by simp; omega), if_neg (by simp; omega)]; simp

/-- C04.  Sign-extending conversion of a 64-bit integer smaller in absolute value than `q`. -/
theorem C04_copyS2L {q : Nat} {v : BitVec 64} (hv : v.toInt.natAbs < q) :
    (rawCopyS2L q v).length = n64 q ∧ (val (rawCopyS2L q v) : ℤ) = v.toInt % q := by
  refine ⟨rawCopyS2L_length, ?_⟩
  rw [rawCopyS2L_val (Or.inl hv)]
  split
  · rw [← Int.add_emod_right, Int.emod_eq_of_lt (by omega) (by omega)]
    omega
  · rw [Int.emod_eq_of_lt (by omega) (by omega)]

example : (val (rawSub bnR (toLimbs 4 3) (toLimbs 4 5)) : ℤ) = (((3 : Nat) : ℤ) - ((5 : Nat) : ℤ)) % (bnR : ℤ) := by
  have h3 : val (toLimbs 4 3) = 3 := by decide +kernel
  have h5 : val (toLimbs 4 5) = 5 := by decide +kernel
  have := (C04_sub (q := bnR) (a := toLimbs 4 3) (b := toLimbs 4 5) (by simp [toLimbs_length, n64_bnR])
    (by simp [toLimbs_length, n64_bnR]) (by decide +kernel) (by decide +kernel)).2
  rwa [h3, h5] at this
example : (rawCopyS2L bnR (-7)).length = n64 bnR := (C04_copyS2L (by decide +kernel)).1

/-- C05.  `n64` is the least number of 64-bit limbs that holds `q`. -/
theorem C05_limbs {q : Nat} (hq : 1 < q) : q < 2 ^ (64 * n64 q) ∧ ∀ k, q < 2 ^ (64 * k) → n64 q ≤ k := by
  have h1 := q_lt_Wn q
  have h2 := Wn_le_q (q := q) (by omega)
  rw [W_pow] at h1 h2
  refine ⟨h1, fun k hk => ?_⟩
  by_contra hc
  have : 2 ^ (64 * k) ≤ 2 ^ (64 * (n64 q - 1)) := Nat.pow_le_pow_right (by norm_num) (by omega)
  omega

/-- C05.  `R2`, `R3`, `half` and `q` itself. -/
theorem C05_constants {q : Nat} (hq : 1 < q) :
    val (rawq q) = q ∧ val (rawR2 q) = 2 ^ (128 * n64 q) % q ∧ val (rawR3 q) = 2 ^ (192 * n64 q) % q ∧
      val (half q) = q / 2 := by
  refine ⟨rawq_val q, ?_, ?_, ?_⟩
  · rw [rawR2_val (by omega)]; congr 2; ring
  · rw [rawR3_val (by omega)]; congr 2; ring
  · exact constantElement_val (by have := q_lt_Wn q; omega)

/-- C05.  The Montgomery word. -/
theorem C05_np {q : Nat} (hq : q % 2 = 1) : (q * (np q).toNat + 1) % 2 ^ 64 = 0 := by
  have := np_spec hq
  rwa [← W_eq] at this

/-- C05.  The inverse modulo `2^64` used for it is unique, so any correct `modInv` gives this constant. -/
theorem C05_modInv_unique {q x : Nat} (hq : q % 2 = 1) (hx : x < 2 ^ 64) (h : q * x % 2 ^ 64 = 1) : x = modInv64 q := by
  have h1 := modInv64_spec hq
  have hc : Nat.gcd (2 ^ 64) q = 1 :=
    Nat.Coprime.pow_left _ (Nat.coprime_two_left.mpr (Nat.odd_iff.mpr hq))
  have e : q * x ≡ q * modInv64 q [MOD 2 ^ 64] := h.trans h1.symm
  exact Nat.ModEq.eq_of_lt_of_lt (Nat.ModEq.cancel_left_of_coprime hc e) hx (modInv64_lt q)

/-- C05.  Masking the top limb keeps exactly the bits below the bit length of `q`. -/
theorem C05_mask {q : Nat} {r : Limbs} (h : r.length = n64 q) : val (maskTop q r) = val r % 2 ^ bitLen q :=
  maskTop_val h

example : (bnR * (np bnR).toNat + 1) % 2 ^ 64 = 0 := C05_np (by decide +kernel)
example : np bnR = 0xc2e1f593efffffff := by decide +kernel

end FF.Props
