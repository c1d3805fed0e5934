import Verif.TowerSpec
import Mathlib.FieldTheory.KummerPolynomial
import Mathlib.FieldTheory.Finite.Basic
import Mathlib.Algebra.CharP.Algebra
import Mathlib.Algebra.CharP.Lemmas
import Mathlib.NumberTheory.LegendreSymbol.Basic

/-!
# The BN254 tower: fields, inverses, Frobenius maps
-/

set_option linter.unusedSectionVars false
set_option linter.unusedSimpArgs false

namespace FF

open Polynomial

/-- The base field of BN254. -/
abbrev Fq := ZMod bnP

theorem bnP_gt : 2 < bnP := by decide +kernel

instance : NeZero (2 : Fq) := ⟨by
  intro h
  have : (((2 : Nat) : Nat) : ZMod bnP) = 0 := by exact_mod_cast h
  rw [ZMod.natCast_eq_zero_iff] at this
  exact absurd (Nat.le_of_dvd (by norm_num) this) (by have := bnP_gt; omega)⟩

theorem neg_one_nonsquare (b : Fq) : b ^ 2 ≠ -1 := by
  intro h
  have : IsSquare (-1 : ZMod bnP) := ⟨b, by rw [← h, pow_two]⟩
  rw [ZMod.exists_sq_eq_neg_one_iff] at this
  exact this (by decide +kernel)

theorem c82_ne_zero : (82 : Fq) ≠ 0 := by
  intro h
  have : (((82 : Nat) : Nat) : ZMod bnP) = 0 := by exact_mod_cast h
  rw [ZMod.natCast_eq_zero_iff] at this
  exact absurd (Nat.le_of_dvd (by norm_num) this) (by decide +kernel)

theorem c82_pow (e c : Nat) (hc : c < bnP) (h : powMod bnP 82 e = c) : (82 : Fq) ^ e = (c : Fq) := by
  have := (powMod_eq (by decide +kernel) 82 e c hc).1 h
  exact_mod_cast this

theorem c82_pow_ne_one (e : Nat) (h : powMod bnP 82 e ≠ 1) : (82 : Fq) ^ e ≠ 1 := by
  intro hh
  exact h ((powMod_eq (by decide +kernel) 82 e 1 (by decide +kernel)).2 (by exact_mod_cast hh))

theorem c82_nonsquare (b : Fq) : b ^ 2 ≠ 82 := by
  intro h
  have hb : b ≠ 0 := by rintro rfl; exact c82_ne_zero (by rw [← h]; ring)
  have h1 := ZMod.pow_card_sub_one_eq_one hb
  have : (82 : Fq) ^ ((bnP - 1) / 2) = 1 := by
    rw [← h, ← pow_mul]
    have e : 2 * ((bnP - 1) / 2) = bnP - 1 := by decide +kernel
    rw [e, h1]
  exact c82_pow_ne_one _ (by decide +kernel) this

theorem c82_noncube (b : Fq) : b ^ 3 ≠ 82 := by
  intro h
  have hb : b ≠ 0 := by rintro rfl; exact c82_ne_zero (by rw [← h]; ring)
  have h1 := ZMod.pow_card_sub_one_eq_one hb
  have : (82 : Fq) ^ ((bnP - 1) / 3) = 1 := by
    rw [← h, ← pow_mul]
    have e : 3 * ((bnP - 1) / 3) = bnP - 1 := by decide +kernel
    rw [e, h1]
  exact c82_pow_ne_one _ (by decide +kernel) this

/-! ### The extensions are fields -/

section norms
variable {K : Type} [Field K] [DecidableEq K]

/-- `a² + b²`. -/
def norm2 (e : F2El K) : K := e.a * e.a - (-1) * (e.b * e.b)

theorem norm2_mul (a b : F2El K) : norm2 (F2.mul (-1) a b) = norm2 a * norm2 b := by
  rw [F2.mul_eq]; simp only [norm2]; ring

theorem norm2_ne_zero (h1 : ∀ b : K, b ^ 2 ≠ -1) (e : F2El K) (he : e ≠ F2.zero) : norm2 e ≠ 0 := by
  intro h
  simp only [norm2] at h
  by_cases hb : e.b = 0
  · rw [hb] at h
    have : e.a = 0 := by simpa using h
    exact he (F2El.ext this hb)
  · refine h1 (e.a / e.b) ?_
    field_simp
    linear_combination h
end norms

instance fact2 : Fact (Irreducible (X ^ 2 - C (-1 : Fq))) :=
  ⟨X_pow_sub_C_irreducible_of_prime Nat.prime_two neg_one_nonsquare⟩

theorem F2.toExt_mul {K : Type} [Field K] [DecidableEq K] (nr : K) (a b : F2El K) :
    F2.toExt nr (F2.mul nr a b) = F2.toExt nr a * F2.toExt nr b := F2.ev_mul (F2.hu nr) a b

theorem F2.toExt_xi {K : Type} [Field K] [DecidableEq K] : F2.toExt (-1 : K) ⟨9, 1⟩ = xi K := by
  show AdjoinRoot.of _ (9 : K) + AdjoinRoot.of _ (1 : K) * AdjoinRoot.root _ = 9 + AdjoinRoot.root _
  rw [map_one, one_mul, map_ofNat]

theorem xi_nonsquare (b : Ext2 (-1 : Fq)) : b ^ 2 ≠ xi Fq := by
  intro h
  obtain ⟨e, rfl⟩ := (F2.toExt_bijective (-1 : Fq)).2 b
  rw [pow_two, ← F2.toExt_mul, ← F2.toExt_xi] at h
  have := congrArg norm2 ((F2.toExt_bijective (-1 : Fq)).1 h)
  rw [norm2_mul] at this
  refine c82_nonsquare (norm2 e) ?_
  rw [pow_two, this]
  simp only [norm2]; norm_num

theorem xi_noncube (b : Ext2 (-1 : Fq)) : b ^ 3 ≠ xi Fq := by
  intro h
  obtain ⟨e, rfl⟩ := (F2.toExt_bijective (-1 : Fq)).2 b
  have e3 : F2.toExt (-1 : Fq) e ^ 3 = F2.toExt (-1) (F2.mul (-1) (F2.mul (-1) e e) e) := by
    rw [F2.toExt_mul, F2.toExt_mul]; ring
  rw [e3, ← F2.toExt_xi] at h
  have := congrArg norm2 ((F2.toExt_bijective (-1 : Fq)).1 h)
  rw [norm2_mul, norm2_mul] at this
  refine c82_noncube (norm2 e) ?_
  have e4 : norm2 e ^ 3 = norm2 e * norm2 e * norm2 e := by ring
  rw [e4, this]
  simp only [norm2]; norm_num

instance fact6 : Fact (Irreducible (X ^ 3 - C (xi Fq))) :=
  ⟨X_pow_sub_C_irreducible_of_prime Nat.prime_three xi_noncube⟩

theorem F6.toExt_mul {K : Type} [Field K] [DecidableEq K] (a b : F6El K) :
    F6.toExt (F6.mul a b) = F6.toExt a * F6.toExt b := by
  rw [F6.toExt_eq, F6.toExt_eq, F6.toExt_eq]; exact F6.ev_mul F6.hu F6.ht a b

/-- The norm of `Ext6` over `Ext2` is multiplicative. -/
theorem F6.normE_mul {K : Type} [Field K] [DecidableEq K] [NeZero (2 : K)] (a b : F6El K) :
    F6.normE (F6.mul a b) = F2.mul (-1) (F6.normE a) (F6.normE b) := by
  apply (F2.toExt_bijective (-1 : K)).1
  simp only [F2.toExt_eq]
  simp only [F6.normE, F6.mul, F6.fmul, F6.fsquare, F2.ev_mul (F2.hu _), F2.ev_add, F2.ev_sub, F2.ev_mulXi (F2.hu _), F2.ev_square (F2.hu _)]
  generalize 9 + AdjoinRoot.root (X ^ 2 - C (-1 : K)) = ξ
  generalize ev2 (AdjoinRoot.of (X ^ 2 - C (-1 : K))) (AdjoinRoot.root (X ^ 2 - C (-1 : K))) a.x = ax
  generalize ev2 (AdjoinRoot.of (X ^ 2 - C (-1 : K))) (AdjoinRoot.root (X ^ 2 - C (-1 : K))) a.y = ay
  generalize ev2 (AdjoinRoot.of (X ^ 2 - C (-1 : K))) (AdjoinRoot.root (X ^ 2 - C (-1 : K))) a.z = az
  generalize ev2 (AdjoinRoot.of (X ^ 2 - C (-1 : K))) (AdjoinRoot.root (X ^ 2 - C (-1 : K))) b.x = bx
  generalize ev2 (AdjoinRoot.of (X ^ 2 - C (-1 : K))) (AdjoinRoot.root (X ^ 2 - C (-1 : K))) b.y = by'
  generalize ev2 (AdjoinRoot.of (X ^ 2 - C (-1 : K))) (AdjoinRoot.root (X ^ 2 - C (-1 : K))) b.z = bz
  ring

theorem F6.toExt_tau {K : Type} [Field K] [DecidableEq K] : F6.toExt (⟨F2.zero, F2.one, F2.zero⟩ : F6El K) = tau K := by
  rw [F6.toExt_eq]
  simp [ev6, F2.ev_zero, F2.ev_one]

theorem F6.toExt_one {K : Type} [Field K] [DecidableEq K] : F6.toExt (F6.one : F6El K) = 1 := by
  rw [F6.toExt_eq]; exact F6.ev_one

theorem F6.toExt_zero {K : Type} [Field K] [DecidableEq K] : F6.toExt (F6.zero : F6El K) = 0 := by
  rw [F6.toExt_eq]; exact F6.ev_zero

theorem F6.normE_tau {K : Type} [Field K] [DecidableEq K] [NeZero (2 : K)] : F6.normE (⟨F2.zero, F2.one, F2.zero⟩ : F6El K) = ⟨9, 1⟩ := by
  apply (F2.toExt_bijective (-1 : K)).1
  rw [F2.toExt_xi, F2.toExt_eq]
  simp only [F6.normE, F6.fmul, F6.fsquare, F2.ev_mul (F2.hu _), F2.ev_add, F2.ev_sub, F2.ev_mulXi (F2.hu _), F2.ev_square (F2.hu _), F2.ev_zero, F2.ev_one]
  ring

theorem F6.normE_one {K : Type} [Field K] [DecidableEq K] [NeZero (2 : K)] : F6.normE (F6.one : F6El K) = F2.one := by
  apply (F2.toExt_bijective (-1 : K)).1
  rw [F2.toExt_eq, F2.toExt_eq]
  simp only [F6.normE, F6.one, F6.fmul, F6.fsquare, F2.ev_mul (F2.hu _), F2.ev_add, F2.ev_sub, F2.ev_mulXi (F2.hu _), F2.ev_square (F2.hu _), F2.ev_zero, F2.ev_one]
  ring

theorem tau_nonsquare (b : Ext6 Fq) : b ^ 2 ≠ tau Fq := by
  intro h
  obtain ⟨e, rfl⟩ := (F6.toExt_bijective (K := Fq)).2 b
  rw [pow_two, ← F6.toExt_mul, ← F6.toExt_tau] at h
  have := congrArg F6.normE ((F6.toExt_bijective (K := Fq)).1 h)
  rw [F6.normE_mul, F6.normE_tau] at this
  have := congrArg (F2.toExt (-1)) this
  rw [F2.toExt_mul, F2.toExt_xi] at this
  exact xi_nonsquare _ ((pow_two _).trans this)

instance fact12 : Fact (Irreducible (X ^ 2 - C (tau Fq))) :=
  ⟨X_pow_sub_C_irreducible_of_prime Nat.prime_two tau_nonsquare⟩

/-! ### Inverses -/

theorem F2.norm_ne_zero (a : F2El Fq) (h : a ≠ F2.zero) : a.a * a.a - (-1) * (a.b * a.b) ≠ 0 := norm2_ne_zero neg_one_nonsquare a h

theorem F6.normE_ne_zero (a : F6El Fq) (h : a ≠ F6.zero) : F6.normE a ≠ F2.zero := by
  intro h0
  have hne : F6.toExt a ≠ 0 := fun h' => h (F6.toExt_bijective.1 (h'.trans F6.toExt_zero.symm))
  obtain ⟨b, hb⟩ := (F6.toExt_bijective (K := Fq)).2 (F6.toExt a)⁻¹
  have h1 : F6.mul a b = F6.one := by
    apply F6.toExt_bijective.1
    rw [F6.toExt_mul, hb, F6.toExt_one, mul_inv_cancel₀ hne]
  have h2 := congrArg F6.normE h1
  rw [F6.normE_mul, F6.normE_one, h0, F2.mul_eq] at h2
  have := congrArg F2El.a h2
  simp [F2.zero, F2.one] at this

theorem F6.inv_ev {R : Type} [CommRing R] {f : Fq →+* R} {u t : R} (hu : u ^ 2 = f (-1)) (ht : t ^ 3 = 9 + u)
    (a : F6El Fq) (h : a ≠ F6.zero) : ev6 f u t (F6.inv a) * ev6 f u t a = 1 :=
  F6.ev_inv hu ht a (F2.ev_inv hu _ (F2.norm_ne_zero _ (F6.normE_ne_zero a h)))

theorem F12.normE_ne_zero (a : F12El Fq) (h : a ≠ F12.zero) : F12.normE a ≠ F6.zero := by
  intro h0
  have h1 := congrArg F6.toExt h0
  rw [F6.toExt_zero, F6.toExt_eq, F12.normE, F6.ev_sub, F6.ev_square F6.hu F6.ht, F6.ev_mulTau F6.hu F6.ht,
    F6.ev_square F6.hu F6.ht, ← F6.toExt_eq, ← F6.toExt_eq] at h1
  by_cases hx : F6.toExt a.x = 0
  · rw [hx, mul_zero, mul_zero, sub_zero] at h1
    have hy : F6.toExt a.y = 0 := by simpa using h1
    exact h (F12El.ext (F6.toExt_bijective.1 (hx.trans F6.toExt_zero.symm)) (F6.toExt_bijective.1 (hy.trans F6.toExt_zero.symm)))
  · refine tau_nonsquare (F6.toExt a.y / F6.toExt a.x) ?_
    rw [div_pow, div_eq_iff (pow_ne_zero 2 hx)]
    linear_combination h1

theorem F12.inv_ev {R : Type} [CommRing R] {f : Fq →+* R} {u t w : R} (hu : u ^ 2 = f (-1)) (ht : t ^ 3 = 9 + u) (hw : w ^ 2 = t)
    (a : F12El Fq) (h : a ≠ F12.zero) : ev12 f u t w (F12.inv a) * ev12 f u t w a = 1 :=
  F12.ev_inv hu ht hw a (F6.inv_ev hu ht _ (F12.normE_ne_zero a h))

/-! ### Frobenius maps -/

/-- Product of two numbers of `ℤ[i]` modulo `p`. -/
def gmul (a b : Nat × Nat) : Nat × Nat :=
  ((a.1 * b.1 + (bnP - a.2 * b.2 % bnP)) % bnP, (a.1 * b.2 + a.2 * b.1) % bnP)

def gpowAux : Nat → Nat × Nat → Nat → Nat × Nat → Nat × Nat
  | 0, _, _, acc => acc
  | n + 1, a, e, acc => gpowAux n (gmul a a) (e / 2) (if e % 2 = 1 then gmul acc a else acc)

/-- The power by squaring. -/
def gpow (a : Nat × Nat) (e : Nat) : Nat × Nat := gpowAux (e.log2 + 1) a e (1, 0)

section frob
variable {R : Type} [CommRing R] {f : Fq →+* R} {u t w : R}

/-- The value of a pair. -/
def gev (f : Fq →+* R) (u : R) (a : Nat × Nat) : R := f (a.1 : Fq) + f (a.2 : Fq) * u

theorem gev_mul (hu : u ^ 2 = f (-1)) (a b : Nat × Nat) : gev f u (gmul a b) = gev f u a * gev f u b := by
  have hu' : u ^ 2 = -1 := by rw [hu, map_neg, map_one]
  have h1 : ((bnP - a.2 * b.2 % bnP : Nat) : Fq) = -((a.2 : Fq) * (b.2 : Fq)) := by
    rw [Nat.cast_sub (Nat.le_of_lt (Nat.mod_lt _ (by decide +kernel))), ZMod.natCast_self, ZMod.natCast_mod, Nat.cast_mul, zero_sub]
  simp only [gev, gmul, ZMod.natCast_mod, Nat.cast_add, Nat.cast_mul, h1]
  simp only [map_add, map_mul, map_neg]
  linear_combination (-(f (a.2 : Fq) * f (b.2 : Fq))) * hu'

theorem gev_powAux (hu : u ^ 2 = f (-1)) : ∀ n a e acc, e < 2 ^ n → gev f u (gpowAux n a e acc) = gev f u acc * gev f u a ^ e := by
  intro n
  induction n with
  | zero =>
    intro a e acc h
    obtain rfl : e = 0 := by simpa using h
    simp [gpowAux]
  | succ n ih =>
    intro a e acc h
    rw [gpowAux, ih _ _ _ (by omega), gev_mul hu]
    have he : e = 2 * (e / 2) + e % 2 := by omega
    conv_rhs => rw [he, pow_add, pow_mul, pow_two]
    rcases Nat.mod_two_eq_zero_or_one e with h | h <;> simp only [h, if_true, Nat.zero_ne_one, if_false, pow_zero, pow_one]
    · ring
    · rw [gev_mul hu]; ring

theorem gev_pow (hu : u ^ 2 = f (-1)) (a : Nat × Nat) (e : Nat) : gev f u (gpow a e) = gev f u a ^ e := by
  rw [gpow, gev_powAux hu _ _ _ _ Nat.lt_log2_self]
  simp [gev]

theorem gev_xi : gev f u (9, 1) = 9 + u := by
  show f ((9 : Nat) : Fq) + f ((1 : Nat) : Fq) * u = 9 + u
  rw [map_natCast, map_natCast]; norm_num

/-- `c`, as stored in the source, is the number of `ℤ[i]` it denotes. -/
theorem gev_c6 : ev2 f u F12.xiToPMinus1Over6 = gev f u
    (8376118865763821496583973867626364092589906065868298776909617916018768340080,
     16469823323077808223889137241176536799009286646108169935659301613961712198316) := rfl
theorem gev_c3 : ev2 f u F6.xiToPMinus1Over3 = gev f u
    (21575463638280843010398324269430826099269044274347216827212613867836435027261,
     10307601595873709700152284273816112264069230130616436755625194854815875713954) := rfl
theorem gev_c3' : ev2 f u F6.xiTo2PMinus2Over3 = gev f u
    (2581911344467009335267311115468803099551665605076196740867805258568234346338,
     19937756971775647987995932169929341994314640652964949448313374472400716661030) := rfl

theorem c6_eq (hu : u ^ 2 = f (-1)) : ev2 f u F12.xiToPMinus1Over6 = (9 + u) ^ ((bnP - 1) / 6) := by
  rw [gev_c6, ← gev_xi, ← gev_pow hu]
  exact congrArg (gev f u) (by decide +kernel)
theorem c3_eq (hu : u ^ 2 = f (-1)) : ev2 f u F6.xiToPMinus1Over3 = (9 + u) ^ ((bnP - 1) / 3) := by
  rw [gev_c3, ← gev_xi, ← gev_pow hu]
  exact congrArg (gev f u) (by decide +kernel)
theorem c3'_eq (hu : u ^ 2 = f (-1)) : ev2 f u F6.xiTo2PMinus2Over3 = ev2 f u F6.xiToPMinus1Over3 ^ 2 := by
  rw [gev_c3', gev_c3, pow_two, ← gev_mul hu]
  exact congrArg (gev f u) (by decide +kernel)

theorem conj_c6 (hu : u ^ 2 = f (-1)) : ev2 f u F12.xiToPMinus1Over6 * ev2 f u (F2.conjugate F12.xiToPMinus1Over6) = f F12.xiToPSquaredMinus1Over6 := by
  rw [← F2.ev_mul hu, F2.mul_eq]
  simp only [ev2, F2.conjugate]
  have h2 : ∀ a b : Fq, a * -b + b * a = 0 := fun a b => by ring
  rw [h2, map_zero, zero_mul, add_zero]
  refine congrArg f ?_
  simp only [F12.xiToPMinus1Over6, F12.xiToPSquaredMinus1Over6]
  have e : ∀ a b : Fq, a * a + -1 * (b * -b) = a * a + b * b := fun a b => by ring
  rw [e, ← Nat.cast_mul, ← Nat.cast_mul, ← Nat.cast_add, ZMod.natCast_eq_natCast_iff']
  decide +kernel
theorem conj_c3 (hu : u ^ 2 = f (-1)) : ev2 f u F6.xiToPMinus1Over3 * ev2 f u (F2.conjugate F6.xiToPMinus1Over3) = f F6.xiToPSquaredMinus1Over3 := by
  rw [← F2.ev_mul hu, F2.mul_eq]
  simp only [ev2, F2.conjugate]
  have h2 : ∀ a b : Fq, a * -b + b * a = 0 := fun a b => by ring
  rw [h2, map_zero, zero_mul, add_zero]
  refine congrArg f ?_
  simp only [F6.xiToPMinus1Over3, F6.xiToPSquaredMinus1Over3]
  have e : ∀ a b : Fq, a * a + -1 * (b * -b) = a * a + b * b := fun a b => by ring
  rw [e, ← Nat.cast_mul, ← Nat.cast_mul, ← Nat.cast_add, ZMod.natCast_eq_natCast_iff']
  decide +kernel
theorem sq_c3 : F6.xiTo2PSquaredMinus2Over3 = (F6.xiToPSquaredMinus1Over3 : Fq) ^ 2 := by
  simp only [F6.xiTo2PSquaredMinus2Over3, F6.xiToPSquaredMinus1Over3]
  rw [pow_two, ← Nat.cast_mul, ZMod.natCast_eq_natCast_iff']
  decide +kernel

variable [CharP R bnP]

theorem f_pow (x : Fq) : f x ^ bnP = f x := by rw [← map_pow, ZMod.pow_card]

theorem u_pow (hu : u ^ 2 = f (-1)) : u ^ bnP = -u := by
  have e : bnP = 2 * ((bnP - 1) / 2) + 1 := by decide +kernel
  rw [map_neg, map_one] at hu
  have ho : Odd ((bnP - 1) / 2) := Nat.odd_iff.2 (by decide +kernel)
  conv_lhs => rw [e, pow_succ, pow_mul, hu, ho.neg_one_pow]
  ring

theorem ev2_frob (hu : u ^ 2 = f (-1)) (a : F2El Fq) : ev2 f u a ^ bnP = ev2 f u (F2.conjugate a) := by
  simp only [ev2, F2.conjugate]
  rw [add_pow_char, mul_pow, f_pow, f_pow, u_pow hu, map_neg]
  ring

theorem t_pow (hu : u ^ 2 = f (-1)) (ht : t ^ 3 = 9 + u) : t ^ bnP = t * ev2 f u F6.xiToPMinus1Over3 := by
  have e : bnP = 3 * ((bnP - 1) / 3) + 1 := by decide +kernel
  conv_lhs => rw [e, pow_succ, pow_mul, ht, ← c3_eq hu]
  ring

theorem w_pow (hu : u ^ 2 = f (-1)) (ht : t ^ 3 = 9 + u) (hw : w ^ 2 = t) : w ^ bnP = w * ev2 f u F12.xiToPMinus1Over6 := by
  have e : bnP = 6 * ((bnP - 1) / 6) + 1 := by decide +kernel
  have h6 : w ^ 6 = 9 + u := by rw [← ht, ← hw]; ring
  conv_lhs => rw [e, pow_succ, pow_mul, h6, ← c6_eq hu]
  ring

theorem F6.ev_frob (hu : u ^ 2 = f (-1)) (ht : t ^ 3 = 9 + u) (a : F6El Fq) : ev6 f u t (F6.Frobenius a) = ev6 f u t a ^ bnP := by
  simp only [ev6]
  rw [add_pow_char, add_pow_char, mul_pow, mul_pow, ← pow_mul, mul_comm 2 bnP, pow_mul, t_pow hu ht, ev2_frob hu, ev2_frob hu, ev2_frob hu]
  simp only [F6.Frobenius, F6.fmul, F2.ev_mul hu, c3'_eq hu]
  ring

theorem F6.ev_frob2 (hu : u ^ 2 = f (-1)) (ht : t ^ 3 = 9 + u) (a : F6El Fq) :
    ev6 f u t (F6.FrobeniusP2 a) = ev6 f u t a ^ (bnP ^ 2) := by
  have hc : ∀ x : F2El Fq, ev2 f u (F2.conjugate (F2.conjugate x)) = ev2 f u x := by intro x; simp [ev2, F2.conjugate]
  have h3 := conj_c3 (f := f) hu
  rw [pow_two, pow_mul, ← F6.ev_frob hu ht, ← F6.ev_frob hu ht]
  have e3 : ev2 f u (F2.conjugate F6.xiTo2PMinus2Over3) = ev2 f u (F2.conjugate F6.xiToPMinus1Over3) ^ 2 := by
    rw [← ev2_frob hu, c3'_eq hu, ← ev2_frob hu]; ring
  have ec : ∀ x y : F2El Fq, ev2 f u (F2.conjugate (F2.mul (-1) x y)) = ev2 f u (F2.conjugate x) * ev2 f u (F2.conjugate y) := by
    intro x y; rw [← ev2_frob hu, F2.ev_mul hu, mul_pow, ev2_frob hu, ev2_frob hu]
  simp only [ev6, F6.Frobenius, F6.FrobeniusP2, F6.fmul, F2.ev_mul hu, F2.ev_mulScalar, ec, hc, e3, c3'_eq hu, sq_c3, map_pow, ← h3]
  ring

theorem F12.ev_frob (hu : u ^ 2 = f (-1)) (ht : t ^ 3 = 9 + u) (hw : w ^ 2 = t) (a : F12El Fq) :
    ev12 f u t w (F12.Frobenius a) = ev12 f u t w a ^ bnP := by
  simp only [ev12, F12.Frobenius]
  rw [add_pow_char, mul_pow, w_pow hu ht hw, F6.ev_mulScalar hu, F6.ev_frob hu ht, F6.ev_frob hu ht]
  ring

theorem F12.ev_frob2 (hu : u ^ 2 = f (-1)) (ht : t ^ 3 = 9 + u) (hw : w ^ 2 = t) (a : F12El Fq) :
    ev12 f u t w (F12.FrobeniusP2 a) = ev12 f u t w a ^ (bnP ^ 2) := by
  simp only [ev12, F12.FrobeniusP2]
  have e : ∀ x : R, x ^ bnP ^ 2 = (x ^ bnP) ^ bnP := fun x => by rw [pow_two, pow_mul]
  have hw2 : w ^ (bnP ^ 2) = w * f F12.xiToPSquaredMinus1Over6 := by
    rw [e, w_pow hu ht hw, mul_pow, w_pow hu ht hw, ev2_frob hu, ← conj_c6 hu]; ring
  rw [F6.ev_mulGFP, F6.ev_frob2 hu ht, F6.ev_frob2 hu ht]
  conv_rhs => rw [e, add_pow_char, add_pow_char, ← e, ← e, mul_pow, hw2]
  ring
end frob

/-! ### Characteristic of the extensions -/

theorem charP_of_hom {R : Type} [CommRing R] [Nontrivial R] (f : Fq →+* R) : CharP R bnP :=
  charP_of_injective_ringHom f.injective bnP

instance : CharP (Ext6 Fq) bnP := charP_of_hom F6.base
instance : CharP (Ext12 Fq) bnP := charP_of_hom F12.base

end FF
