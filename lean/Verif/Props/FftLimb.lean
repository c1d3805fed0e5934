import Verif.FftLimb
import Verif.Props.Fft
import Mathlib.Algebra.Polynomial.Coeff
import Mathlib.Algebra.Polynomial.Eval.Degree
import Mathlib.Algebra.Polynomial.Degree.Operations

/-!
# C74, C75: FFT on limb arrays; multiplication of polynomials

`El q` are the arrays of `N64` limbs below `q` with the routines of the class `RawFr` (see C72 for the reading); `(a i).toZ` is the
residue that the cell `a[i]` stands for.  `CtorL` is the constructor of `FFT` over these arrays, `FftRun` and `IfftRun` its methods.
-/

namespace FF.Props

open FF FF.Fft FF.Pool

section C74

variable {q : Nat} [Fact q.Prime] [Fact (q % 2 = 1)]

/-- C74: the constructor reports an error exactly when the requested order does not divide `q - 1`, otherwise its table holds the arrays of
the powers of a primitive root of unity and of the inverses of the powers of two. -/
theorem C74_constructor {T : Nat} (hT : 0 < T) (N : BitVec 64) (res : Option (Obj (El q))) (h : CtorL q T N res) :
    (res = none ↔ ¬ 2 ^ Nat.log2 N.toNat ∣ q - 1) ∧
    ∀ F, res = some F → F.s = max 1 (Nat.log2 N.toNat) ∧ ∃ ω : ZMod q, IsPrimitiveRoot ω (2 ^ F.s) ∧
      (∀ i < 2 ^ F.s, (F.roots i).toZ = ω ^ i) ∧ ∀ i ≤ F.s, (F.powTwoInv i).toZ * 2 ^ i = 1 := by
  rcases ctorL_ctor hT h with ⟨rfl, hc⟩ | ⟨F, F', rfl, hc, hr⟩
  · have := C40_constructor ne_two hT N none hc
    exact ⟨⟨fun _ => this.1.1 rfl, fun _ => rfl⟩, by simp⟩
  · obtain ⟨h1, h2⟩ := C40_constructor ne_two hT N (some F') hc
    obtain ⟨h3, ω, h4, h5, h6⟩ := h2 F' rfl
    refine ⟨⟨fun h => (by cases h), fun h => absurd (h1.2 h) (by simp)⟩, ?_⟩
    rintro F0 hF
    obtain rfl := Option.some.inj hF
    rw [hr.s] at h3 h4 h5 h6
    exact ⟨h3, ω, h4, fun i hi => by rw [hr.roots i hi, h5 i hi], fun i hi => by rw [hr.inv i hi, h6 i hi]⟩

/-- C74: the constructor comes to an end for every size but zero and every number of threads. -/
theorem C74_total {T : Nat} (hT : 0 < T) (N : BitVec 64) (hN : N ≠ 0) : ∃ res : Option (Obj (El q)), CtorL q T N res := ctorL_exists hT hN

/-- C74: `fft` on arrays: it returns, and every schedule leaves at index `i` the array of the value at the `i`-th power of a primitive root
of the polynomial whose coefficients were in the cells; cells behind the array keep their limbs. -/
theorem C74_fft {T : Nat} (hT : 0 < T) (N : BitVec 64) (F : Obj (El q)) (hF : CtorL q T N (some F)) (k : Nat) (hk : k ≤ F.s)
    (hk30 : k ≤ 30) : ∃ v : ZMod q, IsPrimitiveRoot v (2 ^ k) ∧ ∀ T' > 0, T' < 2 ^ 31 → ∀ m : Nat → El q,
      (∃ m', FftRun F T' (BitVec.ofNat 64 (2 ^ k)) m m') ∧
      ∀ m', FftRun F T' (BitVec.ofNat 64 (2 ^ k)) m m' →
        (∀ i < 2 ^ k, (m' i).toZ = ∑ t ∈ Finset.range (2 ^ k), (m t).toZ * (v ^ i) ^ t) ∧ ∀ i, 2 ^ k ≤ i → m' i = m i := by
  obtain ⟨ω, ht⟩ := ctorL_table hT hF
  have hp : IsPrimitiveRoot (ω ^ 2 ^ (F.s - k)) (2 ^ k) := by
    refine ht.prim.pow (Nat.two_pow_pos _) ?_
    rw [← pow_add]; congr 1; omega
  refine ⟨(ω ^ 2 ^ (F.s - k)).toZ, ?_, fun T' hT' hT31 m => ⟨fft_exists F hT' hT31 hk30 hk m, fun m' hm => ?_⟩⟩
  · exact hp.map_of_injective (f := El.hom q) El.hom_bijective.1
  · obtain ⟨h1, h2⟩ := fft_spec ht hT' hk30 hm
    refine ⟨fun i hi => ?_, h2⟩
    rw [h1 i hi]
    refine (map_sum (El.hom q) _ _).trans (Finset.sum_congr rfl fun t _ => ?_)
    rw [map_mul, map_pow, pow_mul]; rfl

/-- C74: for sizes from four up `ifft` undoes `fft` and is undone by it, limb for limb.  Missing: sizes one and two, where `ifft` stops the
program (`C42_violation_small`). -/
theorem C74_inverse_partial {T : Nat} (hT : 0 < T) (N : BitVec 64) (F : Obj (El q)) (hF : CtorL q T N (some F)) (k : Nat)
    (hk : k ≤ F.s) (hk30 : k ≤ 30) (hk2 : 2 ≤ k) {T' : Nat} (hT' : 0 < T') (hT31 : T' < 2 ^ 31) (m : Nat → El q) :
    (∃ m', IfftRun F T' (BitVec.ofNat 64 (2 ^ k)) m m') ∧
    (∀ m1 m2, FftRun F T' (BitVec.ofNat 64 (2 ^ k)) m m1 → IfftRun F T' (BitVec.ofNat 64 (2 ^ k)) m1 m2 → m2 = m) ∧
    (∀ m1 m2, IfftRun F T' (BitVec.ofNat 64 (2 ^ k)) m m1 → FftRun F T' (BitVec.ofNat 64 (2 ^ k)) m1 m2 → m2 = m) := by
  obtain ⟨ω, ht⟩ := ctorL_table hT hF
  exact table_inverse ht k hk hk30 hk2 hT' hT31 m

end C74

section C75

open Polynomial

/-- A polynomial at `x` as a sum over enough coefficients. -/
theorem eval_range {K : Type} [Field K] (p : K[X]) {n : Nat} (h : p.natDegree < n) (x : K) : p.eval x = ∑ t ∈ Finset.range n, p.coeff t * x ^ t :=
  eval_eq_sum_range' h x

variable {q : Nat} [Fact q.Prime] [Fact (q % 2 = 1)]

/-- C75: transforming the coefficients of two polynomials, multiplying the cells in pairs with the multiplication of the class and
transforming back gives the coefficients of the product, for every object that the constructor returns, all schedules, and all polynomials
whose product has degree below the size.  Missing: sizes one and two, where `ifft` stops the program (`C42_violation_small`). -/
theorem C75_product_partial {T : Nat} (hT : 0 < T) (N : BitVec 64) (F : Obj (El q)) (hF : CtorL q T N (some F)) (k : Nat)
    (hk : k ≤ F.s) (hk30 : k ≤ 30) (hk2 : 2 ≤ k) {T' : Nat} (hT' : 0 < T') (f g : (ZMod q)[X]) (hd : f.natDegree + g.natDegree < 2 ^ k)
    (a b a' b' c c' : Nat → El q) (ha : ∀ i < 2 ^ k, (a i).toZ = f.coeff i) (hb : ∀ i < 2 ^ k, (b i).toZ = g.coeff i)
    (ra : FftRun F T' (BitVec.ofNat 64 (2 ^ k)) a a') (rb : FftRun F T' (BitVec.ofNat 64 (2 ^ k)) b b')
    (hc : ∀ i < 2 ^ k, (c i).v = rawMMul q (a' i).v (b' i).v) (rc : IfftRun F T' (BitVec.ofNat 64 (2 ^ k)) c c') :
    ∀ i < 2 ^ k, (c' i).toZ = (f * g).coeff i := by
  obtain ⟨ω, ht⟩ := ctorL_table hT hF
  obtain ⟨va, -⟩ := fft_spec ht hT' hk30 ra
  obtain ⟨vb, -⟩ := fft_spec ht hT' hk30 rb
  obtain ⟨vc, -⟩ := ifft_spec ht hT' hk2 hk30 hk rc
  have hprim : IsPrimitiveRoot (ω ^ 2 ^ (F.s - k)) (2 ^ k) := by
    refine ht.prim.pow (Nat.two_pow_pos _) ?_
    rw [← pow_add]; congr 1; omega
  have h2k : ((2 ^ k : Nat) : El q) ≠ 0 := by
    have := ht.inv k hk
    intro hz
    push_cast at hz
    rw [hz, mul_zero] at this
    exact zero_ne_one this
  generalize hv : ω ^ 2 ^ (F.s - k) = v at *
  have ev : ∀ (p : (ZMod q)[X]) (x : Nat → El q), p.natDegree < 2 ^ k → (∀ i < 2 ^ k, (x i).toZ = p.coeff i) → ∀ i,
      (∑ t ∈ Finset.range (2 ^ k), x t * v ^ (i * t)).toZ = p.eval (v.toZ ^ i) := by
    intro p x hp hx i
    rw [eval_range p hp]
    refine (map_sum (El.hom q) _ _).trans (Finset.sum_congr rfl fun t htm => ?_)
    rw [map_mul, map_pow, pow_mul]
    exact congrArg (· * _) (hx t (Finset.mem_range.1 htm))
  have hfg : (f * g).natDegree < 2 ^ k := natDegree_mul_le.trans_lt hd
  intro i hi
  have hmul : ∀ j < 2 ^ k, c j = ∑ t ∈ Finset.range (2 ^ k), El.ofZ ((f * g).coeff t) * v ^ (j * t) := by
    intro j hj
    have e : c j = a' j * b' j := El.ext (hc j hj)
    apply El.toZ_inj
    rw [ev (f * g) (fun t => El.ofZ ((f * g).coeff t)) hfg (fun t _ => El.toZ_ofZ _) j, e, hom_mul, va j hj, vb j hj,
      ev f a (by omega) ha, ev g b (by omega) hb, eval_mul]
  have := dft_inv (Nat.two_pow_pos k) hprim h2k (fun t => El.ofZ ((f * g).coeff t)) hi
  rw [vc i hi, Finset.sum_congr rfl fun t htm => by rw [hmul t (Finset.mem_range.1 htm)]]
  push_cast at this
  rw [this, El.toZ_ofZ]

/-- C75: such runs exist. -/
theorem C75_total_partial {T : Nat} (hT : 0 < T) (N : BitVec 64) (F : Obj (El q)) (hF : CtorL q T N (some F)) (k : Nat)
    (hk : k ≤ F.s) (hk30 : k ≤ 30) (hk2 : 2 ≤ k) {T' : Nat} (hT' : 0 < T') (hT31 : T' < 2 ^ 31) (a b : Nat → El q) :
    ∃ a' b' c', FftRun F T' (BitVec.ofNat 64 (2 ^ k)) a a' ∧ FftRun F T' (BitVec.ofNat 64 (2 ^ k)) b b' ∧
      IfftRun F T' (BitVec.ofNat 64 (2 ^ k)) (fun i => a' i * b' i) c' := by
  obtain ⟨v, -, h⟩ := C74_fft hT N F hF k hk hk30
  obtain ⟨a', ha⟩ := (h T' hT' hT31 a).1
  obtain ⟨b', hb⟩ := (h T' hT' hT31 b).1
  obtain ⟨c', hc⟩ := (C74_inverse_partial hT N F hF k hk hk30 hk2 hT' hT31 (fun i => a' i * b' i)).1
  exact ⟨a', b', c', ha, hb, hc⟩

end C75

section sample

local instance : Fact (bnR % 2 = 1) := ⟨by decide +kernel⟩

/-- The hypotheses hold for the scalar field of BN254 at full size, on seven threads. -/
theorem sample_ctor : ∃ F : Obj (El bnR), CtorL bnR 7 (BitVec.ofNat 64 (2 ^ 28)) (some F) ∧ F.s = 28 := by
  obtain ⟨res, h⟩ := C74_total (q := bnR) (T := 7) (by norm_num) (BitVec.ofNat 64 (2 ^ 28)) (by decide)
  have hc := C74_constructor (q := bnR) (by norm_num) _ _ h
  cases res with
  | some F => exact ⟨F, h, (hc.2 F rfl).1.trans (by decide)⟩
  | none => exact absurd (hc.1.1 rfl) (by rw [not_not]; decide)

/-- Two polynomials of degree one multiplied in four cells: the coefficient of `X²` is `5 · 7`. -/
example : ∃ (F : Obj (El bnR)) (a b a' b' c' : Nat → El bnR), FftRun F 3 (BitVec.ofNat 64 (2 ^ 2)) a a' ∧
    FftRun F 3 (BitVec.ofNat 64 (2 ^ 2)) b b' ∧ IfftRun F 3 (BitVec.ofNat 64 (2 ^ 2)) (fun i => a' i * b' i) c' ∧ (c' 2).toZ = 35 := by
  obtain ⟨F, hF, hs⟩ := sample_ctor
  let f : Polynomial (ZMod bnR) := Polynomial.C 5 * Polynomial.X
  let g : Polynomial (ZMod bnR) := Polynomial.C 7 * Polynomial.X
  have hf : f.natDegree ≤ 1 := Polynomial.natDegree_C_mul_le 5 _ |>.trans Polynomial.natDegree_X_le
  have hg : g.natDegree ≤ 1 := Polynomial.natDegree_C_mul_le 7 _ |>.trans Polynomial.natDegree_X_le
  obtain ⟨a', b', c', h1, h2, h3⟩ := C75_total_partial (by norm_num) _ F hF 2 (by omega) (by norm_num) (by norm_num) (T' := 3) (by norm_num) (by norm_num)
    (fun i => El.ofZ (f.coeff i)) (fun i => El.ofZ (g.coeff i))
  refine ⟨F, _, _, a', b', c', h1, h2, h3, ?_⟩
  rw [C75_product_partial (by norm_num) _ F hF 2 (by omega) (by norm_num) (by norm_num) (T' := 3) (by norm_num) f g (by norm_num; omega) _ _ a' b' _ c'
    (fun i _ => El.toZ_ofZ _) (fun i _ => El.toZ_ofZ _) h1 h2 (fun i _ => rfl) h3 2 (by norm_num)]
  have : f * g = Polynomial.C 35 * Polynomial.X ^ 2 := by
    simp only [f, g]
    rw [show (35 : ZMod bnR) = 5 * 7 by norm_num, Polynomial.C_mul]; ring
  rw [this, Polynomial.coeff_C_mul, Polynomial.coeff_X_pow, if_pos rfl, mul_one]

end sample
end FF.Props
