import Verif.Tower
import Mathlib.Tactic.LinearCombination
import Mathlib.Tactic.FieldSimp

/-!
# Lemmas on the extension towers

`ev2`, `ev6`, `ev12` read an element in a commutative ring that contains a root `u` of `X²-nr`, a root `t` of `X³-(9+u)` and a root
`w` of `X²-t`; the code's operations become the ring operations there.
-/

set_option linter.unusedSimpArgs false
set_option linter.unusedSectionVars false

namespace FF

variable {K : Type} [Field K] [DecidableEq K] {R : Type} [CommRing R]

def ev2 (f : K →+* R) (u : R) (e : F2El K) : R := f e.a + f e.b * u
def ev6 (f : K →+* R) (u t : R) (e : F6El K) : R := ev2 f u e.x * t ^ 2 + ev2 f u e.y * t + ev2 f u e.z
def ev12 (f : K →+* R) (u t w : R) (e : F12El K) : R := ev6 f u t e.x * w + ev6 f u t e.y

namespace F2

theorem mulByNr_eq (nr a : K) : mulByNr nr a = nr * a := by
  unfold mulByNr typeOfNr
  split_ifs with h0 h1 h2 <;> simp [*]

theorem mul_eq (nr : K) (e1 e2 : F2El K) :
    mul nr e1 e2 = ⟨e1.a * e2.a + nr * (e1.b * e2.b), e1.a * e2.b + e1.b * e2.a⟩ := by
  simp only [mul, mulByNr_eq, F2El.mk.injEq, true_and]
  ring

theorem mulXi_eq (a : F2El K) : mulXi a = ⟨9 * a.a - a.b, 9 * a.b + a.a⟩ := by
  simp only [mulXi, dbl, add, F2El.mk.injEq]
  constructor <;> ring

theorem square_negone [NeZero (2 : K)] (a : F2El K) : square (-1) a = mul (-1) a a := by
  have h : square (-1 : K) a = ⟨(a.a + a.b) * (a.a - a.b), a.a * a.b + a.a * a.b⟩ := by
    unfold square typeOfNr
    by_cases h0 : (-1 : K) = 0
    · exact absurd h0 (neg_ne_zero.2 one_ne_zero)
    · by_cases h1 : (-1 : K) = 1
      · exact absurd (by linear_combination -h1 : (2 : K) = 0) two_ne_zero
      · simp only [h0, h1, if_true, if_false]
  rw [h, mul_eq]
  simp only [F2El.mk.injEq]
  constructor <;> ring

section ev
variable {f : K →+* R} {u : R}

theorem ev_zero : ev2 f u zero = 0 := by simp [ev2, zero]
theorem ev_one : ev2 f u one = 1 := by simp [ev2, one]
theorem ev_negOne : ev2 f u negOne = -1 := by simp [ev2, negOne]
theorem ev_add (a b : F2El K) : ev2 f u (add a b) = ev2 f u a + ev2 f u b := by simp only [ev2, add, map_add]; ring
theorem ev_sub (a b : F2El K) : ev2 f u (sub a b) = ev2 f u a - ev2 f u b := by simp only [ev2, sub, map_sub]; ring
theorem ev_neg (a : F2El K) : ev2 f u (neg a) = -ev2 f u a := by simp only [ev2, neg, map_neg]; ring
theorem ev_dbl (a : F2El K) : ev2 f u (dbl a) = ev2 f u a + ev2 f u a := by simp only [ev2, dbl, map_add]; ring
theorem ev_mulScalar (a : F2El K) (b : K) : ev2 f u (mulScalar a b) = ev2 f u a * f b := by
  simp only [ev2, mulScalar, map_mul]; ring
theorem ev_mul {nr : K} (hu : u ^ 2 = f nr) (a b : F2El K) : ev2 f u (mul nr a b) = ev2 f u a * ev2 f u b := by
  rw [mul_eq]
  simp only [ev2, map_add, map_mul]
  linear_combination (-(f a.b * f b.b)) * hu
theorem ev_square [NeZero (2 : K)] (hu : u ^ 2 = f (-1)) (a : F2El K) : ev2 f u (square (-1) a) = ev2 f u a * ev2 f u a := by
  rw [square_negone, ev_mul hu]
theorem ev_mulXi (hu : u ^ 2 = f (-1)) (a : F2El K) : ev2 f u (mulXi a) = (9 + u) * ev2 f u a := by
  rw [map_neg, map_one] at hu
  have h9 : f 9 = 9 := map_ofNat f 9
  rw [mulXi_eq]
  simp only [ev2, map_add, map_sub, map_mul, h9]
  linear_combination (-(f a.b)) * hu
theorem ev_inv {nr : K} (hu : u ^ 2 = f nr) (a : F2El K) (h : a.a * a.a - nr * (a.b * a.b) ≠ 0) :
    ev2 f u (inv nr a) * ev2 f u a = 1 := by
  simp only [inv, mulByNr_eq]
  have e : f ((a.a * a.a - nr * (a.b * a.b))⁻¹) * (f a.a * f a.a - f nr * (f a.b * f a.b)) = 1 := by
    rw [← map_mul, ← map_mul, ← map_mul, ← map_sub, ← map_mul, inv_mul_cancel₀ h, map_one]
  generalize hv : f ((a.a * a.a - nr * (a.b * a.b))⁻¹) = v at e
  simp only [ev2, map_mul, map_neg, hv]
  linear_combination e - (f a.b * v * f a.b) * hu
end ev

/-! ### Aliasing -/

section stores
variable (m : Store K) (nr : K)

theorem upd2 (m : Store K) (r : Nat) (v v' : F2El K) : Function.update (Function.update m r v) r v' = Function.update m r v' := by simp

theorem addM_eq (r a b : Nat) : addM m r a b = Function.update m r (add (m a) (m b)) := by
  funext k
  by_cases hk : k = r <;> by_cases ha : a = r <;> by_cases hb : b = r <;> simp [addM, add, setA, setB, Function.update_apply, hk, ha, hb]
theorem subM_eq (r a b : Nat) : subM m r a b = Function.update m r (sub (m a) (m b)) := by
  funext k
  by_cases hk : k = r <;> by_cases ha : a = r <;> by_cases hb : b = r <;> simp [subM, sub, setA, setB, Function.update_apply, hk, ha, hb]
theorem negM_eq (r a : Nat) : negM m r a = Function.update m r (neg (m a)) := by
  funext k
  by_cases hk : k = r <;> by_cases ha : a = r <;> simp [negM, neg, setA, setB, Function.update_apply, hk, ha]
theorem conjugateM_eq (r a : Nat) : conjugateM m r a = Function.update m r (conjugate (m a)) := by
  funext k
  by_cases hk : k = r <;> by_cases ha : a = r <;> simp [conjugateM, conjugate, setA, setB, Function.update_apply, hk, ha]
theorem copyM_eq (r a : Nat) : copyM m r a = Function.update m r (m a) := by
  funext k
  by_cases hk : k = r <;> by_cases ha : a = r <;> simp [copyM, setA, setB, Function.update_apply, hk, ha]
theorem dblM_eq (r a : Nat) : dblM m r a = Function.update m r (dbl (m a)) := by
  funext k
  by_cases hk : k = r <;> by_cases ha : a = r <;> simp [dblM, dbl, setA, setB, Function.update_apply, hk, ha]
theorem mulM_eq (r a b : Nat) : mulM nr m r a b = Function.update m r (mul nr (m a) (m b)) := by
  funext k
  by_cases hk : k = r <;> by_cases ha : a = r <;> by_cases hb : b = r <;> simp [mulM, mul, setA, setB, Function.update_apply, hk, ha, hb]
theorem mulScalarM_eq (r a : Nat) (b : K) : mulScalarM m r a b = Function.update m r (mulScalar (m a) b) := by
  funext k
  by_cases hk : k = r <;> by_cases ha : a = r <;> simp [mulScalarM, mulScalar, setA, setB, Function.update_apply, hk, ha]
theorem mulXiM_eq (r a : Nat) : mulXiM m r a = Function.update m r (mulXi (m a)) := by
  funext k
  by_cases hk : k = r <;> by_cases ha : a = r <;> simp [mulXiM, mulXi, setA, setB, Function.update_apply, hk, ha]
theorem squareM_eq (r a : Nat) : squareM nr m r a = Function.update m r (square nr (m a)) := by
  funext k
  unfold squareM square
  split_ifs <;> by_cases hk : k = r <;> by_cases ha : a = r <;> simp [setA, setB, Function.update_apply, hk, ha]
theorem invM_eq (r a : Nat) : invM nr m r a = Function.update m r (inv nr (m a)) := by
  funext k
  by_cases hk : k = r <;> by_cases ha : a = r <;> simp [invM, inv, setA, setB, Function.update_apply, hk, ha]
theorem divM_eq (r a b : Nat) : divM nr m r a b = Function.update m r (div nr (m a) (m b)) := by
  funext k
  by_cases hk : k = r <;> by_cases ha : a = r <;> by_cases hb : b = r <;> simp [divM, div, mul, setA, setB, Function.update_apply, hk, ha, hb]
end stores

end F2

namespace F6

section ev
variable {f : K →+* R} {u t : R}

theorem ev_zero : ev6 f u t zero = 0 := by simp [ev6, zero, F2.ev_zero]
theorem ev_one : ev6 f u t one = 1 := by simp [ev6, one, F2.ev_zero, F2.ev_one]
theorem ev_negOne : ev6 f u t negOne = -1 := by simp [ev6, negOne, F2.ev_zero, F2.ev_negOne]
theorem ev_add (a b : F6El K) : ev6 f u t (add a b) = ev6 f u t a + ev6 f u t b := by simp only [ev6, add, F2.ev_add]; ring
theorem ev_sub (a b : F6El K) : ev6 f u t (sub a b) = ev6 f u t a - ev6 f u t b := by simp only [ev6, sub, F2.ev_sub]; ring
theorem ev_neg (a : F6El K) : ev6 f u t (neg a) = -ev6 f u t a := by simp only [ev6, neg, F2.ev_neg]; ring
theorem ev_dbl (a : F6El K) : ev6 f u t (dbl a) = ev6 f u t a + ev6 f u t a := by simp only [ev6, dbl, F2.ev_dbl]; ring
theorem ev_mulScalar (hu : u ^ 2 = f (-1)) (a : F6El K) (b : F2El K) : ev6 f u t (mulScalar a b) = ev6 f u t a * ev2 f u b := by
  simp only [ev6, mulScalar, fmul, F2.ev_mul hu]; ring
theorem ev_mulGFP (a : F6El K) (b : K) : ev6 f u t (mulGFP a b) = ev6 f u t a * f b := by
  simp only [ev6, mulGFP, F2.ev_mulScalar]; ring

theorem ev_mul (hu : u ^ 2 = f (-1)) (ht : t ^ 3 = 9 + u) (a b : F6El K) : ev6 f u t (mul a b) = ev6 f u t a * ev6 f u t b := by
  simp only [ev6, mul, fmul, F2.ev_mul hu, F2.ev_add, F2.ev_sub, F2.ev_mulXi hu]
  generalize ev2 f u a.x = ax, ev2 f u a.y = ay, ev2 f u a.z = az, ev2 f u b.x = bx, ev2 f u b.y = by', ev2 f u b.z = bz
  linear_combination (-(ax * bx * t + ax * by' + ay * bx)) * ht

theorem ev_square [NeZero (2 : K)] (hu : u ^ 2 = f (-1)) (ht : t ^ 3 = 9 + u) (a : F6El K) : ev6 f u t (square a) = ev6 f u t a * ev6 f u t a := by
  simp only [ev6, square, fsquare, F2.ev_square hu, F2.ev_add, F2.ev_sub, F2.ev_mulXi hu]
  generalize ev2 f u a.x = ax, ev2 f u a.y = ay, ev2 f u a.z = az
  linear_combination (-(ax * ax * t + ax * ay + ay * ax)) * ht

theorem ev_mulTau (hu : u ^ 2 = f (-1)) (ht : t ^ 3 = 9 + u) (a : F6El K) : ev6 f u t (mulTau a) = t * ev6 f u t a := by
  simp only [ev6, mulTau, F2.ev_mulXi hu]
  linear_combination (-(ev2 f u a.x)) * ht
end ev

/-- The element the code inverts in the base field, `f6field.cpp:226-232`. -/
def normE (a : F6El K) : F2El K :=
  let A := F2.sub (fsquare a.z) (F2.mulXi (fmul a.x a.y))
  let B := F2.sub (F2.mulXi (fsquare a.x)) (fmul a.y a.z)
  let C := F2.sub (fsquare a.y) (fmul a.x a.z)
  F2.add (F2.add (F2.mulXi (fmul C a.y)) (fmul A a.z)) (F2.mulXi (fmul B a.x))

theorem ev_inv [NeZero (2 : K)] {f : K →+* R} {u t : R} (hu : u ^ 2 = f (-1)) (ht : t ^ 3 = 9 + u) (a : F6El K)
    (hn : ev2 f u (finv (normE a)) * ev2 f u (normE a) = 1) : ev6 f u t (inv a) * ev6 f u t a = 1 := by
  have key : ev6 f u t (inv a) =
      ((ev2 f u a.y * ev2 f u a.y - ev2 f u a.x * ev2 f u a.z) * t ^ 2 +
       ((9 + u) * (ev2 f u a.x * ev2 f u a.x) - ev2 f u a.y * ev2 f u a.z) * t +
       (ev2 f u a.z * ev2 f u a.z - (9 + u) * (ev2 f u a.x * ev2 f u a.y))) * ev2 f u (finv (normE a)) := by
    show ev6 f u t (inv a) = _
    have : inv a = ⟨fmul (F2.sub (fsquare a.y) (fmul a.x a.z)) (finv (normE a)),
        fmul (F2.sub (F2.mulXi (fsquare a.x)) (fmul a.y a.z)) (finv (normE a)),
        fmul (F2.sub (fsquare a.z) (F2.mulXi (fmul a.x a.y))) (finv (normE a))⟩ := rfl
    rw [this]
    generalize finv (normE a) = v
    simp only [ev6, fmul, fsquare, F2.ev_mul hu, F2.ev_add, F2.ev_sub, F2.ev_mulXi hu, F2.ev_square hu]
    ring
  rw [key]
  have hN : ev2 f u (normE a) = (9 + u) * ((ev2 f u a.y * ev2 f u a.y - ev2 f u a.x * ev2 f u a.z) * ev2 f u a.y) +
      (ev2 f u a.z * ev2 f u a.z - (9 + u) * (ev2 f u a.x * ev2 f u a.y)) * ev2 f u a.z +
      (9 + u) * (((9 + u) * (ev2 f u a.x * ev2 f u a.x) - ev2 f u a.y * ev2 f u a.z) * ev2 f u a.x) := by
    simp only [normE, fmul, fsquare, F2.ev_mul hu, F2.ev_add, F2.ev_sub, F2.ev_mulXi hu, F2.ev_square hu]
  rw [hN] at hn
  generalize ev2 f u (finv (normE a)) = v at hn ⊢
  simp only [ev6]
  generalize ev2 f u a.x = x at hn ⊢
  generalize ev2 f u a.y = y at hn ⊢
  generalize ev2 f u a.z = z at hn ⊢
  linear_combination hn + v * ((y * y - x * z) * (x * t + y) + x * ((9 + u) * (x * x) - y * z)) * ht

/-! ### Aliasing -/

section stores
variable (m : Store K)

theorem addM_eq (r a b : Nat) : addM m r a b = Function.update m r (add (m a) (m b)) := by
  funext k
  by_cases hk : k = r <;> by_cases ha : a = r <;> by_cases hb : b = r <;>
    simp [addM, add, setX, setY, setZ, Function.update_apply, hk, ha, hb]
theorem subM_eq (r a b : Nat) : subM m r a b = Function.update m r (sub (m a) (m b)) := by
  funext k
  by_cases hk : k = r <;> by_cases ha : a = r <;> by_cases hb : b = r <;>
    simp [subM, sub, setX, setY, setZ, Function.update_apply, hk, ha, hb]
theorem negM_eq (r a : Nat) : negM m r a = Function.update m r (neg (m a)) := by
  funext k
  by_cases hk : k = r <;> by_cases ha : a = r <;> simp [negM, neg, setX, setY, setZ, Function.update_apply, hk, ha]
theorem copyM_eq (r a : Nat) : copyM m r a = Function.update m r (m a) := by
  funext k
  by_cases hk : k = r <;> by_cases ha : a = r <;> simp [copyM, setX, setY, setZ, Function.update_apply, hk, ha]
theorem dblM_eq (r a : Nat) : dblM m r a = Function.update m r (dbl (m a)) := by
  funext k
  by_cases hk : k = r <;> by_cases ha : a = r <;> simp [dblM, dbl, setX, setY, setZ, Function.update_apply, hk, ha]
theorem mulM_eq (r a b : Nat) : mulM m r a b = Function.update m r (mul (m a) (m b)) := by
  funext k
  by_cases hk : k = r <;> simp [mulM, mul, setX, setY, setZ, Function.update_apply, hk]
theorem mulScalarM_eq (r a : Nat) (b : F2El K) : mulScalarM m r a b = Function.update m r (mulScalar (m a) b) := by
  funext k
  by_cases hk : k = r <;> by_cases ha : a = r <;> simp [mulScalarM, mulScalar, setX, setY, setZ, Function.update_apply, hk, ha]
theorem mulGFPM_eq (r a : Nat) (b : K) : mulGFPM m r a b = Function.update m r (mulGFP (m a) b) := by
  funext k
  by_cases hk : k = r <;> by_cases ha : a = r <;> simp [mulGFPM, mulGFP, setX, setY, setZ, Function.update_apply, hk, ha]
theorem mulTauM_eq (r a : Nat) : mulTauM m r a = Function.update m r (mulTau (m a)) := by
  funext k
  by_cases hk : k = r <;> by_cases ha : a = r <;> simp [mulTauM, mulTau, setX, setY, setZ, Function.update_apply, hk, ha]
theorem squareM_eq (r a : Nat) : squareM m r a = Function.update m r (square (m a)) := by
  funext k
  by_cases hk : k = r <;> simp [squareM, square, setX, setY, setZ, Function.update_apply, hk]
theorem FrobeniusM_eq (r a : Nat) : FrobeniusM m r a = Function.update m r (Frobenius (m a)) := by
  funext k
  by_cases hk : k = r <;> by_cases ha : a = r <;> simp [FrobeniusM, Frobenius, setX, setY, setZ, Function.update_apply, hk, ha]
theorem FrobeniusP2M_eq (r a : Nat) : FrobeniusP2M m r a = Function.update m r (FrobeniusP2 (m a)) := by
  funext k
  by_cases hk : k = r <;> by_cases ha : a = r <;> simp [FrobeniusP2M, FrobeniusP2, setX, setY, setZ, Function.update_apply, hk, ha]
theorem invM_eq (r a : Nat) : invM m r a = Function.update m r (inv (m a)) := by
  funext k
  by_cases hk : k = r <;> simp [invM, inv, setX, setY, setZ, Function.update_apply, hk]
theorem divM_eq (t r a b : Nat) (ha : a ≠ t) : divM m t r a b =
    Function.update (Function.update m t (inv (m b))) r (div (m a) (m b)) := by
  unfold divM
  rw [invM_eq, mulM_eq]
  simp [div, Function.update_of_ne ha]
end stores

end F6

namespace F12

section ev
variable {f : K →+* R} {u t w : R}

theorem ev_zero : ev12 f u t w zero = 0 := by simp [ev12, zero, F6.ev_zero]
theorem ev_one : ev12 f u t w one = 1 := by simp [ev12, one, F6.ev_zero, F6.ev_one]
theorem ev_negOne : ev12 f u t w negOne = -1 := by simp [ev12, negOne, F6.ev_zero, F6.ev_negOne]
theorem ev_add (a b : F12El K) : ev12 f u t w (add a b) = ev12 f u t w a + ev12 f u t w b := by
  simp only [ev12, add, F6.ev_add]; ring
theorem ev_sub (a b : F12El K) : ev12 f u t w (sub a b) = ev12 f u t w a - ev12 f u t w b := by
  simp only [ev12, sub, F6.ev_sub]; ring
theorem ev_neg (a : F12El K) : ev12 f u t w (neg a) = -ev12 f u t w a := by simp only [ev12, neg, F6.ev_neg]; ring
theorem ev_mulScalar (hu : u ^ 2 = f (-1)) (ht : t ^ 3 = 9 + u) (a : F12El K) (b : F6El K) :
    ev12 f u t w (mulScalar a b) = ev12 f u t w a * ev6 f u t b := by
  simp only [ev12, mulScalar, F6.ev_mul hu ht]; ring
theorem ev_mul (hu : u ^ 2 = f (-1)) (ht : t ^ 3 = 9 + u) (hw : w ^ 2 = t) (a b : F12El K) :
    ev12 f u t w (mul a b) = ev12 f u t w a * ev12 f u t w b := by
  simp only [ev12, mul, F6.ev_mul hu ht, F6.ev_add, F6.ev_mulTau hu ht]
  linear_combination (-(ev6 f u t a.x * ev6 f u t b.x)) * hw
theorem ev_square (hu : u ^ 2 = f (-1)) (ht : t ^ 3 = 9 + u) (hw : w ^ 2 = t) (a : F12El K) :
    ev12 f u t w (square a) = ev12 f u t w a * ev12 f u t w a := by
  simp only [ev12, square, F6.ev_mul hu ht, F6.ev_add, F6.ev_sub, F6.ev_dbl, F6.ev_mulTau hu ht]
  linear_combination (-(ev6 f u t a.x * ev6 f u t a.x)) * hw

/-- The element the code inverts in the base field, `f12field.cpp:148-151`. -/
def normE (a : F12El K) : F6El K := F6.sub (F6.square a.y) (F6.mulTau (F6.square a.x))

theorem ev_inv [NeZero (2 : K)] (hu : u ^ 2 = f (-1)) (ht : t ^ 3 = 9 + u) (hw : w ^ 2 = t) (a : F12El K)
    (hn : ev6 f u t (F6.inv (normE a)) * ev6 f u t (normE a) = 1) : ev12 f u t w (inv a) * ev12 f u t w a = 1 := by
  have : inv a = mulScalar ⟨F6.neg a.x, a.y⟩ (F6.inv (normE a)) := rfl
  rw [this, ev_mulScalar hu ht]
  have hN : ev6 f u t (normE a) = ev6 f u t a.y * ev6 f u t a.y - t * (ev6 f u t a.x * ev6 f u t a.x) := by
    simp only [normE, F6.ev_sub, F6.ev_square hu ht, F6.ev_mulTau hu ht]
  rw [hN] at hn
  generalize ev6 f u t (F6.inv (normE a)) = v at hn ⊢
  simp only [ev12, F6.ev_neg]
  linear_combination hn - v * (ev6 f u t a.x * ev6 f u t a.x) * hw
end ev

section stores
variable (m : Store K)

theorem addM_eq (r a b : Nat) : addM m r a b = Function.update m r (add (m a) (m b)) := by
  funext k
  by_cases hk : k = r <;> by_cases ha : a = r <;> by_cases hb : b = r <;> simp [addM, add, setX, setY, Function.update_apply, hk, ha, hb]
theorem subM_eq (r a b : Nat) : subM m r a b = Function.update m r (sub (m a) (m b)) := by
  funext k
  by_cases hk : k = r <;> by_cases ha : a = r <;> by_cases hb : b = r <;> simp [subM, sub, setX, setY, Function.update_apply, hk, ha, hb]
theorem negM_eq (r a : Nat) : negM m r a = Function.update m r (neg (m a)) := by
  funext k
  by_cases hk : k = r <;> by_cases ha : a = r <;> simp [negM, neg, setX, setY, Function.update_apply, hk, ha]
theorem conjugateM_eq (r a : Nat) : conjugateM m r a = Function.update m r (conjugate (m a)) := by
  funext k
  by_cases hk : k = r <;> by_cases ha : a = r <;> simp [conjugateM, conjugate, setX, setY, Function.update_apply, hk, ha]
theorem copyM_eq (r a : Nat) : copyM m r a = Function.update m r (m a) := by
  funext k
  by_cases hk : k = r <;> by_cases ha : a = r <;> simp [copyM, setX, setY, Function.update_apply, hk, ha]
theorem mulM_eq (r a b : Nat) : mulM m r a b = Function.update m r (mul (m a) (m b)) := by
  funext k
  by_cases hk : k = r <;> simp [mulM, mul, setX, setY, Function.update_apply, hk]
theorem mulScalarM_eq (r a : Nat) (b : F6El K) : mulScalarM m r a b = Function.update m r (mulScalar (m a) b) := by
  funext k
  by_cases hk : k = r <;> by_cases ha : a = r <;> simp [mulScalarM, mulScalar, setX, setY, Function.update_apply, hk, ha]
theorem squareM_eq (r a : Nat) : squareM m r a = Function.update m r (square (m a)) := by
  funext k
  by_cases hk : k = r <;> simp [squareM, square, setX, setY, Function.update_apply, hk]
theorem FrobeniusM_eq (r a : Nat) : FrobeniusM m r a = Function.update m r (Frobenius (m a)) := by
  funext k
  by_cases hk : k = r <;> by_cases ha : a = r <;> simp [FrobeniusM, Frobenius, setX, setY, Function.update_apply, hk, ha]
theorem FrobeniusP2M_eq (r a : Nat) : FrobeniusP2M m r a = Function.update m r (FrobeniusP2 (m a)) := by
  funext k
  by_cases hk : k = r <;> by_cases ha : a = r <;> simp [FrobeniusP2M, FrobeniusP2, setX, setY, Function.update_apply, hk, ha]
theorem invM_eq (r a : Nat) : invM m r a = Function.update m r (inv (m a)) := by
  unfold invM
  simp only [mulScalarM_eq]
  funext k
  by_cases hk : k = r <;> by_cases ha : a = r <;> simp [inv, setX, setY, Function.update_apply, hk, ha]
theorem divM_eq (t r a b : Nat) (ha : a ≠ t) : divM m t r a b =
    Function.update (Function.update m t (inv (m b))) r (div (m a) (m b)) := by
  unfold divM
  rw [invM_eq, mulM_eq]
  simp [div, Function.update_of_ne ha]
end stores

end F12

end FF

namespace FF

variable {K : Type} [Field K] [DecidableEq K] {R : Type} [CommRing R]

namespace F12

theorem expLoop_ev {f : K →+* R} {u t w : R} (hu : u ^ 2 = f (-1)) (ht : t ^ 3 = 9 + u) (hw : w ^ 2 = t)
    (s : List (BitVec 8)) {r a : Nat} (hra : r ≠ a) : ∀ i (m : Store K),
    ev12 f u t w (m r) = ev12 f u t w (m a) ^ (valLE s >>> i) →
    ev12 f u t w (expLoop s r a i m r) = ev12 f u t w (m a) ^ valLE s ∧ ∀ k, k ≠ r → expLoop s r a i m k = m k := by
  intro i
  induction i with
  | zero => intro m h; exact ⟨by simpa [expLoop] using h, fun _ _ => rfl⟩
  | succ i ih =>
    intro m h
    have hs := shiftRight_succ (valLE s) i
    rw [expLoop]
    simp only [bitIsSet_eq]
    cases hb : (valLE s).testBit i with
    | false =>
      simp only [Bool.false_eq_true, if_false]
      obtain ⟨h1, h2⟩ := ih (Function.update m r (square (m r))) (by
        rw [Function.update_self, Function.update_of_ne hra.symm, ev_square hu ht hw, h, hs, hb]
        simp only [Bool.false_eq_true, if_false, add_zero]
        rw [two_mul, pow_add])
      rw [Function.update_of_ne hra.symm] at h1
      exact ⟨h1, fun k hk => by rw [h2 k hk, Function.update_of_ne hk]⟩
    | true =>
      simp only [if_true]
      obtain ⟨h1, h2⟩ := ih (Function.update m r (mul (square (m r)) (m a))) (by
        rw [Function.update_self, Function.update_of_ne hra.symm, ev_mul hu ht hw, ev_square hu ht hw, h, hs, hb]
        simp only [if_true]
        rw [two_mul, pow_add, pow_add, pow_one])
      rw [Function.update_of_ne hra.symm] at h1
      exact ⟨h1, fun k hk => by rw [h2 k hk, Function.update_of_ne hk]⟩

theorem expM_ev {f : K →+* R} {u t w : R} (hu : u ^ 2 = f (-1)) (ht : t ^ 3 = 9 + u) (hw : w ^ 2 = t)
    (s : List (BitVec 8)) (hl : s.length ≤ 2 ^ 28) {r a : Nat} (hra : r ≠ a) (m : Store K) :
    ev12 f u t w (expM m r a s r) = ev12 f u t w (m a) ^ valLE s ∧ ∀ k, k ≠ r → expM m r a s k = m k := by
  unfold expM
  rw [intBits_eq hl]
  obtain ⟨h1, h2⟩ := expLoop_ev hu ht hw s hra (s.length * 8) (Function.update m r one) (by
    rw [Function.update_self, ev_one, Nat.shiftRight_eq_div_pow, Nat.div_eq_of_lt (valLE_lt s), pow_zero])
  rw [Function.update_of_ne hra.symm] at h1
  exact ⟨h1, fun k hk => by rw [h2 k hk, Function.update_of_ne hk]⟩

theorem square_one : square (one : F12El K) = one := by
  simp [square, one, F6.mul, F6.mulTau, F6.add, F6.sub, F6.dbl, F6.zero, F6.one, F2.zero, F2.one, F2.add, F2.sub, F2.dbl, F2.mul_eq, F2.mulXi_eq]
theorem mul_one_one : mul (one : F12El K) one = one := by
  simp [mul, one, F6.mul, F6.mulTau, F6.add, F6.sub, F6.dbl, F6.zero, F6.one, F2.zero, F2.one, F2.add, F2.sub, F2.dbl, F2.mul_eq, F2.mulXi_eq]

theorem expLoop_self (s : List (BitVec 8)) (r : Nat) : ∀ i (m : Store K), m r = one → expLoop s r r i m r = one := by
  intro i
  induction i with
  | zero => intro m h; exact h
  | succ i ih =>
    intro m h
    rw [expLoop]
    refine ih _ ?_
    split <;> simp [h, square_one, mul_one_one]

end F12

end FF
