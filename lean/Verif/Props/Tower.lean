import Verif.TowerBn

/-!
# C24–C28: the extension towers

`F2.toExt nr`, `F6.toExt`, `F12.toExt` (`TowerSpec.lean`) read an element of the code in the quotients
`K[X]/(X²-nr)`, `Ext2(-1)[X]/(X³-(9+u))`, `Ext6[X]/(X²-t)`.  `Writes m m' r P` says that the call changed at most cell `r` and that
its new content satisfies `P`; result and operand references range over all cells, so they may coincide.
-/

set_option linter.unusedSectionVars false

namespace FF.Props

open Polynomial

/-- A call that may only write cell `r`, and leaves there something satisfying `P`. -/
def Writes {E : Type} (m m' : Nat → E) (r : Nat) (P : E → Prop) : Prop := P (m' r) ∧ ∀ k, k ≠ r → m' k = m k

theorem Writes.of_update {E : Type} {m m' : Nat → E} {r : Nat} {v : E} {P : E → Prop} (h : m' = Function.update m r v) (hv : P v) :
    Writes m m' r P := by
  subst h
  exact ⟨by rw [Function.update_self]; exact hv, fun k hk => Function.update_of_ne hk _ _⟩

local instance fact7t : Fact (Nat.Prime 7) := ⟨by decide⟩

variable {K : Type} [Field K] [DecidableEq K]

/-! ## C24 -/

/-- The reading of `F2` elements is one-to-one and onto `K[X]/(X²-nr)`. -/
theorem C24_reading (nr : K) : Function.Bijective (F2.toExt nr) := F2.toExt_bijective nr

/-- Ring operations, for every base field, every `nr`, every element and every aliasing. -/
theorem C24_ring (nr : K) (m : F2.Store K) (r a b : Nat) (s : K) :
    Writes m (F2.addM m r a b) r (fun v => F2.toExt nr v = F2.toExt nr (m a) + F2.toExt nr (m b)) ∧
    Writes m (F2.subM m r a b) r (fun v => F2.toExt nr v = F2.toExt nr (m a) - F2.toExt nr (m b)) ∧
    Writes m (F2.negM m r a) r (fun v => F2.toExt nr v = -F2.toExt nr (m a)) ∧
    Writes m (F2.copyM m r a) r (fun v => v = m a) ∧
    Writes m (F2.dblM m r a) r (fun v => F2.toExt nr v = 2 * F2.toExt nr (m a)) ∧
    Writes m (F2.mulM nr m r a b) r (fun v => F2.toExt nr v = F2.toExt nr (m a) * F2.toExt nr (m b)) ∧
    Writes m (F2.mulScalarM m r a s) r (fun v => F2.toExt nr v = F2.toExt nr (m a) * AdjoinRoot.of _ s) := by
  refine ⟨.of_update (F2.addM_eq m r a b) (F2.ev_add _ _), .of_update (F2.subM_eq m r a b) (F2.ev_sub _ _),
    .of_update (F2.negM_eq m r a) (F2.ev_neg _), .of_update (F2.copyM_eq m r a) rfl,
    .of_update (F2.dblM_eq m r a) ((F2.ev_dbl _).trans (two_mul _).symm), .of_update (F2.mulM_eq m nr r a b) (F2.ev_mul (F2.hu nr) _ _),
    .of_update (F2.mulScalarM_eq m r a s) (F2.ev_mulScalar _ _)⟩

/-- Conjugation sends `a + bu` to `a - bu`. -/
theorem C24_conjugate (nr : K) (m : F2.Store K) (r a : Nat) : Writes m (F2.conjugateM m r a) r (fun v =>
    F2.toExt nr v = AdjoinRoot.of _ (m a).a - AdjoinRoot.of _ (m a).b * AdjoinRoot.root _) := by
  refine .of_update (F2.conjugateM_eq m r a) ?_
  simp only [F2.toExt, F2.conjugate, map_neg]; ring

/-- The constants. -/
theorem C24_constants (nr : K) : F2.toExt nr F2.zero = 0 ∧ F2.toExt nr F2.one = 1 ∧ F2.toExt nr F2.negOne = -1 :=
  ⟨F2.ev_zero, F2.ev_one, F2.ev_negOne⟩

/-- The tests decide equality of the values. -/
theorem C24_tests (nr : K) (a b : F2El K) : (F2.eq a b = true ↔ F2.toExt nr a = F2.toExt nr b) ∧
    (F2.isZero a = true ↔ F2.toExt nr a = 0) ∧ (F2.isOne a = true ↔ F2.toExt nr a = 1) := by
  have hi := (F2.toExt_bijective nr).1
  refine ⟨?_, ?_, ?_⟩
  · rw [hi.eq_iff, F2El.ext_iff]; simp [F2.eq]
  · rw [← (C24_constants nr).1, hi.eq_iff, F2El.ext_iff]; simp [F2.isZero, F2.zero]
  · rw [← (C24_constants nr).2.1, hi.eq_iff, F2El.ext_iff]; simp [F2.isOne, F2.one]

/-- Inverse and quotient, for every element whose norm `a² - nr·b²` is not zero. -/
theorem C24_inverse (nr : K) (m : F2.Store K) (r a b : Nat) (h : (m b).a ^ 2 - nr * (m b).b ^ 2 ≠ 0) :
    Writes m (F2.invM nr m r b) r (fun v => F2.toExt nr v * F2.toExt nr (m b) = 1) ∧
    Writes m (F2.divM nr m r a b) r (fun v => F2.toExt nr v * F2.toExt nr (m b) = F2.toExt nr (m a)) := by
  have h' : (m b).a * (m b).a - nr * ((m b).b * (m b).b) ≠ 0 := by rw [← pow_two, ← pow_two]; exact h
  have hinv : F2.toExt nr (F2.inv nr (m b)) * F2.toExt nr (m b) = 1 := F2.ev_inv (F2.hu nr) _ h'
  refine ⟨.of_update (F2.invM_eq m nr r b) hinv, .of_update (F2.divM_eq m nr r a b) ?_⟩
  rw [F2.div, F2.toExt_mul, mul_assoc, hinv, mul_one]

/-- When `nr` is not a square, only zero has norm zero, so every nonzero element has its inverse. -/
theorem C24_norm (nr : K) (hnr : ∀ c : K, c ^ 2 ≠ nr) (e : F2El K) : e.a ^ 2 - nr * e.b ^ 2 = 0 ↔ F2.toExt nr e = 0 := by
  rw [← (C24_constants nr).1, (F2.toExt_bijective nr).1.eq_iff]
  constructor
  · intro h
    by_cases hb : e.b = 0
    · exact F2El.ext (by rw [hb] at h; exact pow_eq_zero_iff two_ne_zero |>.1 (by linear_combination h)) hb
    · refine absurd ?_ (hnr (e.a / e.b))
      field_simp
      linear_combination h
  · rintro rfl; simp [F2.zero]

/-- Squaring, for `nr = -1` (the only `nr` the project uses) in odd characteristic.  The full claim asks for every `nr`; it is
false, see `C24_square_violated`. -/
theorem C24_square_partial [NeZero (2 : K)] (m : F2.Store K) (r a : Nat) :
    Writes m (F2.squareM (-1) m r a) r (fun v => F2.toExt (-1) v = F2.toExt (-1) (m a) ^ 2) :=
  .of_update (F2.squareM_eq m (-1) r a) (by rw [pow_two]; exact F2.ev_square (F2.hu _) _)

/-- For every other `nr` the square is wrong by exactly `(a+b)·(a+b-nr·b)`: line 165 of `f2field.cpp` adds `tmp1`, not `nr·b`. -/
theorem C24_square_value (nr : K) (hnr : nr ≠ -1) (m : F2.Store K) (r a : Nat) :
    Writes m (F2.squareM nr m r a) r (fun v => F2.toExt nr v =
      F2.toExt nr (m a) ^ 2 + AdjoinRoot.of _ (((m a).a + (m a).b) * ((m a).a + (m a).b - nr * (m a).b))) := by
  refine .of_update (F2.squareM_eq m nr r a) ?_
  have ht : F2.typeOfNr nr ≠ .negone := by
    unfold F2.typeOfNr
    split_ifs <;> simp_all
  have e : F2.square nr (m a) = ⟨((m a).a + (m a).b) * ((m a).a + ((m a).a + (m a).b)) - ((m a).a * (m a).b + nr * ((m a).a * (m a).b)),
      (m a).a * (m a).b + (m a).a * (m a).b⟩ := by
    unfold F2.square
    rw [if_neg ht]
    simp only [F2.mulByNr_eq]
  rw [e]
  have hu := F2.hu nr
  simp only [F2.toExt, map_add, map_mul, map_sub]
  linear_combination (-(AdjoinRoot.of (X ^ 2 - C nr) (m a).b ^ 2)) * hu

/-- The claim fails: over `ℤ/7` with the non-residue `nr = 3`, the square of `u` is computed as `1`, not `3`. -/
theorem C24_square_violated : ∃ (nr : ZMod 7) (e : F2El (ZMod 7)), (∀ c : ZMod 7, c ^ 2 ≠ nr) ∧
    F2.square nr e ≠ F2.mul nr e e :=
  ⟨3, ⟨0, 1⟩, by decide, by decide⟩

/-- Concrete cases: `(2+3u)(4+u)` over `ℤ/7` with `u² = -1` and with `u² = 3`, in place. -/
example : F2.mulM (-1 : ZMod 7) (fun k => if k = 0 then ⟨2, 3⟩ else ⟨4, 1⟩) 0 0 1 0 = ⟨5, 0⟩ := by decide +kernel
example : F2.mulM (3 : ZMod 7) (fun k => if k = 0 then ⟨2, 3⟩ else ⟨4, 1⟩) 1 0 1 1 = ⟨3, 0⟩ := by decide +kernel
example : (2 : ZMod 7) ^ 2 - 3 * 3 ^ 2 ≠ 0 := by decide
example : ∀ c : ZMod 7, c ^ 2 ≠ 3 := by decide

/-! ## C25 -/

theorem C25_reading : Function.Bijective (F6.toExt (K := K)) := F6.toExt_bijective

/-- Ring operations, for every base field, every element and every aliasing. -/
theorem C25_ring (m : F6.Store K) (r a b : Nat) (s : F2El K) (c : K) :
    Writes m (F6.addM m r a b) r (fun v => F6.toExt v = F6.toExt (m a) + F6.toExt (m b)) ∧
    Writes m (F6.subM m r a b) r (fun v => F6.toExt v = F6.toExt (m a) - F6.toExt (m b)) ∧
    Writes m (F6.negM m r a) r (fun v => F6.toExt v = -F6.toExt (m a)) ∧
    Writes m (F6.copyM m r a) r (fun v => v = m a) ∧
    Writes m (F6.dblM m r a) r (fun v => F6.toExt v = 2 * F6.toExt (m a)) ∧
    Writes m (F6.mulM m r a b) r (fun v => F6.toExt v = F6.toExt (m a) * F6.toExt (m b)) ∧
    Writes m (F6.mulTauM m r a) r (fun v => F6.toExt v = AdjoinRoot.root _ * F6.toExt (m a)) ∧
    Writes m (F6.mulScalarM m r a s) r (fun v => F6.toExt v = F6.toExt (m a) * AdjoinRoot.of _ (F2.toExt (-1) s)) ∧
    Writes m (F6.mulGFPM m r a c) r (fun v => F6.toExt v = F6.toExt (m a) * AdjoinRoot.of _ (AdjoinRoot.of _ c)) := by
  refine ⟨.of_update (F6.addM_eq m r a b) ?_, .of_update (F6.subM_eq m r a b) ?_,
    .of_update (F6.negM_eq m r a) ?_, .of_update (F6.copyM_eq m r a) rfl,
    .of_update (F6.dblM_eq m r a) ?_, .of_update (F6.mulM_eq m r a b) (F6.toExt_mul _ _),
    .of_update (F6.mulTauM_eq m r a) ?_, .of_update (F6.mulScalarM_eq m r a s) ?_, .of_update (F6.mulGFPM_eq m r a c) ?_⟩
  · rw [F6.toExt_eq, F6.toExt_eq, F6.toExt_eq]; exact F6.ev_add _ _
  · rw [F6.toExt_eq, F6.toExt_eq, F6.toExt_eq]; exact F6.ev_sub _ _
  · rw [F6.toExt_eq, F6.toExt_eq]; exact F6.ev_neg _
  · rw [F6.toExt_eq, F6.toExt_eq, two_mul]; exact F6.ev_dbl _
  · rw [F6.toExt_eq, F6.toExt_eq]; exact F6.ev_mulTau F6.hu F6.ht _
  · rw [F6.of_toExt, F6.toExt_eq, F6.toExt_eq]; exact F6.ev_mulScalar F6.hu _ _
  · rw [F6.toExt_eq, F6.toExt_eq]; exact F6.ev_mulGFP _ _

/-- Multiplication by `9 + u`, the constant of the cubic extension. -/
theorem C25_mulXi (m : F2.Store K) (r a : Nat) :
    Writes m (F2.mulXiM m r a) r (fun v => F2.toExt (-1) v = (9 + AdjoinRoot.root _) * F2.toExt (-1) (m a)) :=
  .of_update (F2.mulXiM_eq m r a) (F2.ev_mulXi (F2.hu _) _)

/-- Squaring, in odd characteristic. -/
theorem C25_square [NeZero (2 : K)] (m : F6.Store K) (r a : Nat) :
    Writes m (F6.squareM m r a) r (fun v => F6.toExt v = F6.toExt (m a) ^ 2) :=
  .of_update (F6.squareM_eq m r a) (by rw [F6.toExt_eq, F6.toExt_eq]; exact (F6.ev_square F6.hu F6.ht _).trans (pow_two _).symm)

theorem C25_constants : F6.toExt (F6.zero : F6El K) = 0 ∧ F6.toExt (F6.one : F6El K) = 1 ∧ F6.toExt (F6.negOne : F6El K) = -1 :=
  ⟨F6.toExt_zero, F6.toExt_one, by rw [F6.toExt_eq]; exact F6.ev_negOne⟩

theorem C25_tests (a b : F6El K) : (F6.eq a b = true ↔ F6.toExt a = F6.toExt b) ∧
    (F6.isZero a = true ↔ F6.toExt a = 0) ∧ (F6.isOne a = true ↔ F6.toExt a = 1) := by
  refine ⟨?_, ?_, ?_⟩
  · rw [F6.toExt_bijective.1.eq_iff, F6El.ext_iff, F2El.ext_iff, F2El.ext_iff, F2El.ext_iff]
    simp [F6.eq, F2.eq, and_assoc]
  · rw [← F6.toExt_zero, F6.toExt_bijective.1.eq_iff, F6El.ext_iff, F2El.ext_iff, F2El.ext_iff, F2El.ext_iff]
    simp [F6.isZero, F2.isZero, F6.zero, F2.zero, and_assoc]
  · rw [← F6.toExt_one, F6.toExt_bijective.1.eq_iff, F6El.ext_iff, F2El.ext_iff, F2El.ext_iff, F2El.ext_iff]
    simp [F6.isOne, F2.isOne, F2.isZero, F6.one, F2.zero, F2.one, and_assoc]

/-- Inverse and quotient of every nonzero element of the BN254 tower; `t` is the local of `div`. -/
theorem C25_inverse (m : F6.Store Fq) (r a b t : Nat) (hb : F6.toExt (m b) ≠ 0) :
    Writes m (F6.invM m r b) r (fun v => F6.toExt v * F6.toExt (m b) = 1) ∧
    (a ≠ t → r ≠ t → F6.toExt (F6.divM m t r a b r) * F6.toExt (m b) = F6.toExt (m a) ∧ ∀ k, k ≠ r → k ≠ t → F6.divM m t r a b k = m k) := by
  have hz : m b ≠ F6.zero := fun h => hb (by rw [h, F6.toExt_zero])
  have hinv : F6.toExt (F6.inv (m b)) * F6.toExt (m b) = 1 := by
    rw [F6.toExt_eq, F6.toExt_eq]; exact F6.inv_ev F6.hu F6.ht _ hz
  refine ⟨.of_update (F6.invM_eq m r b) hinv, fun hat hrt => ?_⟩
  rw [F6.divM_eq m t r a b hat]
  refine ⟨?_, fun k hk hkt => by rw [Function.update_of_ne hk, Function.update_of_ne hkt]⟩
  rw [Function.update_self, F6.div, F6.toExt_mul, mul_assoc, hinv, mul_one]

/-- The tower is a tower of fields: `X²+1`, `X³-(9+u)` and `X²-t` are irreducible. -/
theorem C25_field : Irreducible (X ^ 2 - C (-1 : Fq)) ∧ Irreducible (X ^ 3 - C (xi Fq)) ∧ Irreducible (X ^ 2 - C (tau Fq)) :=
  ⟨fact2.out, fact6.out, fact12.out⟩

/-- A concrete element: `t`. -/
example : F6.toExt (⟨F2.zero, F2.one, F2.zero⟩ : F6El Fq) ≠ 0 := by
  intro h
  have := congrArg (fun e : F6El Fq => e.y.a) (F6.toExt_bijective.1 (h.trans F6.toExt_zero.symm))
  exact one_ne_zero this
/-- `t²·t = 9 + u`, over `ℤ/7` where `9 = 2`, written over the first operand. -/
example : F6.mulM (fun k => if k = 0 then (⟨F2.one, F2.zero, F2.zero⟩ : F6El (ZMod 7)) else ⟨F2.zero, F2.one, F2.zero⟩) 0 0 1 0 =
    ⟨F2.zero, F2.zero, ⟨2, 1⟩⟩ := by decide +kernel

/-! ## C26 -/

theorem C26_reading : Function.Bijective (F12.toExt (K := K)) := F12.toExt_bijective

theorem toExt12_mul (a b : F12El K) : F12.toExt (F12.mul a b) = F12.toExt a * F12.toExt b := by
  rw [F12.toExt_eq, F12.toExt_eq, F12.toExt_eq]; exact F12.ev_mul F12.hu F12.ht F12.hw a b

/-- Ring operations, for every base field, every element and every aliasing. -/
theorem C26_ring (m : F12.Store K) (r a b : Nat) (s : F6El K) :
    Writes m (F12.addM m r a b) r (fun v => F12.toExt v = F12.toExt (m a) + F12.toExt (m b)) ∧
    Writes m (F12.subM m r a b) r (fun v => F12.toExt v = F12.toExt (m a) - F12.toExt (m b)) ∧
    Writes m (F12.negM m r a) r (fun v => F12.toExt v = -F12.toExt (m a)) ∧
    Writes m (F12.copyM m r a) r (fun v => v = m a) ∧
    Writes m (F12.mulM m r a b) r (fun v => F12.toExt v = F12.toExt (m a) * F12.toExt (m b)) ∧
    Writes m (F12.squareM m r a) r (fun v => F12.toExt v = F12.toExt (m a) ^ 2) ∧
    Writes m (F12.mulScalarM m r a s) r (fun v => F12.toExt v = F12.toExt (m a) * AdjoinRoot.of _ (F6.toExt s)) ∧
    Writes m (F12.conjugateM m r a) r (fun v =>
      F12.toExt v = AdjoinRoot.of _ (F6.toExt (m a).y) - AdjoinRoot.of _ (F6.toExt (m a).x) * AdjoinRoot.root _) := by
  refine ⟨.of_update (F12.addM_eq m r a b) ?_, .of_update (F12.subM_eq m r a b) ?_,
    .of_update (F12.negM_eq m r a) ?_, .of_update (F12.copyM_eq m r a) rfl,
    .of_update (F12.mulM_eq m r a b) (toExt12_mul _ _), .of_update (F12.squareM_eq m r a) ?_,
    .of_update (F12.mulScalarM_eq m r a s) ?_, .of_update (F12.conjugateM_eq m r a) ?_⟩
  · rw [F12.toExt_eq, F12.toExt_eq, F12.toExt_eq]; exact F12.ev_add _ _
  · rw [F12.toExt_eq, F12.toExt_eq, F12.toExt_eq]; exact F12.ev_sub _ _
  · rw [F12.toExt_eq, F12.toExt_eq]; exact F12.ev_neg _
  · rw [F12.toExt_eq, F12.toExt_eq]; exact (F12.ev_square F12.hu F12.ht F12.hw _).trans (pow_two _).symm
  · rw [F12.of_toExt, F12.toExt_eq, F12.toExt_eq]; exact F12.ev_mulScalar F12.hu F12.ht _ _
  · rw [F12.of_toExt, F12.of_toExt, F12.toExt_eq]
    simp only [ev12, F12.conjugate, F6.ev_neg]
    ring

theorem C26_constants : F12.toExt (F12.zero : F12El K) = 0 ∧ F12.toExt (F12.one : F12El K) = 1 ∧ F12.toExt (F12.negOne : F12El K) = -1 := by
  refine ⟨?_, ?_, ?_⟩ <;> rw [F12.toExt_eq]
  · exact F12.ev_zero
  · exact F12.ev_one
  · exact F12.ev_negOne

theorem C26_tests (a b : F12El K) : (F12.eq a b = true ↔ F12.toExt a = F12.toExt b) ∧
    (F12.isZero a = true ↔ F12.toExt a = 0) ∧ (F12.isOne a = true ↔ F12.toExt a = 1) := by
  refine ⟨?_, ?_, ?_⟩
  · rw [F12.toExt_bijective.1.eq_iff, F12El.ext_iff]
    simp only [F12.eq, Bool.and_eq_true, (C25_tests _ _).1, F6.toExt_bijective.1.eq_iff]
  · rw [← C26_constants.1, F12.toExt_bijective.1.eq_iff, F12El.ext_iff]
    simp only [F12.isZero, Bool.and_eq_true, (C25_tests _ F6.zero).2.1, F12.zero, ← F6.toExt_zero (K := K), F6.toExt_bijective.1.eq_iff]
  · rw [← C26_constants.2.1, F12.toExt_bijective.1.eq_iff, F12El.ext_iff]
    simp only [F12.isOne, Bool.and_eq_true, (C25_tests _ F6.zero).2.1, (C25_tests _ F6.zero).2.2, F12.one, ← F6.toExt_zero (K := K),
      ← F6.toExt_one (K := K), F6.toExt_bijective.1.eq_iff]

/-- Inverse and quotient of every nonzero element of the BN254 tower; `t` is the local of `div`. -/
theorem C26_inverse (m : F12.Store Fq) (r a b t : Nat) (hb : F12.toExt (m b) ≠ 0) :
    Writes m (F12.invM m r b) r (fun v => F12.toExt v * F12.toExt (m b) = 1) ∧
    (a ≠ t → r ≠ t → F12.toExt (F12.divM m t r a b r) * F12.toExt (m b) = F12.toExt (m a) ∧
      ∀ k, k ≠ r → k ≠ t → F12.divM m t r a b k = m k) := by
  have hz : m b ≠ F12.zero := fun h => hb (by rw [h, C26_constants.1])
  have hinv : F12.toExt (F12.inv (m b)) * F12.toExt (m b) = 1 := by
    rw [F12.toExt_eq, F12.toExt_eq]; exact F12.inv_ev F12.hu F12.ht F12.hw _ hz
  refine ⟨.of_update (F12.invM_eq m r b) hinv, fun hat hrt => ?_⟩
  rw [F12.divM_eq m t r a b hat]
  refine ⟨?_, fun k hk hkt => by rw [Function.update_of_ne hk, Function.update_of_ne hkt]⟩
  rw [Function.update_self, F12.div, toExt12_mul, mul_assoc, hinv, mul_one]

/-- `w·w = t`, in place. -/
example : F12.squareM (fun _ => (⟨F6.one, F6.zero⟩ : F12El (ZMod 7))) 0 0 0 = ⟨F6.zero, ⟨F2.zero, F2.one, F2.zero⟩⟩ := by decide +kernel
/-- The hypothesis of the inverse is met by `w`. -/
example : F12.toExt (⟨F6.one, F6.zero⟩ : F12El Fq) ≠ 0 := by
  intro h
  have := congrArg (fun e : F12El Fq => e.x.z.a) (F12.toExt_bijective.1 (h.trans C26_constants.1.symm))
  exact one_ne_zero this

/-! ## C27 -/

/-- With the constants in the source, `Frobenius` is the `p`-th power and `FrobeniusP2` the `p²`-th power, on every element of the
two towers and also in place. -/
theorem C27_frobenius (m6 : F6.Store Fq) (m12 : F12.Store Fq) (r a : Nat) :
    Writes m6 (F6.FrobeniusM m6 r a) r (fun v => F6.toExt v = F6.toExt (m6 a) ^ bnP) ∧
    Writes m6 (F6.FrobeniusP2M m6 r a) r (fun v => F6.toExt v = F6.toExt (m6 a) ^ (bnP ^ 2)) ∧
    Writes m12 (F12.FrobeniusM m12 r a) r (fun v => F12.toExt v = F12.toExt (m12 a) ^ bnP) ∧
    Writes m12 (F12.FrobeniusP2M m12 r a) r (fun v => F12.toExt v = F12.toExt (m12 a) ^ (bnP ^ 2)) := by
  refine ⟨.of_update (F6.FrobeniusM_eq m6 r a) ?_, .of_update (F6.FrobeniusP2M_eq m6 r a) ?_,
    .of_update (F12.FrobeniusM_eq m12 r a) ?_, .of_update (F12.FrobeniusP2M_eq m12 r a) ?_⟩
  · rw [F6.toExt_eq, F6.toExt_eq]; exact F6.ev_frob F6.hu F6.ht _
  · rw [F6.toExt_eq, F6.toExt_eq]; exact F6.ev_frob2 F6.hu F6.ht _
  · rw [F12.toExt_eq, F12.toExt_eq]; exact F12.ev_frob F12.hu F12.ht F12.hw _
  · rw [F12.toExt_eq, F12.toExt_eq]; exact F12.ev_frob2 F12.hu F12.ht F12.hw _

/-- The modulus is the prime the curve is defined over, so the power is the field automorphism. -/
example : bnP.Prime := prime_bnP

/-! ## C28 -/

/-- `exp` returns the power, for every element and byte string, when the result is not the base.  (For longer scalars the loop counter of
the source overflows: `C28_long_scalar`.) -/
theorem C28_exp_partial (m : F12.Store K) (r a : Nat) (hra : r ≠ a) (scalar : List (BitVec 8)) (hl : scalar.length ≤ 2 ^ 28) :
    Writes m (F12.expM m r a scalar) r (fun v => F12.toExt v = F12.toExt (m a) ^ valLE scalar) := by
  obtain ⟨h1, h2⟩ := F12.expM_ev F12.hu F12.ht F12.hw scalar hl hra m
  exact ⟨by dsimp only; rw [F12.toExt_eq, F12.toExt_eq]; exact h1, h2⟩

/-- When the result is the base the answer is always one: the base is overwritten before it is read. -/
theorem C28_exp_in_place (m : F12.Store K) (r : Nat) (scalar : List (BitVec 8)) : F12.toExt (F12.expM m r r scalar r) = 1 := by
  rw [F12.expM, F12.expLoop_self scalar r _ _ (by simp), C26_constants.2.1]

/-- From `2^28 + 1` to `2^29` bytes the counter starts negative and the result is one. -/
theorem C28_long_scalar (m : F12.Store K) (r a : Nat) (scalar : List (BitVec 8)) (h1 : 2 ^ 28 < scalar.length) (h2 : scalar.length ≤ 2 ^ 29) :
    F12.toExt (F12.expM m r a scalar r) = 1 := by
  rw [F12.expM, intBits_wrap h1 h2, F12.expLoop, Function.update_self, C26_constants.2.1]

/-- So the claim fails for in-place calls: `w¹` comes out as one. -/
theorem C28_exp_violated : ∃ (m : F12.Store Fq) (scalar : List (BitVec 8)),
    F12.toExt (F12.expM m 0 0 scalar 0) ≠ F12.toExt (m 0) ^ valLE scalar := by
  refine ⟨fun _ => ⟨F6.one, F6.zero⟩, [1], ?_⟩
  rw [C28_exp_in_place]
  intro h
  have hv : valLE [1] = 1 := by decide
  rw [hv, pow_one, ← C26_constants.2.1] at h
  have := congrArg (fun e : F12El Fq => e.x.z.a) (F12.toExt_bijective.1 h)
  exact zero_ne_one this

/-- A concrete case: `w³ = t·w`. -/
example : F12.expM (fun k => if k = 1 then (⟨F6.one, F6.zero⟩ : F12El (ZMod 7)) else F12.zero) 0 1 [3] 0 =
    ⟨⟨F2.zero, F2.one, F2.zero⟩, F6.zero⟩ := by decide +kernel

end FF.Props
