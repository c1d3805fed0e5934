import Verif.MsmPar

/-!
# The windowed MSM built with a fixed window width

The override `MSM_BITS_PER_CHUNK` of `msm.cpp:21-25`.
-/

namespace FF

variable {P PA : Type}

/-- `MSM::run`, `msm.cpp:5-108`, built with `MSM_BITS_PER_CHUNK = b` (`msm.cpp:21-22`).  Simplification: the `int` and `int32_t` variables of
the loops are unbounded integers, so the model is faithful for `b ≤ 30` (a digit is at most `2^b` in magnitude) and scalars under `2^28` bytes only; `b = 0` divides by zero. -/
def MsmAtP (G : GroupCode P PA) (nThreads : Nat) (mem : Nat → P) (memS : Nat → ℤ)
    (bases : Nat → PA) (scalars : Nat → BitVec 8) (scalarSize b n : Nat) (r : Option P) : Prop :=
  if n = 0 then r = some G.zero
  else if n = 1 then r = G.mulByScalar (bases 0) (scalarBytes scalars scalarSize 0)
  else if scalarSize < 8 ∨ n ≥ 2 ^ 31 then r = none
  else ∃ x, Msm.MsmP G nThreads mem memS bases scalars scalarSize n b x ∧ r = some x

theorem MsmAtP.exists {G : GroupCode P PA} {nT : Nat} {bases : Nat → PA} {scalars : Nat → BitVec 8} {size b n : Nat} (hT : 1 ≤ nT) (mem : Nat → P)
    (memS : Nat → ℤ) : ∃ r, MsmAtP G nT mem memS bases scalars size b n r := by
  unfold MsmAtP
  split_ifs
  · exact ⟨_, rfl⟩
  · exact ⟨_, rfl⟩
  · exact ⟨_, rfl⟩
  · obtain ⟨x, hx⟩ := Msm.MsmP.exists (G := G) hT mem memS bases scalars size n b
    exact ⟨_, x, hx, rfl⟩

/-- No carry leaves the last of `m` windows of at least two bits for a value below a quarter of the range. -/
theorem msmCarry_zero_two (v b m : Nat) (hb : 2 ≤ b) (hv : 4 * v < 2 ^ (m * b)) : msmCarry v b m = 0 := by
  rw [msmCarry_iff v b (by omega), if_neg]
  have h1 := msmMax_closed b m
  have h2 : (2 : Nat) ^ b = 2 * 2 ^ (b - 1) := by rw [← pow_succ']; congr 1; omega
  have h3 : (2 : Nat) ≤ 2 ^ (b - 1) := by
    calc 2 = 2 ^ 1 := rfl
      _ ≤ 2 ^ (b - 1) := Nat.pow_le_pow_right (by norm_num) (by omega)
  have hmod : v % 2 ^ (m * b) = v := Nat.mod_eq_of_lt (by omega)
  rw [hmod]
  intro hgt
  rw [h2] at h1
  generalize 2 ^ (b - 1) = q at h1 h3
  generalize 2 ^ (m * b) = R at h1 hv
  generalize msmMax b m = M at h1 hgt
  obtain ⟨q, rfl⟩ : ∃ k, q = k + 2 := ⟨q - 2, by omega⟩
  obtain ⟨R, rfl⟩ : ∃ k, R = k + 1 := ⟨R - 1, by omega⟩
  simp only [show 2 * (q + 2) - 1 = 2 * q + 3 by omega, show q + 2 - 1 = q + 1 by omega, show R + 1 - 1 = R by omega] at h1
  have h4 : 4 * (M + 1) ≤ R := by omega
  nlinarith [Nat.mul_le_mul_left (q + 1) h4]

end FF
