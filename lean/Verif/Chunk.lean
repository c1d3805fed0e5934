import Verif.Naf
import Verif.GroupCode
import Verif.Log2
import Mathlib.Algebra.BigOperators.Intervals
import Mathlib.Algebra.BigOperators.Fin
import Mathlib.Algebra.BigOperators.Group.Finset.Sigma
import Mathlib.Algebra.Module.BigOperators

/-!
# Pieces shared by the two multi-exponentiations: windows of a scalar and the final combination

A pointer argument is a function from offsets: `scalars : Nat → BitVec 8`, `bases : Nat → PA`.
-/

namespace FF

/-- The bytes of the `i`-th scalar of an array of scalars of `size` bytes each. -/
def scalarBytes (scalars : Nat → BitVec 8) (size i : Nat) : List (BitVec 8) := (List.range size).map fun k => scalars (i * size + k)

/-- The value of the `i`-th scalar: little-endian bytes. -/
def scalarVal (scalars : Nat → BitVec 8) (size i : Nat) : Nat := valLE (scalarBytes scalars size i)

/-- `ParallelMultiexp::getChunk`, `multiexp.cpp:25-37`, and `MSM::getBucketIndex`, `msm.hpp:45-61` (the same body; the mask is built
in `int` in the first, with at most 16 bits set, and in `uint64_t` in the second).  `scalarSize ≥ 8`, so `scalarSize-8` does not wrap.
Offsets are natural numbers: a scalar array fits in the address space. -/
def getChunk (scalars : Nat → BitVec 8) (scalarSize bitsPerChunk scalarIdx chunkIdx : Nat) : Nat :=
  let bitStart := chunkIdx * bitsPerChunk
  let byteStart := bitStart / 8
  let efectiveBitsPerChunk := bitsPerChunk
  let byteStart := if byteStart > scalarSize - 8 then scalarSize - 8 else byteStart
  let efectiveBitsPerChunk := if bitStart + bitsPerChunk > scalarSize * 8 then scalarSize * 8 - bitStart else efectiveBitsPerChunk
  let shift := bitStart - byteStart * 8
  let v : BitVec 64 := word64 ((List.range 8).map fun k => scalars (scalarIdx * scalarSize + byteStart + k))
  let v := v >>> shift
  let v := v &&& BitVec.ofNat 64 (1 <<< efectiveBitsPerChunk - 1)
  v.toNat

/-- The loop `for (k=0; k<bitsPerChunk; k++) g.dbl(r,r)`, `multiexp.cpp:180`, `msm.cpp:109-111`; also `multiexp.cpp:126`. -/
def GroupCode.dblN {P PA : Type} (G : GroupCode P PA) : Nat → P → P
  | 0, p => p
  | k + 1, p => GroupCode.dblN G k (G.dbl p)

/-- The loop `for (j=nChunks-2; j>=0; j--)` that combines the chunk results, `multiexp.cpp:179-182`, `msm.cpp:108-113`; the argument
is the number of iterations left. -/
def GroupCode.combine {P PA : Type} (G : GroupCode P PA) (bitsPerChunk : Nat) (chunkResults : Nat → P) : Nat → P → P
  | 0, r => r
  | j + 1, r => GroupCode.combine G bitsPerChunk chunkResults j (G.add (G.dblN bitsPerChunk r) (chunkResults j))

/-! ## Windows -/

theorem scalarBytes_length (sc : Nat → BitVec 8) (size i : Nat) : (scalarBytes sc size i).length = size := by simp [scalarBytes]

theorem scalarVal_lt (sc : Nat → BitVec 8) (size i : Nat) : scalarVal sc size i < 2 ^ (size * 8) := by
  have := valLE_lt (scalarBytes sc size i)
  rwa [scalarBytes_length] at this

theorem valLE_append (s t : List (BitVec 8)) : valLE (s ++ t) = valLE s + 256 ^ s.length * valLE t := by
  induction s with
  | nil => simp [valLE]
  | cons b s ih => simp only [List.cons_append, valLE, ih, List.length_cons, pow_succ]; ring

theorem valLE_lt' (s : List (BitVec 8)) : valLE s < 256 ^ s.length := by
  have := valLE_lt s
  rwa [mul_comm, pow_mul] at this

theorem valLE_drop (s : List (BitVec 8)) (k : Nat) : valLE (s.drop k) = valLE s / 256 ^ k := by
  by_cases hk : k ≤ s.length
  · conv_rhs => rw [← List.take_append_drop k s]
    have hl : (s.take k).length = k := by simp [hk]
    have := valLE_lt' (s.take k)
    rw [valLE_append, hl] at *
    rw [Nat.add_mul_div_left _ _ (by positivity), Nat.div_eq_of_lt (by rwa [hl] at this), zero_add]
  · rw [List.drop_eq_nil_of_le (by omega), Nat.div_eq_of_lt]
    · rfl
    · exact lt_of_lt_of_le (valLE_lt' s) (Nat.pow_le_pow_right (by norm_num) (by omega))

theorem valLE_take (s : List (BitVec 8)) (k : Nat) : valLE (s.take k) = valLE s % 256 ^ k := by
  by_cases hk : k ≤ s.length
  · conv_rhs => rw [← List.take_append_drop k s]
    have hl : (s.take k).length = k := by simp [hk]
    have := valLE_lt' (s.take k)
    rw [hl] at this
    rw [valLE_append, hl, Nat.add_mul_mod_self_left, Nat.mod_eq_of_lt this]
  · rw [List.take_of_length_le (by omega), Nat.mod_eq_of_lt]
    exact lt_of_lt_of_le (valLE_lt' s) (Nat.pow_le_pow_right (by norm_num) (by omega))

theorem word64_toNat : ∀ s : List (BitVec 8), s.length ≤ 8 → (word64 s).toNat = valLE s := by
  intro s
  induction s with
  | nil => intro _; rfl
  | cons b s ih =>
    intro hl
    simp only [List.length_cons] at hl
    have h1 := ih (by omega)
    have h2 := valLE_lt s
    have h3 : valLE s < 2 ^ 56 := lt_of_lt_of_le h2 (Nat.pow_le_pow_right (by norm_num) (by omega))
    have hb := b.isLt
    simp only [word64, valLE, BitVec.toNat_or, BitVec.toNat_setWidth, BitVec.toNat_shiftLeft, h1]
    rw [Nat.mod_eq_of_lt (by omega), Nat.mod_eq_of_lt (by rw [Nat.shiftLeft_eq]; omega), Nat.or_comm,
      ← Nat.shiftLeft_add_eq_or_of_lt (by omega), Nat.shiftLeft_eq]
    omega

theorem getChunk_word (sc : Nat → BitVec 8) (size i byteStart : Nat) (h : byteStart + 8 ≤ size) :
    (word64 ((List.range 8).map fun k => sc (i * size + byteStart + k))).toNat = scalarVal sc size i / 2 ^ (8 * byteStart) % 2 ^ 64 := by
  have e : ((List.range 8).map fun k => sc (i * size + byteStart + k)) = ((scalarBytes sc size i).drop byteStart).take 8 := by
    apply List.ext_getElem
    · simp [scalarBytes]; omega
    · intro k h1 h2
      simp [scalarBytes, Nat.add_assoc]
  rw [word64_toNat _ (by simp), e, valLE_take, valLE_drop, scalarVal, pow_mul]
  norm_num

theorem getChunk_eq (sc : Nat → BitVec 8) (size b i j : Nat) (hs : 8 ≤ size) (hb : b ≤ 57) (hj : j * b < size * 8) :
    getChunk sc size b i j = scalarVal sc size i / 2 ^ (j * b) % 2 ^ b := by
  unfold getChunk
  simp only []
  set byteStart := (if j * b / 8 > size - 8 then size - 8 else j * b / 8) with hbs
  set eff := (if j * b + b > size * 8 then size * 8 - j * b else b) with heff
  have h1 : byteStart + 8 ≤ size := by rw [hbs]; split_ifs <;> omega
  have h2 : byteStart * 8 ≤ j * b := by rw [hbs]; split_ifs <;> omega
  have h3 : j * b - byteStart * 8 + eff ≤ 64 := by rw [hbs, heff]; split_ifs <;> omega
  have h4 : eff ≤ 57 := by rw [heff]; split_ifs <;> omega
  rw [BitVec.toNat_and, BitVec.toNat_ofNat, BitVec.toNat_ushiftRight, getChunk_word _ _ _ _ h1, Nat.shiftLeft_eq, one_mul,
    Nat.mod_eq_of_lt (a := 2 ^ eff - 1), Nat.and_two_pow_sub_one_eq_mod, Nat.shiftRight_eq_div_pow]
  swap
  · have : 2 ^ eff ≤ 2 ^ 57 := Nat.pow_le_pow_right (by norm_num) h4
    have : 0 < 2 ^ eff := by positivity
    omega
  have hs' := scalarVal_lt sc size i
  generalize scalarVal sc size i = v at *
  have e1 : v / 2 ^ (8 * byteStart) % 2 ^ 64 / 2 ^ (j * b - byteStart * 8) % 2 ^ eff = v / 2 ^ (j * b) % 2 ^ eff := by
    have e64 : (2 : Nat) ^ 64 = 2 ^ (j * b - byteStart * 8) * 2 ^ (64 - (j * b - byteStart * 8)) := by
      rw [← pow_add]; congr 1; omega
    rw [e64, Nat.mod_mul_right_div_self, Nat.div_div_eq_div_mul, ← pow_add,
      Nat.mod_mod_of_dvd _ (pow_dvd_pow 2 (by omega))]
    congr 3; omega
  rw [e1, heff]
  split_ifs with h5
  · have h6 : v / 2 ^ (j * b) < 2 ^ (size * 8 - j * b) := by
      rw [Nat.div_lt_iff_lt_mul (by positivity), ← pow_add]
      rwa [show size * 8 - j * b + j * b = size * 8 by omega]
    rw [Nat.mod_eq_of_lt h6, Nat.mod_eq_of_lt]
    exact lt_of_lt_of_le h6 (Nat.pow_le_pow_right (by norm_num) (by omega))
  · rfl

/-- The windows of a number add up to the number. -/
theorem windows_sum (v b : Nat) : ∀ m, ∑ j ∈ Finset.range m, 2 ^ (j * b) * (v / 2 ^ (j * b) % 2 ^ b) = v % 2 ^ (m * b) := by
  intro m
  induction m with
  | zero => simp [Nat.mod_one]
  | succ m ih =>
    rw [Finset.sum_range_succ, ih, Nat.succ_mul, pow_add, Nat.mod_mul]

/-! ## Combination -/

section combine
variable {P PA A : Type} [AddCommGroup A] {G : GroupCode P PA} {D : P → A → Prop} {DA : PA → A → Prop}

theorem GroupCode.Sound.dblN (hG : G.Sound D DA) : ∀ k {p x}, D p x → D (G.dblN k p) (2 ^ k • x) := by
  intro k
  induction k with
  | zero => intro p x h; simpa [GroupCode.dblN] using h
  | succ k ih =>
    intro p x h
    have := ih (hG.dbl h)
    rwa [← two_nsmul, ← mul_smul, ← pow_succ] at this

theorem GroupCode.Sound.combine (hG : G.Sound D DA) {b : Nat} {res : Nat → P} {x : Nat → A} : ∀ m {r y},
    (∀ j < m, D (res j) (x j)) → D r y →
    D (G.combine b res m r) (2 ^ (m * b) • y + ∑ j ∈ Finset.range m, 2 ^ (j * b) • x j) := by
  intro m
  induction m with
  | zero => intro r y _ h; simpa [GroupCode.combine] using h
  | succ m ih =>
    intro r y hx h
    have := ih (fun j hj => hx j (by omega)) (hG.add (hG.dblN b h) (hx m (by omega)))
    rw [GroupCode.combine]
    convert this using 1
    rw [Finset.sum_range_succ, smul_add, ← mul_smul, ← pow_add, Nat.succ_mul]
    abel

/-- All chunk results combined, starting from the last. -/
theorem GroupCode.Sound.combine_all (hG : G.Sound D DA) {b : Nat} {res : Nat → P} {x : Nat → A} {nChunks : Nat} (hn : 1 ≤ nChunks)
    (h : ∀ j < nChunks, D (res j) (x j)) :
    D (G.combine b res (nChunks - 1) (res (nChunks - 1))) (∑ j ∈ Finset.range nChunks, 2 ^ (j * b) • x j) := by
  have := hG.combine (b := b) (nChunks - 1) (fun j hj => h j (by omega)) (h (nChunks - 1) (by omega))
  obtain ⟨m, rfl⟩ : ∃ m, nChunks = m + 1 := ⟨nChunks - 1, by omega⟩
  rw [Finset.sum_range_succ, add_comm (∑ j ∈ Finset.range m, 2 ^ (j * b) • x j)]
  exact this

end combine

/-- A sum over a schedule is the sum over the range. -/
theorem Sched.Valid.sum {σ : Sched} {nT : Nat} (hσ : σ.Valid nT) {A : Type} [AddCommMonoid A] (tag : List Nat) (lo hi : Nat) (f : Nat → A) :
    ((σ tag lo hi).map fun e => f e.1).sum = ∑ i ∈ Finset.Ico lo hi, f i := by
  have h1 : ((σ tag lo hi).map fun e => f e.1) = ((σ tag lo hi).map Prod.fst).map f := by simp [Function.comp_def]
  rw [h1, ((hσ tag lo hi).1.map f).sum_eq]
  rw [Finset.sum_Ico_eq_sum_range]
  generalize hi - lo = m
  induction m with
  | zero => simp
  | succ m ih =>
    rw [List.range'_concat, List.map_append, List.sum_append, ih, Finset.sum_range_succ]
    simp

theorem Sched.Valid.mem {σ : Sched} {nT : Nat} (hσ : σ.Valid nT) {tag : List Nat} {lo hi : Nat} {e : Nat × Nat} (he : e ∈ σ tag lo hi) :
    lo ≤ e.1 ∧ e.1 < hi ∧ e.2 < nT := by
  have h1 := ((hσ tag lo hi).1.mem_iff (a := e.1)).mp (List.mem_map_of_mem he)
  rw [List.mem_range'_1] at h1
  exact ⟨h1.1, by omega, (hσ tag lo hi).2 e he⟩

theorem Sched.Valid.nodup {σ : Sched} {nT : Nat} (hσ : σ.Valid nT) (tag : List Nat) (lo hi : Nat) :
    ((σ tag lo hi).map Prod.fst).Nodup := (hσ tag lo hi).1.nodup_iff.mpr List.nodup_range'

theorem Sched.Valid.mem_fst {σ : Sched} {nT : Nat} (hσ : σ.Valid nT) {tag : List Nat} {lo hi i : Nat} (h1 : lo ≤ i) (h2 : i < hi) :
    i ∈ (σ tag lo hi).map Prod.fst := by
  rw [(hσ tag lo hi).1.mem_iff, List.mem_range'_1]; omega

end FF
