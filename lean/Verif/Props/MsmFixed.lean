import Verif.MsmFixed
import Verif.Props.MultiexpPar
import Verif.Props.Bounds

/-!
# Property C87: the windowed MSM built with a fixed window width

`MsmAtP G nThreads mem memS bases scalars scalarSize b n r`: `r` is the outcome of an execution of `MSM::run` in a build with
`MSM_BITS_PER_CHUNK = b`, with any assignment of the iterations to the threads and any interleaving, as `MsmRunP` in C60.  `none` is a read
outside the scalar array or a point count that does not fit an `int`.
-/

namespace FF.Props

open FF

variable {P PA A : Type} [AddCommGroup A] {G : GroupCode P PA} {D : P → A → Prop} {DA : PA → A → Prop}
variable {nThreads : Nat} {bases : Nat → PA} {a : Nat → A} {n : Nat}

/-- The build without the override is the build with the width that `calcBitsPerChunk` chooses for the call. -/
theorem C87_default (mem : Nat → P) (memS : Nat → ℤ) (scalars : Nat → BitVec 8) (scalarSize : Nat) (r : Option P) :
    MsmRunP G nThreads mem memS bases scalars scalarSize n r ↔
      MsmAtP G nThreads mem memS bases scalars scalarSize (msmBitsPerChunk n scalarSize) n r := Iff.rfl

/-- What every execution computes, for every scalar and every width of 1 to 30 bits: scalar `s` acts as `s - 2^(b*m)` exactly when
`(2^b-1)*s > (2^(b-1)-1)*(2^(b*m)-1)`, where `m = ⌈8*size/b⌉`. -/
theorem C87_value (hG : G.Sound D DA) (hT : 1 ≤ nThreads) (ha : ∀ i < n, DA (bases i) (a i)) (hn : n < 2 ^ 31) (hn2 : 2 ≤ n)
    (mem : Nat → P) (memS : Nat → ℤ) (scalars : Nat → BitVec 8) {scalarSize b m : Nat} (hs : 8 ≤ scalarSize) (hb : 1 ≤ b) (hb' : b ≤ 30)
    (hm : m = (8 * scalarSize + b - 1) / b) (r : Option P) (h : MsmAtP G nThreads mem memS bases scalars scalarSize b n r) :
    ∃ p, r = some p ∧ D p (∑ i ∈ Finset.range n, ((scalarVal scalars scalarSize i : ℤ) -
      if (2 ^ b - 1) * scalarVal scalars scalarSize i > (2 ^ (b - 1) - 1) * (2 ^ (m * b) - 1) then 2 ^ (m * b) else 0) • a i) := by
  have hmc : m = msmChunkCount scalarSize b := by
    rw [hm, msmChunkCount, show 8 * scalarSize + b - 1 = (scalarSize * 8 - 1) + b by omega, Nat.add_div_right _ (by omega)]
  subst hmc
  rw [MsmAtP, if_neg (by omega), if_neg (by omega), if_neg (by omega)] at h
  obtain ⟨p, hp, rfl⟩ := h
  obtain ⟨σ, hσ, rfl⟩ := hp.lin hT hb hb' hs
  refine ⟨_, rfl, ?_⟩
  have := msmMain_rel hG hσ hb hb' hs ha scalars (PME.accsOf mem) (PME.sallOf mem) memS
  convert this using 1
  refine Finset.sum_congr rfl fun i hi => congrArg (fun z : ℤ => ((scalarVal scalars scalarSize i : ℤ) - z) • a i) ?_
  have hbnd : scalarSize * 8 ≤ msmChunkCount scalarSize b * b := by
    have h1 := Nat.lt_mul_div_succ (scalarSize * 8 - 1) (show 0 < b by omega)
    rw [msmChunkCount, mul_comm _ b]; exact Nat.le_of_pred_lt h1
  have hlt : scalarVal scalars scalarSize i < 2 ^ (msmChunkCount scalarSize b * b) :=
    lt_of_lt_of_le (scalarVal_lt _ _ _) (Nat.pow_le_pow_right (by norm_num) hbnd)
  rw [msmCarry_iff _ _ hb, Nat.mod_eq_of_lt hlt, ← msmMax_closed]
  have hpos : 0 < 2 ^ b - 1 := by
    have : 2 ^ 1 ≤ 2 ^ b := Nat.pow_le_pow_right (by norm_num) hb
    omega
  by_cases h : scalarVal scalars scalarSize i > msmMax b (msmChunkCount scalarSize b)
  · rw [if_pos h, if_pos (Nat.mul_lt_mul_of_pos_left h hpos)]; simp
  · rw [if_neg h, if_neg (by intro h'; exact h (Nat.lt_of_mul_lt_mul_left h'))]; simp

/-- C87 for widths of 2 to 30 bits and scalars below `2^(8*size-2)`: every execution returns the sum, and there is one.  Missing: larger
scalars and width 1 (`C87_value` says what the code computes, `C87_violation_one` that width 1 is wrong for every nonzero scalar). -/
theorem C87_fixed_partial (hG : G.Sound D DA) (hT : 1 ≤ nThreads) (ha : ∀ i < n, DA (bases i) (a i)) (hn : n < 2 ^ 31)
    (mem : Nat → P) (memS : Nat → ℤ) (scalars : Nat → BitVec 8) {scalarSize b : Nat} (hs : 8 ≤ scalarSize) (hs' : scalarSize < 2 ^ 28)
    (hb : 2 ≤ b) (hb' : b ≤ 30) (hsc : ∀ i < n, scalarVal scalars scalarSize i < 2 ^ (8 * scalarSize - 2)) :
    (∃ r, MsmAtP G nThreads mem memS bases scalars scalarSize b n r) ∧
    ∀ r, MsmAtP G nThreads mem memS bases scalars scalarSize b n r →
      ∃ p, r = some p ∧ D p (∑ i ∈ Finset.range n, scalarVal scalars scalarSize i • a i) := by
  refine ⟨MsmAtP.exists hT mem memS, fun r h => ?_⟩
  by_cases e1 : n ≤ 1
  · refine (C60_multiexp hG hT ha mem mem scalars hs hs').2 r ?_
    unfold MsmAtP at h
    unfold MultiexpP PmeP
    by_cases e0 : n = 0
    · rw [if_pos e0] at h ⊢; exact h
    · rw [if_neg e0, if_pos (by omega)] at h ⊢; exact h
  rw [MsmAtP, if_neg (by omega), if_neg (by omega), if_neg (by omega)] at h
  obtain ⟨p, hp, rfl⟩ := h
  obtain ⟨σ, hσ, rfl⟩ := hp.lin hT (by omega) hb' hs
  refine ⟨_, rfl, ?_⟩
  have := msmMain_rel hG hσ (by omega) hb' hs ha scalars (PME.accsOf mem) (PME.sallOf mem) memS
  convert this using 1
  refine Finset.sum_congr rfl fun i hi => ?_
  rw [msmCarry_zero_two _ _ _ hb]
  · simp
  · have h1 := hsc i (Finset.mem_range.mp hi)
    have hbnd : scalarSize * 8 ≤ msmChunkCount scalarSize b * b := by
      have h1 := Nat.lt_mul_div_succ (scalarSize * 8 - 1) (show 0 < b by omega)
      rw [msmChunkCount, mul_comm _ b]; exact Nat.le_of_pred_lt h1
    have h2 : (2 : Nat) ^ (scalarSize * 8) = 4 * 2 ^ (8 * scalarSize - 2) := by
      rw [show (4 : Nat) = 2 ^ 2 by norm_num, ← pow_add]; congr 1; omega
    have h3 : (2 : Nat) ^ (scalarSize * 8) ≤ _ := Nat.pow_le_pow_right (by norm_num) hbnd
    omega

/-- Builds with different widths, thread counts and heap contents return representations of the same element. -/
theorem C87_widths_agree (hG : G.Sound D DA) {nThreads' : Nat} (hT : 1 ≤ nThreads) (hT' : 1 ≤ nThreads') (ha : ∀ i < n, DA (bases i) (a i)) (hn : n < 2 ^ 31)
    (mem mem' : Nat → P) (memS memS' : Nat → ℤ) (scalars : Nat → BitVec 8) {scalarSize b b' : Nat} (hs : 8 ≤ scalarSize) (hs' : scalarSize < 2 ^ 28)
    (hb : 2 ≤ b ∧ b ≤ 30) (hb' : 2 ≤ b' ∧ b' ≤ 30) (hsc : ∀ i < n, scalarVal scalars scalarSize i < 2 ^ (8 * scalarSize - 2)) (r r' : Option P)
    (h : MsmAtP G nThreads mem memS bases scalars scalarSize b n r) (h' : MsmAtP G nThreads' mem' memS' bases scalars scalarSize b' n r') :
    ∃ p p' x, r = some p ∧ r' = some p' ∧ D p x ∧ D p' x := by
  obtain ⟨p, h1, h2⟩ := (C87_fixed_partial hG hT ha hn mem memS scalars hs hs' hb.1 hb.2 hsc).2 r h
  obtain ⟨p', h3, h4⟩ := (C87_fixed_partial hG hT' ha hn mem' memS' scalars hs hs' hb'.1 hb'.2 hsc).2 r' h'
  exact ⟨p, p', _, h1, h3, h2, h4⟩


/-- No data race in the two loops and no access outside `slicedScalars`, `bucketMatrix` and `chunks`, for every width of 1 to 30 bits and
every scalar; `sl` is any content the first loop can leave in `slicedScalars`. -/
theorem C87_loops (hT : 1 ≤ nThreads) (scalars : Nat → BitVec 8) {scalarSize : Nat} (hs : 8 ≤ scalarSize) (m : Nat → P) (memS sl : Nat → ℤ)
    {b nC nB : Nat} (hb : 1 ≤ b) (hb' : b ≤ 30) (hC : nC = msmChunkCount scalarSize b) (hB : nB = msmBucketCount b)
    (hsl : Omp.For nThreads 0 n (Msm.sliceBody scalars scalarSize b nC nB) memS sl) :
    ¬Omp.ForRace nThreads 0 n (Msm.sliceBody scalars scalarSize b nC nB) memS ∧
    ¬Omp.ForRace nThreads 0 nC (Msm.chunkBody G bases sl nC nB n) m ∧
    TeamIn (fun c => c < n * nC) nThreads 0 n (Msm.sliceBody scalars scalarSize b nC nB) ∧
    TeamIn (fun c => InAccs (nThreads * nB) c ∨ InSall nC c) nThreads 0 nC (Msm.chunkBody G bases sl nC nB n) := by
  subst hC hB
  have hd := Msm.chunk_disjoint (G := G) (bases := bases) (nT := nThreads) (Msm.bucketCount_pos b) (Msm.digits hT hb hb' hs hsl)
  refine ⟨Msm.slice_disjoint.no_race memS, hd.no_race m, teamIn_of_foot fun t i ht h1 h2 a ha => ?_, teamIn_of_foot fun t i ht h1 h2 a ha => ?_⟩
  · refine (Msm.slice_disjoint.foot t i ht h1 h2 a ha).mono ?_
    rintro x ⟨j, hj, rfl⟩
    exact scalar_index h2 hj
  · refine (hd.foot t i ht h1 h2 a ha).mono ?_
    rintro x (⟨v, hv, rfl⟩ | rfl)
    · exact Or.inl (PME.acc_index ht hv)
    · exact Or.inr ⟨i, h2, rfl⟩

/-- C87 fails for every call with a width of one bit: each nonzero scalar `s` acts as `s - 2^(8*size)`. -/
theorem C87_violation_one (hG : G.Sound D DA) (hT : 1 ≤ nThreads) (ha : ∀ i < n, DA (bases i) (a i)) (hn : n < 2 ^ 31) (hn2 : 2 ≤ n)
    (mem : Nat → P) (memS : Nat → ℤ) (scalars : Nat → BitVec 8) {scalarSize : Nat} (hs : 8 ≤ scalarSize) (r : Option P)
    (h : MsmAtP G nThreads mem memS bases scalars scalarSize 1 n r) :
    ∃ p, r = some p ∧ D p (∑ i ∈ Finset.range n, (if scalarVal scalars scalarSize i = 0 then 0 else
      (scalarVal scalars scalarSize i : ℤ) - 2 ^ (8 * scalarSize)) • a i) := by
  obtain ⟨p, h1, h2⟩ := C87_value hG hT ha hn hn2 mem memS scalars hs (le_refl 1) (by norm_num) rfl r h
  refine ⟨p, h1, ?_⟩
  convert h2 using 1
  refine Finset.sum_congr rfl fun i _ => congrArg (· • a i) ?_
  by_cases e : scalarVal scalars scalarSize i = 0
  · simp [e]
  · rw [if_neg e, if_pos (by simp; omega)]; simp

/-- Three points, 32-byte scalars of the size of BN254's, in a build with 20-bit windows. -/
example : (∃ r, MsmAtP intCode 3 (fun _ => 77) (fun _ => 79) (fun i => (i : ℤ) - 2)
      (fun i => if i % 32 = 31 then 0x2F else BitVec.ofNat 8 i) 32 20 3 r) ∧
    ∀ r, MsmAtP intCode 3 (fun _ => 77) (fun _ => 79) (fun i => (i : ℤ) - 2)
      (fun i => if i % 32 = 31 then 0x2F else BitVec.ofNat 8 i) 32 20 3 r →
      ∃ p, r = some p ∧ p = ∑ i ∈ Finset.range 3, scalarVal (fun i => if i % 32 = 31 then 0x2F else BitVec.ofNat 8 i) 32 i • ((i : ℤ) - 2) :=
  C87_fixed_partial intCode_sound (by norm_num) (fun _ _ => rfl) (by norm_num) _ _ _ (by norm_num) (by norm_num) (by norm_num) (by norm_num)
    (by decide +kernel)

/-- Two points equal to 1 with scalars 1, 8-byte scalars, 1-bit windows: `2 - 2^65` instead of 2. -/
example (r : Option ℤ) (h : MsmAtP intCode 2 (fun _ => 0) (fun _ => 0) (fun _ => 1) (fun i => if i % 8 = 0 then 1 else 0) 8 1 2 r) :
    r = some (2 - 2 ^ 65) := by
  obtain ⟨p, h1, h2⟩ := C87_violation_one intCode_sound (by norm_num) (a := fun _ => (1 : ℤ)) (fun _ _ => rfl) (by norm_num) (by norm_num) _ _ _ (by norm_num) r h
  rw [h1, show p = _ from h2]
  decide +kernel

end FF.Props
