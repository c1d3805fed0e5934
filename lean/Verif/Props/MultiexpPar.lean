import Verif.MsmPar
import Verif.Props.Multiexp

/-!
# Property C60: multi-exponentiation with interleaved threads

`MultiexpP`, `MultiexpStridedP` and `MsmRunP` relate the arguments of the three entry points to the outcomes of their executions: the
iterations of every parallel loop go to the threads in any way and the loads and stores of shared point objects by different threads
interleave in any order (`Omp.For`, over `Par.Exec`).  `mem`, `mem'`, `memS` are the contents of the freshly allocated arrays.
-/

namespace FF.Props

open FF

variable {P PA A : Type} [AddCommGroup A] {G : GroupCode P PA} {D : P → A → Prop} {DA : PA → A → Prop}
variable {nThreads : Nat} {bases : Nat → PA} {a : Nat → A} {n : Nat}

/-- Every execution of the multi-exponentiation returns the sum; and there is one. -/
theorem C60_multiexp (hG : G.Sound D DA) (hT : 1 ≤ nThreads) (ha : ∀ i < n, DA (bases i) (a i))
    (mem mem' : Nat → P) (scalars : Nat → BitVec 8) {scalarSize : Nat} (hs : 8 ≤ scalarSize) (hs' : scalarSize < 2 ^ 28) :
    (∃ r, MultiexpP G nThreads mem mem' bases scalars scalarSize n r) ∧
    ∀ r, MultiexpP G nThreads mem mem' bases scalars scalarSize n r →
      ∃ p, r = some p ∧ D p (∑ i ∈ Finset.range n, scalarVal scalars scalarSize i • a i) := by
  refine ⟨PmeP.exists hT _ mem mem', fun r h => ?_⟩
  obtain ⟨σ, hσ, e⟩ := PmeP.lin hT h
  obtain ⟨p, h1, h2⟩ := C36_multiexp hG hσ hT ha (PME.accsOf mem) mem' scalars hs hs'
  exact ⟨p, by rw [← e]; exact h1, h2⟩

/-- The strided version, for vectors of 1 to 2^32 elements (see C37 for the other lengths). -/
theorem C60_strided (hG : G.Sound D DA) (hT : 1 ≤ nThreads) (ha : ∀ i < n, DA (bases i) (a i))
    (mem mem' : Nat → P) (scalars : Nat → BitVec 8) {scalarSize : Nat} (hs : 8 ≤ scalarSize) (hs' : scalarSize < 2 ^ 28) {nX : Nat} {size : Nat → BitVec 64}
    (hX : 0 < nX) (hX' : nX < 2 ^ 32) (hsz : ∀ k < nX, 1 ≤ (size k).toNat ∧ (size k).toNat ≤ 2 ^ 32) :
    (∃ r, MultiexpStridedP G nThreads mem mem' bases scalars scalarSize n nX size r) ∧
    ∀ r, MultiexpStridedP G nThreads mem mem' bases scalars scalarSize n nX size r →
      ∃ p, r = some p ∧ D p (∑ i ∈ Finset.range n with i / nX < (size (i % nX)).toNat, scalarVal scalars scalarSize i • a i) := by
  simp only [MultiexpStridedP, if_neg (show ¬ (n ≥ 2 ∧ nX = 0) by omega)]
  refine ⟨PmeP.exists hT _ mem mem', fun r h => ?_⟩
  obtain ⟨σ, hσ, e⟩ := PmeP.lin hT h
  obtain ⟨p, h1, h2⟩ := C37_strided_partial hG hσ hT ha (PME.accsOf mem) mem' scalars hs hs' hX hX' hsz
  refine ⟨p, ?_, h2⟩
  rw [← e, ← h1, multiexpStrided, if_neg (by omega)]

/-- The windowed MSM, for scalars below `2^(8*size-2)` (see C38 for the other scalars). -/
theorem C60_msm (hG : G.Sound D DA) (hT : 1 ≤ nThreads) (ha : ∀ i < n, DA (bases i) (a i)) (hn : n < 2 ^ 31)
    (mem : Nat → P) (memS : Nat → ℤ) (scalars : Nat → BitVec 8) {scalarSize : Nat} (hs : 8 ≤ scalarSize) (hs' : scalarSize < 2 ^ 28)
    (hsc : ∀ i < n, scalarVal scalars scalarSize i < 2 ^ (8 * scalarSize - 2)) :
    (∃ r, MsmRunP G nThreads mem memS bases scalars scalarSize n r) ∧
    ∀ r, MsmRunP G nThreads mem memS bases scalars scalarSize n r →
      ∃ p, r = some p ∧ D p (∑ i ∈ Finset.range n, scalarVal scalars scalarSize i • a i) := by
  refine ⟨MsmRunP.exists hT mem memS, fun r h => ?_⟩
  obtain ⟨σ, hσ, e⟩ := h.lin hT
  obtain ⟨p, h1, h2⟩ := C38_msm_partial hG hσ ha hn (PME.accsOf mem) (PME.sallOf mem) memS scalars hs hs' hsc
  exact ⟨p, by rw [← e]; exact h1, h2⟩

/-- For every vector length, also those outside C37: all executions of the strided version agree. -/
theorem C60_strided_agree (hG : G.Sound D DA) (hT : 1 ≤ nThreads) (ha : ∀ i < n, DA (bases i) (a i))
    (mem mem' : Nat → P) (scalars : Nat → BitVec 8) {scalarSize : Nat} (hs : 8 ≤ scalarSize) (hs' : scalarSize < 2 ^ 28) {nX : Nat} (hX : 0 < nX) (size : Nat → BitVec 64) :
    ∃ x, ∀ r, MultiexpStridedP G nThreads mem mem' bases scalars scalarSize n nX size r → ∃ p, r = some p ∧ D p x := by
  simp only [MultiexpStridedP, if_neg (show ¬ (n ≥ 2 ∧ nX = 0) by omega)]
  by_cases e1 : n = 1
  · refine ⟨∑ i ∈ Finset.range n, scalarVal scalars scalarSize i • a i, fun r h => ?_⟩
    have h' : PmeP G nThreads (fun _ => true) mem mem' bases scalars scalarSize n r := by
      unfold PmeP at h ⊢
      rw [if_neg (by omega), if_pos e1] at h ⊢
      exact h
    exact (C60_multiexp hG hT ha mem mem' scalars hs hs').2 r h'
  · refine ⟨∑ i ∈ Finset.range n, (if stridedInc nX size i then scalarVal scalars scalarSize i • a i else 0), fun r h => ?_⟩
    obtain ⟨σ, hσ, e⟩ := PmeP.lin hT h
    obtain ⟨p, h1, h2⟩ := pmeRun_rel hG hσ hT ha (stridedInc nX size) (PME.accsOf mem) mem' scalars hs hs' (fun h => absurd h e1)
    exact ⟨p, by rw [← e, h1], h2⟩

/-- For every scalar, also those outside C38: all executions of the windowed MSM agree. -/
theorem C60_msm_agree (hG : G.Sound D DA) (hT : 1 ≤ nThreads) (ha : ∀ i < n, DA (bases i) (a i)) (hn : n < 2 ^ 31)
    (mem : Nat → P) (memS : Nat → ℤ) (scalars : Nat → BitVec 8) {scalarSize : Nat} (hs : 8 ≤ scalarSize) (hs' : scalarSize < 2 ^ 28) :
    ∃ x, ∀ r, MsmRunP G nThreads mem memS bases scalars scalarSize n r → ∃ p, r = some p ∧ D p x := by
  by_cases e1 : n ≤ 1
  · refine ⟨∑ i ∈ Finset.range n, scalarVal scalars scalarSize i • a i, fun r h => ?_⟩
    have h' : MultiexpP G nThreads mem mem bases scalars scalarSize n r := by
      unfold MsmRunP at h
      unfold MultiexpP PmeP
      by_cases e0 : n = 0
      · rw [if_pos e0] at h ⊢; exact h
      · rw [if_neg e0, if_pos (by omega)] at h ⊢; exact h
    exact (C60_multiexp hG hT ha mem mem scalars hs hs').2 r h'
  · refine ⟨∑ i ∈ Finset.range n, ((scalarVal scalars scalarSize i : ℤ) -
      (msmCarry (scalarVal scalars scalarSize i) (msmBitsPerChunk n scalarSize) (msmChunkCount scalarSize (msmBitsPerChunk n scalarSize)) : ℤ) *
        2 ^ (msmChunkCount scalarSize (msmBitsPerChunk n scalarSize) * msmBitsPerChunk n scalarSize)) • a i, fun r h => ?_⟩
    obtain ⟨σ, hσ, e⟩ := h.lin hT
    have hr := msmBitsPerChunk_range n scalarSize
    have := msmMain_rel hG hσ (by omega) (hr.2.trans (by norm_num)) hs ha scalars (PME.accsOf mem) (PME.sallOf mem) memS
    refine ⟨_, ?_, this⟩
    rw [← e, msmRun, if_neg (by omega), if_neg (by omega), if_neg (by omega)]

/-- No data race in any parallel loop of the multi-exponentiation, plain or strided (`inc` is the test of the stride), from any memory:
no reachable state has two threads one of which is about to write an object that the other is about to read or write. -/
theorem C60_multiexp_race_free (inc : Nat → Bool) (scalars : Nat → BitVec 8) {scalarSize : Nat} (hs : 8 ≤ scalarSize) (m : Nat → P) :
    let c : PME P PA := ⟨G, bases, scalars, scalarSize, n, nThreads, pmeBits n⟩
    ¬Omp.ForRace nThreads 0 (nThreads * c.accsPerChunk) c.initBody m ∧
    (∀ chunk < c.nChunks, ¬Omp.ForRace nThreads 0 n (c.processBody inc chunk) m) ∧
    ¬Omp.ForRace nThreads 0 c.accsPerChunk c.packBody m ∧
    ∀ k, ¬Omp.ForRace nThreads 1 (1 <<< k) (c.reduceBody (1 <<< k)) m := by
  have hb := pmeBits_range n
  intro c
  refine ⟨PME.init_disjoint (c := c).no_race m, fun chunk hc => ?_, PME.pack_disjoint (c := c).no_race m, fun k => (PME.reduce_disjoint (c := c) _).no_race m⟩
  exact (PME.process_disjoint (c := c) (PME.chunk_lt (c := c) (by show 1 ≤ pmeBits n; omega) hb.2 hs chunk (List.mem_range.2 hc))).no_race m

/-- No data race in the two loops of the windowed MSM; `sl` is any content the first loop can leave in `slicedScalars`. -/
theorem C60_msm_race_free (hT : 1 ≤ nThreads) (scalars : Nat → BitVec 8) {scalarSize : Nat} (hs : 8 ≤ scalarSize) (m : Nat → P) (memS sl : Nat → ℤ)
    {b nC nB : Nat} (hb : b = msmBitsPerChunk n scalarSize) (hC : nC = msmChunkCount scalarSize b) (hB : nB = msmBucketCount b)
    (hsl : Omp.For nThreads 0 n (Msm.sliceBody scalars scalarSize b nC nB) memS sl) :
    ¬Omp.ForRace nThreads 0 n (Msm.sliceBody scalars scalarSize b nC nB) memS ∧
    ¬Omp.ForRace nThreads 0 nC (Msm.chunkBody G bases sl nC nB n) m := by
  have hb := hb ▸ msmBitsPerChunk_range n scalarSize
  subst hC hB
  exact ⟨Msm.slice_disjoint.no_race memS,
    (Msm.chunk_disjoint (Msm.bucketCount_pos _) (Msm.digits hT (by omega) (by omega) hs hsl)).no_race m⟩

/-- Five integers, 9-byte scalars, three threads, arrays full of 77. -/
example : (∃ r, MultiexpP intCode 3 (fun _ => 77) (fun _ => 78) (fun i => (i : ℤ) - 2) (fun i => BitVec.ofNat 8 i) 9 5 r) ∧
    ∀ r, MultiexpP intCode 3 (fun _ => 77) (fun _ => 78) (fun i => (i : ℤ) - 2) (fun i => BitVec.ofNat 8 i) 9 5 r →
      ∃ p, r = some p ∧ p = ∑ i ∈ Finset.range 5, scalarVal (fun i => BitVec.ofNat 8 i) 9 i • ((i : ℤ) - 2) :=
  C60_multiexp intCode_sound (by norm_num) (fun _ _ => rfl) _ _ _ (by norm_num) (by norm_num)

example : (∃ r, MsmRunP intCode 3 (fun _ => 77) (fun _ => 79) (fun i => (i : ℤ) - 2)
      (fun i => if i % 32 = 31 then 0x2F else BitVec.ofNat 8 i) 32 3 r) ∧
    ∀ r, MsmRunP intCode 3 (fun _ => 77) (fun _ => 79) (fun i => (i : ℤ) - 2)
      (fun i => if i % 32 = 31 then 0x2F else BitVec.ofNat 8 i) 32 3 r →
      ∃ p, r = some p ∧ p = ∑ i ∈ Finset.range 3, scalarVal (fun i => if i % 32 = 31 then 0x2F else BitVec.ofNat 8 i) 32 i • ((i : ℤ) - 2) :=
  C60_msm intCode_sound (by norm_num) (fun _ _ => rfl) (by norm_num) _ _ _ (by norm_num) (by norm_num) (by decide +kernel)

/-- Two interleaved vectors of lengths 3 and 1, eight points, two threads. -/
example : (∃ r, MultiexpStridedP intCode 2 (fun _ => 77) (fun _ => 78) (fun i => (i : ℤ) + 1) (fun _ => 1) 8 8 2 (fun k => if k = 0 then 3 else 1) r) ∧
    ∀ r, MultiexpStridedP intCode 2 (fun _ => 77) (fun _ => 78) (fun i => (i : ℤ) + 1) (fun _ => 1) 8 8 2 (fun k => if k = 0 then 3 else 1) r →
      ∃ p, r = some p ∧ p = ∑ i ∈ Finset.range 8 with i / 2 < ((fun k => if k = 0 then 3 else 1 : Nat → BitVec 64) (i % 2)).toNat,
        scalarVal (fun _ => 1) 8 i • ((i : ℤ) + 1) :=
  C60_strided intCode_sound (by norm_num) (fun _ _ => rfl) _ _ _ (by norm_num) (by norm_num) (by norm_num) (by norm_num)
    (by intro k _; by_cases h : k = 0 <;> simp [h])

/-- `ForRace` is not always false: two threads that add into the same object race. -/
example : Omp.ForRace 2 0 2 (fun _ _ => [PME.ld (fun l x => { l with u := x }) 0, PME.stIf (fun _ => true) 0 (fun l => l.u + 1)]) (fun _ => (0 : ℤ)) := by
  refine ⟨fun t => [t], List.Perm.refl _, fun _ => ⟨0, 0, 0, 0⟩, [0], 0, 1, PME.stIf (fun _ => true) 0 (fun l => l.u + 1),
    PME.ld (fun l x => { l with u := x }) 0, 0, by decide, rfl, rfl, ?_, Or.inr ?_⟩
  · exact ⟨⟨0, 0, 0, 0⟩, fun _ => 0, by simp [PME.stIf]⟩
  · exact ⟨⟨0, 0, 0, 0⟩, fun _ => 0, Function.update (fun _ => 0) 0 1, fun k hk => by simp [hk], Or.inl (by simp [PME.ld])⟩

end FF.Props
