import Verif.MsmPool
import Verif.Props.FftPool
import Verif.Props.MultiexpPar
import Verif.Props.Bn254

/-!
# C82: the windowed multi-scalar multiplication on the thread pool

As in C80, the caller of `MSM::run` and the worker threads are those of C45 and C58: the caller runs the two loops of the function on the
pool (`Worker.seqOps (msmJobs ..)`), every thread moves by one atomic step (a lock, a test, the load or store of a digit or a point object,
...) and the scheduler chooses who moves.  `msmResult` is what the caller then computes from the chunk sums.  C60 leaves open how the loops
are run and whether they end; here both loops are run by the protocol of `misc.hpp`.
-/

namespace FF.Props

open FF FF.Msm FF.Pool FF.Par FF.Worker FF.Curve

variable {P PA A : Type} [AddCommGroup A] {G : GroupCode P PA} {D : P → A → Prop} {DA : PA → A → Prop}
variable {T : Nat} {bases : Nat → PA} {a : Nat → A} {n : Nat}

theorem msmChunkCount_lt {size b : Nat} (hs : size < 2 ^ 28) : msmChunkCount size b < 2 ^ 31 := by
  have : (size * 8 - 1) / b ≤ size * 8 - 1 := Nat.div_le_self _ _
  unfold msmChunkCount
  omega

/-- C82: two or more points, scalars below `2^(8*size-2)` (C38 says why): from any memory and any idle pool the two loops come to an end
under every schedule, the result is the sum of the multiples, and the pool is at rest. -/
theorem C82_msm_partial (hG : G.Sound D DA) (hT : 0 < T) (hT31 : T < 2 ^ 31) (ha : ∀ i < n, DA (bases i) (a i)) (hn2 : 2 ≤ n) (hn : n < 2 ^ 31)
    (scalars : Nat → BitVec 8) {scalarSize : Nat} (hs : 8 ≤ scalarSize) (hs' : scalarSize < 2 ^ 28)
    (hsc : ∀ i < n, scalarVal scalars scalarSize i < 2 ^ (8 * scalarSize - 2)) :
    ∃ js, msmJobs G T bases scalars scalarSize n (msmBitsPerChunk n scalarSize) = some js ∧
      ∀ s : Conf (MLoc P) (ℤ × P), Idle s → PoolReturns T s (seqOps js) fun m' =>
        D (msmResult G scalarSize (msmBitsPerChunk n scalarSize) m') (∑ i ∈ Finset.range n, scalarVal scalars scalarSize i • a i) := by
  obtain ⟨js, hj, hne, hl⟩ := msmJobs_some (G := G) (bases := bases) (scalars := scalars) (size := scalarSize) (n := n)
    (b := msmBitsPerChunk n scalarSize) hT hT31 (by omega) hn (msmChunkCount_lt hs')
  refine ⟨js, hj, fun s hI => poolReturns_seq hl hne hI fun m' hm' => ?_⟩
  have h := msmP_of_exec hT (by omega) hj hm'
  obtain ⟨p, e, h2⟩ := (C60_msm hG hT ha hn (fun k => (s.mem k).2) (fun k => (s.mem k).1) scalars hs hs' hsc).2
    (some (msmResult G scalarSize (msmBitsPerChunk n scalarSize) m'))
    (by rw [MsmRunP, if_neg (by omega), if_neg (by omega), if_neg (by omega)]; exact ⟨_, h, rfl⟩)
  rw [Option.some.inj e]
  exact h2

/-- For every scalar: whatever the schedule, the pool, its threads and the memory, the outcome stands for the same element. -/
theorem C82_msm_agree (hG : G.Sound D DA) (ha : ∀ i < n, DA (bases i) (a i)) (hn2 : 2 ≤ n) (hn : n < 2 ^ 31)
    (scalars : Nat → BitVec 8) {scalarSize : Nat} (hs : 8 ≤ scalarSize) (hs' : scalarSize < 2 ^ 28) :
    ∃ x, ∀ T > 0, T < 2 ^ 31 → ∃ js, msmJobs G T bases scalars scalarSize n (msmBitsPerChunk n scalarSize) = some js ∧
      ∀ s : Conf (MLoc P) (ℤ × P), Idle s → PoolReturns T s (seqOps js) fun m' => D (msmResult G scalarSize (msmBitsPerChunk n scalarSize) m') x := by
  refine ⟨∑ i ∈ Finset.range n, ((scalarVal scalars scalarSize i : ℤ) -
      (msmCarry (scalarVal scalars scalarSize i) (msmBitsPerChunk n scalarSize) (msmChunkCount scalarSize (msmBitsPerChunk n scalarSize)) : ℤ) *
        2 ^ (msmChunkCount scalarSize (msmBitsPerChunk n scalarSize) * msmBitsPerChunk n scalarSize)) • a i, fun T hT hT31 => ?_⟩
  obtain ⟨js, hj, hne, hl⟩ := msmJobs_some (G := G) (bases := bases) (scalars := scalars) (size := scalarSize) (n := n)
    (b := msmBitsPerChunk n scalarSize) hT hT31 (by omega) hn (msmChunkCount_lt hs')
  refine ⟨js, hj, fun s hI => poolReturns_seq hl hne hI fun m' hm' => ?_⟩
  have h := msmP_of_exec hT (by omega) hj hm'
  have hr := msmBitsPerChunk_range n scalarSize
  obtain ⟨σ, hσ, e⟩ := h.lin hT (by omega) (hr.2.trans (by norm_num)) hs
  rw [← e]
  exact msmMain_rel hG hσ (by omega) (hr.2.trans (by norm_num)) hs ha scalars _ _ _

/-- On the first group of BN254, on limb arrays, with scalars below `r` of 32 bytes, there is no exception. -/
theorem C82_g1 (hT : 0 < T) (hT31 : T < 2 ^ 31) {bases : Nat → PtA (El bnP)} {B : Nat → GPoint (0 : ZMod bnP) 3}
    (hB : ∀ i < n, ARep ((bases i).map (El.hom bnP)) (B i)) (hn2 : 2 ≤ n) (hn : n < 2 ^ 31) (scalars : Nat → BitVec 8)
    (hsc : ∀ i < n, scalarVal scalars 32 i < bnR) :
    ∃ js, msmJobs (Curve.code 0) T bases scalars 32 n (msmBitsPerChunk n 32) = some js ∧
      ∀ s : Conf (MLoc (Pt (El bnP))) (ℤ × Pt (El bnP)), Idle s → PoolReturns T s (seqOps js) fun m' =>
        CRep ((msmResult (Curve.code 0) 32 (msmBitsPerChunk n 32) m').map (El.hom bnP)) (∑ i ∈ Finset.range n, scalarVal scalars 32 i • B i) := by
  have hb : bnR ≤ 2 ^ (8 * 32 - 2) := by decide +kernel
  have hS := code_sound_map (φ := El.hom bnP) (a := 0) (b := (3 : ZMod bnP)) three_ne_zero
  rw [map_zero] at hS
  exact C82_msm_partial hS hT hT31 hB hn2 hn scalars (by norm_num) (by norm_num) (fun i hi => (hsc i hi).trans_le hb)

/-- The same on the second group, over the quadratic extension. -/
theorem C82_g2 (hT : 0 < T) (hT31 : T < 2 ^ 31) {bases : Nat → PtA (F2El (El bnP))} {B : Nat → GPoint (0 : Ext2 (-1 : ZMod bnP)) g2B}
    (hB : ∀ i < n, ARep ((bases i).map f2Read) (B i)) (hn2 : 2 ≤ n) (hn : n < 2 ^ 31) (scalars : Nat → BitVec 8)
    (hsc : ∀ i < n, scalarVal scalars 32 i < bnR) :
    ∃ js, msmJobs (Curve.code 0) T bases scalars 32 n (msmBitsPerChunk n 32) = some js ∧
      ∀ s : Conf (MLoc (Pt (F2El (El bnP)))) (ℤ × Pt (F2El (El bnP))), Idle s → PoolReturns T s (seqOps js) fun m' =>
        CRep ((msmResult (Curve.code 0) 32 (msmBitsPerChunk n 32) m').map f2Read) (∑ i ∈ Finset.range n, scalarVal scalars 32 i • B i) := by
  have hb : bnR ≤ 2 ^ (8 * 32 - 2) := by decide +kernel
  have hS := code_sound_map (φ := f2Read) (a := 0) (b := g2B) g2B_ne_zero
  rw [map_zero] at hS
  exact C82_msm_partial hS hT hT31 hB hn2 hn scalars (by norm_num) (by norm_num) (fun i hi => (hsc i hi).trans_le hb)

theorem PoolReturns.mono {L E : Type} {T : Nat} {s : Conf L E} {ops : List (Op L E)} {P Q : (Nat → E) → Prop} (h : PoolReturns T s ops P)
    (hPQ : ∀ m, P m → Q m) : PoolReturns T s ops Q := by
  obtain ⟨b, hb⟩ := h
  exact ⟨b, fun ms s' hs => ⟨(hb ms s' hs).1, (hb ms s' hs).2.1, fun he => ⟨hPQ _ ((hb ms s' hs).2.2 he).1, ((hb ms s' hs).2.2 he).2⟩⟩⟩

/-- Both algorithms under all their executions: whatever the schedule of the pool and whatever the interleaving of the threads of the OpenMP
loops, the affine points are the same, limb for limb. -/
theorem C82_g1_agree (hT : 0 < T) (hT31 : T < 2 ^ 31) {bases : Nat → PtA (El bnP)} {B : Nat → GPoint (0 : ZMod bnP) 3}
    (hB : ∀ i < n, ARep ((bases i).map (El.hom bnP)) (B i)) (hn2 : 2 ≤ n) (hn : n < 2 ^ 31) (scalars : Nat → BitVec 8)
    (hsc : ∀ i < n, scalarVal scalars 32 i < bnR) :
    ∃ js, msmJobs (Curve.code 0) T bases scalars 32 n (msmBitsPerChunk n 32) = some js ∧
      ∀ s : Conf (MLoc (Pt (El bnP))) (ℤ × Pt (El bnP)), Idle s → PoolReturns T s (seqOps js) fun m' =>
        ∀ T' ≥ 1, ∀ mem mem' r, MultiexpP (Curve.code 0) T' mem mem' bases scalars 32 n r →
          ∃ p, r = some p ∧ copyAP p = copyAP (msmResult (Curve.code 0) 32 (msmBitsPerChunk n 32) m') := by
  obtain ⟨js, hj, h⟩ := C82_g1 hT hT31 hB hn2 hn scalars hsc
  refine ⟨js, hj, fun s hI => (h s hI).mono fun m' hm T' hT' mem mem' r hr => ?_⟩
  have hS := code_sound_map (φ := El.hom bnP) (a := 0) (b := (3 : ZMod bnP)) three_ne_zero
  rw [map_zero] at hS
  obtain ⟨p, e, hp⟩ := (C60_multiexp hS hT' hB mem mem' scalars (scalarSize := 32) (by norm_num) (by norm_num)).2 r hr
  refine ⟨p, e, ?_⟩
  have := (ARep.inj three_ne_zero (copyAP_rep hp) (copyAP_rep hm)).mpr rfl
  rw [← copyAP_map, ← copyAP_map] at this
  have h' := PtA.ext_iff.mp this
  exact PtA.ext ((El.hom bnP).injective h'.1) ((El.hom bnP).injective h'.2)

theorem C82_g2_agree (hT : 0 < T) (hT31 : T < 2 ^ 31) {bases : Nat → PtA (F2El (El bnP))} {B : Nat → GPoint (0 : Ext2 (-1 : ZMod bnP)) g2B}
    (hB : ∀ i < n, ARep ((bases i).map f2Read) (B i)) (hn2 : 2 ≤ n) (hn : n < 2 ^ 31) (scalars : Nat → BitVec 8)
    (hsc : ∀ i < n, scalarVal scalars 32 i < bnR) :
    ∃ js, msmJobs (Curve.code 0) T bases scalars 32 n (msmBitsPerChunk n 32) = some js ∧
      ∀ s : Conf (MLoc (Pt (F2El (El bnP)))) (ℤ × Pt (F2El (El bnP))), Idle s → PoolReturns T s (seqOps js) fun m' =>
        ∀ T' ≥ 1, ∀ mem mem' r, MultiexpP (Curve.code 0) T' mem mem' bases scalars 32 n r →
          ∃ p, r = some p ∧ copyAP p = copyAP (msmResult (Curve.code 0) 32 (msmBitsPerChunk n 32) m') := by
  obtain ⟨js, hj, h⟩ := C82_g2 hT hT31 hB hn2 hn scalars hsc
  refine ⟨js, hj, fun s hI => (h s hI).mono fun m' hm T' hT' mem mem' r hr => ?_⟩
  have hS := code_sound_map (φ := f2Read) (a := 0) (b := g2B) g2B_ne_zero
  rw [map_zero] at hS
  obtain ⟨p, e, hp⟩ := (C60_multiexp hS hT' hB mem mem' scalars (scalarSize := 32) (by norm_num) (by norm_num)).2 r hr
  refine ⟨p, e, ?_⟩
  have := (ARep.inj g2B_ne_zero (copyAP_rep hp) (copyAP_rep hm)).mpr rfl
  rw [← copyAP_map, ← copyAP_map] at this
  have h' := PtA.ext_iff.mp this
  exact PtA.ext (f2Read.injective h'.1) (f2Read.injective h'.2)

/-! ## The hypotheses are met -/

/-- Five integers and scalars of nine bytes on a pool of three threads just started, the memory left by somebody else: the loops end with the
sum of the products. -/
example : ∃ js, msmJobs intCode 3 (fun i => (i : ℤ) - 2) (fun i => BitVec.ofNat 8 i &&& 63) 9 5 (msmBitsPerChunk 5 9) = some js ∧
    ∀ (l : Nat → MLoc ℤ) (c : MLoc ℤ), PoolReturns 3 (Conf.fresh [] l c fun i => (77, (i : ℤ) + 3)) (seqOps js) fun m' =>
      msmResult intCode 9 (msmBitsPerChunk 5 9) m' =
        ∑ i ∈ Finset.range 5, scalarVal (fun i => BitVec.ofNat 8 i &&& 63) 9 i • ((i : ℤ) - 2) := by
  obtain ⟨js, hj, h⟩ := C82_msm_partial (T := 3) (n := 5) intCode_sound (by norm_num) (by norm_num) (a := fun i => (i : ℤ) - 2) (fun _ _ => rfl)
    (by norm_num) (by norm_num) (fun i => BitVec.ofNat 8 i &&& 63) (scalarSize := 9) (by norm_num) (by norm_num) (by decide +kernel)
  exact ⟨js, hj, fun l c => h _ (C58_initial _ _ _)⟩

/-- On the curve: seven times the generator of the first group. -/
example (m : Nat → ℤ × Pt (El bnP)) (l : Nat → MLoc (Pt (El bnP))) (c : MLoc (Pt (El bnP))) :
    ∃ (bases : Nat → PtA (El bnP)) (G : GPoint (0 : ZMod bnP) 3) (js : _),
      msmJobs (Curve.code 0) 3 bases (fun i => BitVec.ofNat 8 i &&& 15) 32 7 (msmBitsPerChunk 7 32) = some js ∧
      PoolReturns 3 (Conf.fresh [] l c m) (seqOps js) fun m' =>
        CRep ((msmResult (Curve.code 0) 32 (msmBitsPerChunk 7 32) m').map (El.hom bnP))
          (∑ i ∈ Finset.range 7, scalarVal (fun i => BitVec.ofNat 8 i &&& 15) 32 i • G) := by
  obtain ⟨G, -, hG, -⟩ := C73_g1_generator (El.toZ_ofZ (q := bnP) 1) (El.toZ_ofZ 2)
  obtain ⟨js, hj, h⟩ := C82_g1 (T := 3) (n := 7) (by norm_num) (by norm_num) (B := fun _ => G) (fun _ _ => hG) (by norm_num) (by norm_num)
    (fun i => BitVec.ofNat 8 i &&& 15) (by decide +kernel)
  exact ⟨fun _ => _, G, js, hj, h _ (C58_initial _ _ _)⟩

end FF.Props
