import Verif.FftPool
import Verif.Props.FftLimb
import Verif.Props.Worker

/-!
# C80: the transform on the thread pool

Here the caller of `fft` and the worker threads are those of C45 and C58: the caller submits the jobs of each loop, runs the last job
itself and waits for the workers, for one loop after the other (`Worker.seqOps (fftJobs ..)`); every thread moves by one atomic step (a
lock, a test, a field operation on a cell, ...) and the scheduler chooses who moves.  `PoolReturns T s ops post` says that from the pool `s` the
operations `ops` end, however the threads are scheduled, and then `post` holds of the memory.
-/

namespace FF.Props

open FF FF.Fft FF.Pool FF.Par FF.Worker

/-- A caller that runs `ops` on the idle pool `s` of `T` threads comes to an end, and leaves an idle pool and a memory with `post`.
Whatever has happened so far: unless the caller is through, the caller or a worker can move without a spurious wake-up; the number of steps
is bounded, up to four for every spurious wake-up; and once the caller is through, `post` holds and the pool is at rest. -/
def PoolReturns {L E : Type} (T : Nat) (s : Conf L E) (ops : List (Worker.Op L E)) (post : (Nat → E) → Prop) : Prop :=
  ∃ bound, ∀ ms s', Steps (s.start ops) ms s' →
    ((s'.cpc = .next ∧ s'.ops = []) ∨ (s'.move .client).isSome = true ∨ ∃ k < T - 1, (s'.move (.worker k)).isSome = true) ∧
    ((∀ m ∈ ms, m.below (T - 1)) → ms.countP (fun m => m.normal) ≤ bound + 4 * ms.countP (fun m => !m.normal)) ∧
    (s'.cpc = .next ∧ s'.ops = [] → post s'.mem ∧ Idle s')

theorem poolReturns_seq {L E : Type} {T : Nat} {js : List (List (List (Act L E)))} (hT : ∀ j ∈ js, j.length ≤ T) (hne : js ≠ []) {s : Conf L E}
    (hI : Idle s) {post : (Nat → E) → Prop} (hp : ∀ m', ExecSeq js s.mem m' → post m') : PoolReturns T s (seqOps js) post :=
  ⟨_, fun _ _ h => ⟨(seq_progress hT hI h).1, (seq_progress hT hI h).2, fun he =>
    ⟨hp _ (seq_run hI hne h he).1, (seq_run hI hne h he).2.1⟩⟩⟩

/-- Runs of parallel loops, given by their bounds and bodies, one after the other. -/
def ParFors {L E : Type} (T : Nat) : List (Int × Int × (Nat → List (Act L E))) → (Nat → E) → (Nat → E) → Prop
  | [], m, m' => m' = m
  | (lo, hi, prog) :: ls, m, m' => ∃ m1, ParFor T lo hi prog m m1 ∧ ParFors T ls m1 m'

/-- C58: loops run one after the other by the pool: the caller always comes through all of them, and each loop handles every index of its
range exactly once, starting from the memory that the loop before has left. -/
theorem C58_sequence {L E : Type} {T : Nat} (hT : 0 < T) (hT31 : T < 2 ^ 31) (loops : List (Int × Int × (Nat → List (Act L E)))) (hne : loops ≠ [])
    (hl : ∀ l ∈ loops, l.1 < l.2.1 ∧ l.2.1 - l.1 < 2 ^ 31) :
    ∃ js : List (List (List (Act L E))), List.Forall₂ (fun l j => ∃ calls, parallelFor T l.1 l.2.1 = some calls ∧ j = calls.map fun c => c.indices.flatMap l.2.2) loops js ∧
      ∀ s : Conf L E, Idle s → PoolReturns T s (seqOps js) (ParFors T loops s.mem) := by
  obtain ⟨js, hj⟩ : ∃ js : List (List (List (Act L E))), List.Forall₂ (fun l j => ∃ calls, parallelFor T l.1 l.2.1 = some calls ∧
      j = calls.map fun c => c.indices.flatMap l.2.2) loops js := by
    clear hne
    induction loops with
    | nil => exact ⟨[], .nil⟩
    | cons l ls ih =>
      obtain ⟨js, h⟩ := ih fun l' h' => hl l' (List.mem_cons_of_mem _ h')
      obtain ⟨calls, hc, -⟩ := parallelFor_spec hT hT31 (hl l List.mem_cons_self).1 (hl l List.mem_cons_self).2
      exact ⟨_ :: js, .cons ⟨calls, hc, rfl⟩ h⟩
  refine ⟨js, hj, fun s hI => poolReturns_seq ?_ ?_ hI fun m' hm' => ?_⟩
  · clear hl hne
    induction hj with
    | nil => simp
    | cons h _ ih =>
      intro j hi
      rcases List.mem_cons.1 hi with rfl | hi
      · obtain ⟨calls, hc, rfl⟩ := h
        rw [List.length_map]; exact (parallelFor_some hc).2.1
      · exact ih j hi
  · rintro rfl
    cases hj
    exact hne rfl
  · clear hl hne hI
    generalize s.mem = m at hm'
    induction hj generalizing m with
    | nil => exact hm'
    | cons h _ ih =>
      obtain ⟨calls, hc, rfl⟩ := h
      obtain ⟨m1, e1, e2⟩ := hm'
      exact ⟨m1, ⟨calls, hc, by rw [← getD_jobsOf]; exact e1⟩, ih m1 e2⟩

theorem parallelBlock_get (T : Nat) (hT : 0 < T) (j : Nat) : (parallelBlock T)[j]? = if j < T then some j else none := by
  unfold parallelBlock
  rw [List.getElem?_append, List.length_range]
  split
  · rename_i h; rw [List.getElem?_range h, if_pos (by omega)]
  · rename_i h
    by_cases h' : j = T - 1
    · subst h'; simp [hT]
    · rw [if_neg (by omega), List.getElem?_eq_none (by simp; omega)]

/-- C58: `parallelBlock` on the pool: the caller comes through, and the body has been run exactly once for every thread number. -/
theorem C58_parallelBlock {L E : Type} {T : Nat} (hT : 0 < T) (body : Nat → List (Act L E)) (s : Conf L E) (hI : Idle s) :
    PoolReturns T s (poolOps ((parallelBlock T).map body)) fun m' => Exec (fun j => if j < T then body j else []) s.mem m' := by
  have e : poolOps ((parallelBlock T).map body) = seqOps [(parallelBlock T).map body] := by simp [seqOps]
  rw [e]
  refine poolReturns_seq (js := [(parallelBlock T).map body]) ?_ (by simp) hI fun m' hm' => ?_
  · simp [parallelBlock]; omega
  · obtain ⟨m1, e1, e2⟩ := hm'
    obtain rfl : m' = m1 := e2
    have : (fun j => ((parallelBlock T).map body).getD j []) = fun j => if j < T then body j else [] := by
      funext j
      rw [List.getD_eq_getElem?_getD, List.getElem?_map, parallelBlock_get T hT]
      split <;> rfl
    rwa [this] at e1

/-- C80: the table of the constructor on the pool.  Under every schedule the block that fills the table comes to an end, and then the table
holds the powers of its entry 1. -/
theorem C80_table {K : Type} [Field K] {T : Nat} (hT : 0 < T) {nRoots : Nat} (hn : 2 ≤ nRoots) (hn64 : nRoots ≤ 2 ^ 64)
    (s : Conf (Fft.Loc K) K) (hI : Idle s) (h0 : s.mem 0 = 1) :
    PoolReturns T s (poolOps ((parallelBlock T).map (blockProg nRoots T))) fun m' => ∀ i < nRoots, m' i = s.mem 1 ^ i := by
  obtain ⟨bound, h⟩ := C58_parallelBlock hT (blockProg (K := K) nRoots T) s hI
  refine ⟨bound, fun ms s' hs => ⟨(h ms s' hs).1, (h ms s' hs).2.1, fun he => ⟨?_, ((h ms s' hs).2.2 he).2⟩⟩⟩
  refine block_spec hT hn hn64 h0 rfl ?_
  have e := ((h ms s' hs).2.2 he).1
  have : ctorThreads nRoots T = fun j => if j < T then blockProg (K := K) nRoots T j else [] := by
    funext j
    rw [ctorThreads, parallelBlock_get T hT]
    split <;> rename_i hj <;> split at hj <;> simp_all
  rwa [this]

variable {q : Nat} [Fact q.Prime] [Fact (q % 2 = 1)]

/-- C80: `fft` on the pool.  From any memory and any idle pool it comes to an end under every schedule, and then the cells hold the arrays
of the values of the polynomial at the powers of a primitive root, cells behind the array keep their limbs, and the pool is at rest. -/
theorem C80_fft {T : Nat} (hT : 0 < T) (N : BitVec 64) (F : Obj (El q)) (hF : CtorL q T N (some F)) (k : Nat) (hk : k ≤ F.s)
    (hk30 : k ≤ 30) : ∃ v : ZMod q, IsPrimitiveRoot v (2 ^ k) ∧ ∀ T' > 0, T' < 2 ^ 31 → ∃ js, fftJobs F T' (BitVec.ofNat 64 (2 ^ k)) = some js ∧
      ∀ s : Conf (Fft.Loc (El q)) (El q), Idle s → PoolReturns T' s (seqOps js) fun m' =>
        (∀ i < 2 ^ k, (m' i).toZ = ∑ t ∈ Finset.range (2 ^ k), (s.mem t).toZ * (v ^ i) ^ t) ∧ ∀ i, 2 ^ k ≤ i → m' i = s.mem i := by
  obtain ⟨v, hv, h⟩ := C74_fft hT N F hF k hk hk30
  refine ⟨v, hv, fun T' hT' hT31 => ?_⟩
  obtain ⟨m', hm'⟩ := (h T' hT' hT31 (fun _ => 0)).1
  obtain ⟨js, hj, hne⟩ := fftJobs_of hm'
  refine ⟨js, hj, fun s hI => poolReturns_seq (fftJobs_length hj) hne hI fun m' hm' => ?_⟩
  exact (h T' hT' hT31 s.mem).2 m' (fft_of_exec hj hm')

/-- C80: `fft` and then `ifft` on the pool, or `ifft` and then `fft`, come to an end under every schedule and restore every limb.
Missing, as in C42: sizes one and two, where `ifft` stops the program. -/
theorem C80_inverse_partial {T : Nat} (hT : 0 < T) (N : BitVec 64) (F : Obj (El q)) (hF : CtorL q T N (some F)) (k : Nat)
    (hk : k ≤ F.s) (hk30 : k ≤ 30) (hk2 : 2 ≤ k) {T' : Nat} (hT' : 0 < T') (hT31 : T' < 2 ^ 31) :
    ∃ js js', fftJobs F T' (BitVec.ofNat 64 (2 ^ k)) = some js ∧ ifftJobs F T' (BitVec.ofNat 64 (2 ^ k)) = some js' ∧
      ∀ s : Conf (Fft.Loc (El q)) (El q), Idle s →
        PoolReturns T' s (seqOps js ++ seqOps js') (fun m' => m' = s.mem) ∧ PoolReturns T' s (seqOps js' ++ seqOps js) (fun m' => m' = s.mem) := by
  obtain ⟨_, _, h0⟩ := C74_fft hT N F hF k hk hk30
  have h := C74_inverse_partial hT N F hF k hk hk30 hk2 hT' hT31
  obtain ⟨m', hm'⟩ := (h0 T' hT' hT31 (fun _ => 0)).1
  obtain ⟨js, hj, hne⟩ := fftJobs_of hm'
  obtain ⟨m2, hm2⟩ := (h (fun _ => 0)).1
  obtain ⟨js', hj', hne'⟩ := ifftJobs_of hm2
  have app : ∀ a b : List (List (List (Act (Fft.Loc (El q)) (El q)))), seqOps a ++ seqOps b = seqOps (a ++ b) := fun a b =>
    (List.flatMap_append ..).symm
  have hl : ∀ j ∈ js ++ js', j.length ≤ T' := by
    intro j hi
    rcases List.mem_append.1 hi with hi | hi
    · exact fftJobs_length hj j hi
    · exact ifftJobs_length hT' hj' j hi
  refine ⟨js, js', hj, hj', fun s hI => ⟨?_, ?_⟩⟩
  · rw [app]
    refine poolReturns_seq hl (by simp [hne]) hI fun m' hm' => ?_
    obtain ⟨m1, e1, e2⟩ := execSeq_append.1 hm'
    exact (h s.mem).2.1 m1 m' (fft_of_exec hj e1) (ifft_of_exec hj' e2)
  · rw [app]
    refine poolReturns_seq (fun j hi => hl j (by simp at hi ⊢; tauto)) (by simp [hne]) hI fun m' hm' => ?_
    obtain ⟨m1, e1, e2⟩ := execSeq_append.1 hm'
    exact (h s.mem).2.2 m1 m' (ifft_of_exec hj' e1) (fft_of_exec hj e2)

section sample

local instance : Fact (bnR % 2 = 1) := ⟨by decide +kernel⟩

/-- A table of order 2^28 for the scalar field of BN254, built on seven threads, and a new pool of two workers whose memory holds the
coefficients of `5 + 7X`: after the transform of size 4 the first cell stands for 12. -/
example : ∃ (F : Obj (El bnR)) (js : _), fftJobs F 3 (BitVec.ofNat 64 (2 ^ 2)) = some js ∧
    PoolReturns 3 (Conf.fresh [] (fun _ => ⟨0, 0⟩) ⟨0, 0⟩ fun i => El.ofZ (if i = 0 then 5 else if i = 1 then 7 else 0)) (seqOps js) fun m' => (m' 0).toZ = 12 := by
  obtain ⟨F, hF, hs⟩ := sample_ctor
  obtain ⟨v, -, h⟩ := C80_fft (by norm_num) _ F hF 2 (by omega) (by norm_num)
  obtain ⟨js, hj, hr⟩ := h 3 (by norm_num) (by norm_num)
  refine ⟨F, js, hj, ?_⟩
  obtain ⟨b, hb⟩ := hr _ (C58_initial (fun _ => ⟨0, 0⟩) ⟨0, 0⟩ fun i => El.ofZ (if i = 0 then 5 else if i = 1 then 7 else 0))
  refine ⟨b, fun ms s' hs' => ⟨(hb ms s' hs').1, (hb ms s' hs').2.1, fun he => ⟨?_, ((hb ms s' hs').2.2 he).2⟩⟩⟩
  refine (((hb ms s' hs').2.2 he).1.1 0 (by norm_num)).trans ?_
  simp [Conf.fresh, Finset.sum_range_succ, El.toZ_ofZ]
  norm_num

end sample

end FF.Props
