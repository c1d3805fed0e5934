import Verif.PoolSeq
import Verif.Fft

/-!
# The FFT as a client of the worker protocol

`fft` and `ifft` run their loops one after the other on `ThreadPool::defaultPool()` (`fft.cpp:160,179,204`).  Here they are the list of
the loops, each given by the calls of `parallelFor`; `Worker.seqOps` turns it into operations on the workers.
-/

namespace FF.Fft

open Par Pool Worker

variable {K : Type} [Field K] {L E : Type}

/-- The jobs of one parallel loop: what each call of the body does. -/
def jobsOf (calls : List Call) (prog : Nat → List (Act L E)) : List (List (Act L E)) := calls.map fun c => c.indices.flatMap prog

theorem getD_jobsOf (calls : List Call) (prog : Nat → List (Act L E)) : (fun j => (jobsOf calls prog).getD j []) = threads calls prog := by
  funext j
  simp only [jobsOf, threads, List.getD_eq_getElem?_getD, List.getElem?_map]
  cases calls[j]? <;> rfl

/-- The loop of `reversePermutation`, `fft.cpp:158-173`. -/
def revJobs (T : Nat) (n : BitVec 64) : Option (List (List (Act (Loc K) K))) :=
  match fftLog2 n with
  | none => none
  | some domainPow => (parallelFor T 0 (toInt32 n.toNat)).map fun calls => jobsOf calls (revIter domainPow)

/-- The loop of stage `s` of `fft`, `fft.cpp:181-198` (see `Stage`). -/
def stageJobs (F : Obj K) (T n s : Nat) : Option (List (List (Act (Loc K) K))) :=
  if s ≤ 30 ∧ s ≤ F.s then (parallelFor T 0 (toInt32 (n >>> 1))).map fun calls => jobsOf calls (butterfly F s) else none

def stagesJobs (F : Obj K) (T n : Nat) : List Nat → Option (List (List (List (Act (Loc K) K))))
  | [] => some []
  | s :: ss => match stageJobs F T n s, stagesJobs F T n ss with
    | some j, some js => some (j :: js)
    | _, _ => none

/-- `fft`, `fft.cpp:176-199`: `none` where it stops at an assertion or is undefined. -/
def fftJobs (F : Obj K) (T : Nat) (n : BitVec 64) : Option (List (List (List (Act (Loc K) K)))) :=
  match revJobs T n, fftLog2 n with
  | some r, some domainPow =>
    if (1#64 <<< domainPow) = n then (stagesJobs F T n.toNat (List.range' 1 domainPow)).map fun js => r :: js else none
  | _, _ => none

/-- The two statements behind the loop of `ifft`, run by the caller, `fft.cpp:216-217`. -/
def ifftTail (F : Obj K) (n domainPow : Nat) : List (Act (Loc K) K) :=
  [fun (l, a) => (l, Function.update a 0 (a 0 * F.powTwoInv domainPow)),
   fun (l, a) => (l, Function.update a (n >>> 1) (a (n >>> 1) * F.powTwoInv domainPow))]

/-- `ifft`, `fft.cpp:201-218`. -/
def ifftJobs (F : Obj K) (T : Nat) (n : BitVec 64) : Option (List (List (List (Act (Loc K) K)))) :=
  match fftJobs F T n, fftLog2 n, parallelFor T 1 (toInt32 (n.toNat >>> 1)) with
  | some js, some domainPow, some calls => some (js ++ [jobsOf calls (ifftIter F n.toNat domainPow), [ifftTail F n.toNat domainPow]])
  | _, _, _ => none

/-! ## Runs of the list of loops are runs of the transform -/

theorem execSeq_append {js js' : List (List (List (Act L E)))} : ∀ {m m' : Nat → E}, ExecSeq (js ++ js') m m' ↔ ∃ m1, ExecSeq js m m1 ∧ ExecSeq js' m1 m' := by
  induction js with
  | nil => intro m m'; simp [ExecSeq]
  | cons j js ih =>
    intro m m'
    simp only [List.cons_append, ExecSeq, ih]
    constructor
    · rintro ⟨a, h1, b, h2, h3⟩; exact ⟨b, ⟨a, h1, h2⟩, h3⟩
    · rintro ⟨b, ⟨a, h1, h2⟩, h3⟩; exact ⟨a, h1, b, h2, h3⟩

theorem stages_of_exec {F : Obj K} {T n : Nat} {ss : List Nat} : ∀ {js} {m m' : Nat → K}, stagesJobs F T n ss = some js → ExecSeq js m m' →
    Stages F T n ss m m' := by
  induction ss with
  | nil =>
    intro js m m' h he
    obtain rfl := Option.some.inj h
    exact he
  | cons s ss ih =>
    intro js m m' h he
    simp only [stagesJobs] at h
    split at h
    · rename_i j js' h1 h2
      obtain rfl := Option.some.inj h
      obtain ⟨m1, e1, e2⟩ := he
      unfold stageJobs at h1
      split at h1
      · rename_i hs
        obtain ⟨calls, hc, rfl⟩ := Option.map_eq_some_iff.1 h1
        rw [getD_jobsOf] at e1
        exact ⟨m1, ⟨hs.1, hs.2, calls, hc, e1⟩, ih h2 e2⟩
      · cases h1
    · cases h

theorem stagesJobs_of {F : Obj K} {T n : Nat} {ss : List Nat} : ∀ {m m' : Nat → K}, Stages F T n ss m m' → ∃ js, stagesJobs F T n ss = some js := by
  induction ss with
  | nil => intro m m' _; exact ⟨[], rfl⟩
  | cons s ss ih =>
    rintro m m' ⟨m1, ⟨h1, h2, calls, hc, -⟩, h3⟩
    obtain ⟨js, hj⟩ := ih h3
    exact ⟨_, by simp only [stagesJobs, stageJobs, h1, h2, hc, hj, and_self, if_true, Option.map_some]; rfl⟩

theorem fft_of_exec {F : Obj K} {T : Nat} {n : BitVec 64} {js} {m m' : Nat → K} (h : fftJobs F T n = some js) (he : ExecSeq js m m') :
    FftRun F T n m m' := by
  unfold fftJobs at h
  split at h
  · rename_i r d hr hd
    split at h
    · rename_i hn
      obtain ⟨js', hj, rfl⟩ := Option.map_eq_some_iff.1 h
      obtain ⟨m1, e1, e2⟩ := he
      refine ⟨m1, ?_, d, hd, hn, stages_of_exec hj e2⟩
      unfold revJobs at hr
      rw [hd] at hr
      obtain ⟨calls, hc, rfl⟩ := Option.map_eq_some_iff.1 hr
      rw [getD_jobsOf] at e1
      exact ⟨d, hd, calls, hc, e1⟩
    · cases h
  · cases h

theorem fftJobs_of {F : Obj K} {T : Nat} {n : BitVec 64} {m m' : Nat → K} (h : FftRun F T n m m') : ∃ js, fftJobs F T n = some js ∧ js ≠ [] := by
  obtain ⟨m1, ⟨d, hd, calls, hc, -⟩, d', hd', hn, hs⟩ := h
  obtain rfl := Option.some.inj (hd.symm.trans hd')
  obtain ⟨js, hj⟩ := stagesJobs_of hs
  exact ⟨_, by simp only [fftJobs, revJobs, hd, hc, hn, hj, if_true, Option.map_some]; rfl, List.cons_ne_nil _ _⟩

theorem run_one : ∀ (sched : List Nat) (s : State L E), (∀ j, j ≠ 0 → s.rest j = []) →
    (∀ j, j ≠ 0 → (s.run sched).rest j = []) ∧
      solo ((s.run sched).rest 0) ((s.run sched).loc 0, (s.run sched).mem) = solo (s.rest 0) (s.loc 0, s.mem) := by
  intro sched
  induction sched with
  | nil => intro s h; exact ⟨h, rfl⟩
  | cons j sched ih =>
    intro s h
    have hstep : (∀ i, i ≠ 0 → (s.step j).rest i = []) ∧
        solo ((s.step j).rest 0) ((s.step j).loc 0, (s.step j).mem) = solo (s.rest 0) (s.loc 0, s.mem) := by
      by_cases hj : j = 0
      · subst hj
        unfold State.step
        cases h0 : s.rest 0 with
        | nil => exact ⟨h, by rw [h0]⟩
        | cons a r =>
          refine ⟨fun i hi => ?_, ?_⟩
          · simp only [Function.update_of_ne hi]; exact h i hi
          · simp only [Function.update_self]; rfl
      · unfold State.step
        rw [h j hj]
        exact ⟨h, rfl⟩
    obtain ⟨e1, e2⟩ := ih (s.step j) hstep.1
    exact ⟨e1, e2.trans hstep.2⟩

theorem exec_one {as : List (Act L E)} {m m' : Nat → E} (h : Exec (fun i => ([as] : List _).getD i []) m m') : ∃ l, m' = (solo as (l, m)).2 := by
  obtain ⟨loc, sched, h1, h2⟩ := h
  obtain ⟨-, e⟩ := run_one sched (State.mk (fun i => ([as] : List _).getD i []) loc m) (by
    intro j hj
    obtain ⟨k, rfl⟩ := Nat.exists_eq_succ_of_ne_zero hj
    rfl)
  refine ⟨loc 0, ?_⟩
  rw [h1 0] at e
  rw [← h2]
  exact congrArg Prod.snd e

theorem ifft_of_exec {F : Obj K} {T : Nat} {n : BitVec 64} {js} {m m' : Nat → K} (h : ifftJobs F T n = some js) (he : ExecSeq js m m') :
    IfftRun F T n m m' := by
  unfold ifftJobs at h
  split at h
  · rename_i js' d calls h1 h2 h3
    obtain rfl := Option.some.inj h
    rw [execSeq_append] at he
    obtain ⟨m1, e1, m2, e2, m3, e3, e4⟩ := he
    rw [getD_jobsOf] at e2
    obtain ⟨l, e3⟩ := exec_one e3
    refine ⟨m1, fft_of_exec h1 e1, d, h2, m2, ⟨calls, h3, e2⟩, ?_⟩
    have e4 : m' = m3 := e4
    subst e4 e3
    rfl
  · cases h

theorem ifftJobs_of {F : Obj K} {T : Nat} {n : BitVec 64} {m m' : Nat → K} (h : IfftRun F T n m m') : ∃ js, ifftJobs F T n = some js ∧ js ≠ [] := by
  obtain ⟨m1, h1, d, hd, m2, ⟨calls, hc, -⟩, -⟩ := h
  obtain ⟨js, hj, -⟩ := fftJobs_of h1
  exact ⟨_, by simp only [ifftJobs, hj, hd, hc]; rfl, by simp⟩

/-! ## No loop has more jobs than there are threads -/

theorem jobsOf_length {T : Nat} {lo hi : Int} {calls : List Call} (hc : parallelFor T lo hi = some calls) (prog : Nat → List (Act L E)) :
    (jobsOf calls prog).length ≤ T := by
  rw [jobsOf, List.length_map]; exact (parallelFor_some hc).2.1

theorem stagesJobs_length {F : Obj K} {T n : Nat} {ss : List Nat} : ∀ {js}, stagesJobs F T n ss = some js → ∀ j ∈ js, j.length ≤ T := by
  induction ss with
  | nil => intro js h; obtain rfl := Option.some.inj h; simp
  | cons s ss ih =>
    intro js h
    simp only [stagesJobs] at h
    split at h
    · rename_i j js' h1 h2
      obtain rfl := Option.some.inj h
      intro i hi
      rcases List.mem_cons.1 hi with rfl | hi
      · unfold stageJobs at h1
        split at h1
        · obtain ⟨calls, hc, rfl⟩ := Option.map_eq_some_iff.1 h1
          exact jobsOf_length hc _
        · cases h1
      · exact ih h2 i hi
    · cases h

theorem fftJobs_length {F : Obj K} {T : Nat} {n : BitVec 64} {js} (h : fftJobs F T n = some js) : ∀ j ∈ js, j.length ≤ T := by
  unfold fftJobs at h
  split at h
  · rename_i r d hr hd
    split at h
    · obtain ⟨js', hj, rfl⟩ := Option.map_eq_some_iff.1 h
      intro i hi
      rcases List.mem_cons.1 hi with rfl | hi
      · unfold revJobs at hr
        rw [hd] at hr
        obtain ⟨calls, hc, rfl⟩ := Option.map_eq_some_iff.1 hr
        exact jobsOf_length hc _
      · exact stagesJobs_length hj i hi
    · cases h
  · cases h

theorem ifftJobs_length {F : Obj K} {T : Nat} (hT : 0 < T) {n : BitVec 64} {js} (h : ifftJobs F T n = some js) : ∀ j ∈ js, j.length ≤ T := by
  unfold ifftJobs at h
  split at h
  · rename_i js' d calls h1 h2 h3
    obtain rfl := Option.some.inj h
    intro i hi
    simp only [List.mem_append, List.mem_cons, List.not_mem_nil, or_false] at hi
    rcases hi with hi | rfl | rfl
    · exact fftJobs_length h1 i hi
    · exact jobsOf_length h3 _
    · exact hT
  · cases h

end FF.Fft
