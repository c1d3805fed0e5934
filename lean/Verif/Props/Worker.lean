import Verif.WorkerPool

/-!
# C45, C46, C58: the worker threads and the pool on top of them

`Steps s ms s'`: the schedule `ms` (which thread moves at each step, and when a sleeping thread wakes up by itself) leads from `s` to `s'`.
`(s.ws k).finished` are the names of the tasks that worker `k` has run to their end, in order; `s.done` the operations the client has
completed.
-/

namespace FF.Props

open FF.Worker FF.Par FF.Pool

variable {L E : Type}

/-! ## C45 -/

/-- C45: whatever the client has done, once it has waited for worker `k` after submitting `t` to it (and has submitted nothing to it since),
`t` is the last task the worker has run, all that it has started it has finished, it has run every task at most once and in the order of
submission, and if the names of the tasks are distinct it has run `t` exactly once. -/
theorem C45_wait (P : List (Op L E)) (loc : Nat → L) (cloc : L) (mem : Nat → E) (ms : List Move) (s : Conf L E)
    (h : Steps (Conf.fresh P loc cloc mem) ms s) (hn : s.cpc = .next) (k : Nat) (t : Task L E) (d₁ d₂ d₃ : List (Op L E))
    (hd : s.done = d₁ ++ [.submit k t] ++ d₂ ++ [.wait k] ++ d₃) (h₂ : ∀ t', .submit k t' ∉ d₂) (h₃ : ∀ t', .submit k t' ∉ d₃) :
    (∃ f, (s.ws k).finished = f ++ [t.id] ∧ f.Sublist (subsTo k d₁)) ∧ (s.ws k).started = (s.ws k).finished ∧
    ((subsTo k s.done).Nodup → (s.ws k).finished.count t.id = 1) := by
  have hi := (AllInv.fresh P loc cloc mem).steps h
  have hp := (Pos.fresh P loc cloc mem).steps h (AllInv.fresh P loc cloc mem)
  have hidle : idleAfter k s.done = true := by
    rw [hd]
    refine idleAfter_append_no_submit k d₃ _ ?_ ?_
    · rintro j t' hj rfl; exact h₃ t' hj
    · rw [idleAfter_snoc]; simp
  have ht := hp.idle k hidle (by rw [hn]; simp [CPc.view]) (by rw [hn]; simp [CPc.view])
  have hh := (hi k).hist
  simp only [W.hist, ht] at hh
  obtain ⟨e1, e2, e3⟩ := hh
  have hno : ∀ d : List (Op L E), (∀ t', .submit k t' ∉ d) → subsTo k d = [] := by
    intro d
    induction d with
    | nil => intro _; rfl
    | cons op d ih =>
      intro hx
      have ih := ih (fun t' ht' => hx t' (by simp [ht']))
      have e : subsTo k (op :: d) = subsTo k [op] ++ subsTo k d := subsTo_append k [op] d
      rw [e, ih, List.append_nil]
      cases op with
      | submit j t' =>
        have : j ≠ k := by rintro rfl; exact hx t' (by simp)
        simp [subsTo, this]
      | _ => simp [subsTo]
  have hsub : subsTo k s.done = subsTo k d₁ ++ [t.id] := by
    rw [hd]
    simp only [subsTo_append, hno _ h₂, hno _ h₃]
    simp [subsTo]
  have hs := hp.subs k
  rw [hn, hsub] at hs
  simp only [List.nil_append, List.append_nil] at hs
  have hlast : (s.ws k).finished.getLast? = some t.id := by rw [← e3, hs]; simp
  obtain ⟨f, hf⟩ := List.getLast?_eq_some_iff.1 hlast
  have hsubl : f.Sublist (subsTo k d₁) := by
    rw [hf, hs] at e2
    exact (List.append_sublist_append_right _).1 e2
  refine ⟨⟨f, hf, hsubl⟩, e1, fun hnd => ?_⟩
  rw [hsub] at hnd
  have h1 : (f ++ [t.id]).Nodup := List.Nodup.sublist (List.Sublist.append_right hsubl _) hnd
  rw [hf]
  exact List.count_eq_one_of_mem h1 (by simp)

/-- C45: if the client waits for a worker before it submits to it again, then at every return of `wait` all tasks submitted to that worker
have been run, each exactly once, in the order of submission. -/
theorem C45_every (P : List (Op L E)) (hP : ∀ d k t r, P = d ++ Op.submit k t :: r → idleAfter k d = true) (loc : Nat → L) (cloc : L)
    (mem : Nat → E) (ms : List Move) (s : Conf L E) (h : Steps (Conf.fresh P loc cloc mem) ms s) (hn : s.cpc = .next) (k : Nat)
    (hk : idleAfter k s.done = true) : (s.ws k).started = subsTo k s.done ∧ (s.ws k).finished = subsTo k s.done := by
  have hp := (Pos.fresh P loc cloc mem).steps h (AllInv.fresh P loc cloc mem)
  have ht := hp.idle k hk (by rw [hn]; simp [CPc.view]) (by rw [hn]; simp [CPc.view])
  have ha := all_steps (B := fun _ => []) hP h (AllInv.fresh P loc cloc mem) (Pos.fresh P loc cloc mem) (fun k => by simp [Conf.fresh, W.fresh, W.all]) k
  simp only [W.all, ht] at ha
  have hs := hp.subs k
  rw [hn] at hs
  simp only [List.nil_append, List.append_nil] at hs
  rw [ha.1, ha.2, hs]
  exact ⟨rfl, rfl⟩

/-- C45: `submit` and `wait` always return.  As long as the client has something left to do, it or one of the workers it uses can move
without a spurious wake-up; and between two spurious wake-ups there are only finitely many steps: the number of steps is bounded by a
number that depends only on the program, plus four for every spurious wake-up. -/
theorem C45_returns (P : List (Op L E)) (hP : ∀ op ∈ P, Op.isDestroy op = false) (n : Nat) (hn : ∀ op ∈ P, ∀ k ∈ op.target, k < n) :
    ∃ bound, ∀ (loc : Nat → L) (cloc : L) (mem : Nat → E) (ms : List Move) (s : Conf L E), Steps (Conf.fresh P loc cloc mem) ms s →
      (s.cpc = .next ∧ s.ops = [] ∨ (s.move .client).isSome = true ∨ ∃ k < n, (s.move (.worker k)).isSome = true) ∧
      ((∀ m ∈ ms, m.below n) → ms.countP (fun m => m.normal) ≤ bound + 4 * ms.countP (fun m => !m.normal)) := by
  refine ⟨opsRank P + 4 * n, fun loc cloc mem ms s h => ?_⟩
  have hi0 := AllInv.fresh P loc cloc mem
  have hp0 := Pos.fresh P loc cloc mem
  have hi := hi0.steps h
  have hp := hp0.steps h hi0
  have hst := stop_steps hP h hi0 hp0 (fun _ => rfl)
  have hsub : ∀ op ∈ s.cpc.cur ++ s.ops, op ∈ P := by
    intro op hop
    rw [← hp.prog]
    simp only [List.mem_append] at hop ⊢
    tauto
  constructor
  · by_cases he : s.ops = [] ∧ s.cpc.cur = []
    · left
      refine ⟨?_, he.1⟩
      have := he.2
      revert this
      cases s.cpc <;> simp [CPc.cur]
    · right
      rcases no_deadlock hi hst (fun op hop => hP op (hsub op hop)) he with h1 | ⟨k, ⟨op, hop, hk⟩, h1⟩
      · exact Or.inl h1
      · exact Or.inr ⟨k, hn op (hsub op hop) k hk, h1⟩
  · intro hm
    have := steps_rank hn h hi0 hp0 hm
    have h0 : (Conf.fresh P loc cloc mem).rank n = opsRank P + 4 * n := by
      simp [Conf.rank, Conf.fresh, CPc.rank, W.rank, W.fresh, WPc.rank, WPc.inTask, mul_comm]
    omega

/-- Two tasks that write the memory. -/
def setAct (i v : Nat) : Act Unit Nat := fun p => (p.1, Function.update p.2 i v)

/-- A run in which the client goes to sleep in `wait`, is woken by nobody, goes to sleep again, and is then notified. -/
example : ∃ ms s, Steps (Conf.fresh [.submit 0 ⟨7, [setAct 3 5]⟩, .wait 0] (fun _ => ()) () (fun _ => 0)) ms s ∧ s.cpc = .next ∧
    s.done = [.submit 0 ⟨7, [setAct 3 5]⟩, .wait 0] ∧ (s.ws 0).finished = [7] ∧ s.mem 3 = 5 :=
  ⟨[.worker 0, .worker 0, .worker 0, .client, .client, .client, .client, .client, .client, .client, .spuriousClient, .client, .client, .client,
    .worker 0, .worker 0, .worker 0, .worker 0, .worker 0, .worker 0, .worker 0, .worker 0, .client, .client, .client], _,
    steps_of_run rfl, rfl, rfl, rfl, rfl⟩

/-- Without the wait in between, a second submission may replace the first: then the first task is never run. -/
theorem C45_overwritten : ∃ ms s, Steps (Conf.fresh (L := Unit) (E := Nat) [.submit 0 ⟨1, []⟩, .submit 0 ⟨2, []⟩, .wait 0] (fun _ => ()) () (fun _ => 0)) ms s ∧
    s.cpc = .next ∧ s.ops = [] ∧ (s.ws 0).finished = [2] :=
  ⟨[.client, .client, .client, .client, .client, .client, .client, .client, .worker 0, .worker 0, .worker 0, .worker 0, .worker 0, .worker 0,
    .client, .client, .client], _, steps_of_run rfl, rfl, rfl, rfl⟩

/-! ## C46 -/

/-- C46 fails: a worker may test its condition, find nothing to do, and fall asleep only after the destructor has set the flag and sent its
only notification.  From then on the destructor does not return unless the worker wakes up by itself.  This happens whenever the flag is
set while the worker is between the test and the sleep. -/
theorem C46_violation (s : Conf L E) (k : Nat) (r : List (Op L E)) (hc : s.cpc = .next) (ho : s.ops = .destroy k :: r)
    (hw : (s.ws k).pc = .willSleep) : ∃ s', Steps s [.client, .client, .worker k] s' ∧ s'.cpc = .desJoin k ∧
      ∀ ms s'', Steps s' ms s'' → .spuriousWorker k ∉ ms → s''.cpc = .desJoin k := by
  obtain ⟨ws, cpc, ops, done, cloc, mem⟩ := s
  simp only at hc ho hw
  subst hc ho
  have hrun : ∃ s', (Conf.mk ws .next (.destroy k :: r) done cloc mem).runMoves [.client, .client, .worker k] = some s' ∧
      s'.cpc = .desJoin k ∧ (s'.ws k).pc = .asleep := by
    simp [Conf.runMoves, Conf.move, Conf.client, Conf.setW, Conf.worker, W.notified, hw, W.step]
  obtain ⟨s', h1, h2, h3⟩ := hrun
  exact ⟨s', steps_of_run h1, h2, fun ms s'' h hm => (lost_steps h h2 h3 hm).1⟩

/-- A new worker that is destroyed at once gets into that state. -/
theorem C46_violation_reachable (loc : Nat → L) (cloc : L) (mem : Nat → E) : ∃ s ms, Steps (Conf.fresh [.destroy 0] loc cloc mem) ms s ∧
    s.cpc = .desJoin 0 ∧ ∀ ms s'', Steps s ms s'' → .spuriousWorker 0 ∉ ms → s''.cpc = .desJoin 0 := by
  obtain ⟨s, hs⟩ : ∃ s, (Conf.fresh [.destroy 0] loc cloc mem).runMoves [.worker 0, .worker 0] = some s ∧ s.cpc = .next ∧ s.ops = [.destroy 0] ∧
      (s.ws 0).pc = .willSleep := ⟨_, rfl, rfl, rfl, rfl⟩
  obtain ⟨h1, h2, h3, h4⟩ := hs
  obtain ⟨s', g1, g2, g3⟩ := C46_violation s 0 [] h2 h3 h4
  exact ⟨s', _, (steps_of_run h1).trans g1, g2, g3⟩

/-- C46, the part that holds: if the flag is set while the worker is not between the test and the sleep, the destructor returns: until it has
returned, the client or the worker can move without a spurious wake-up, and the number of steps is bounded.  Missing: the case of
`C46_violation`. -/
theorem C46_destructor_partial (P : List (Op L E)) (loc : Nat → L) (cloc : L) (mem : Nat → E) (ms₀ : List Move) (s : Conf L E)
    (h₀ : Steps (Conf.fresh P loc cloc mem) ms₀ s) (k : Nat) (r : List (Op L E)) (hc : s.cpc = .next) (ho : s.ops = .destroy k :: r)
    (hw : (s.ws k).pc ≠ .willSleep) (s₁ : Conf L E) (h₁ : s.move .client = some s₁) (n : Nat) (hn : ∀ op ∈ P, ∀ k ∈ op.target, k < n) :
    ∃ bound, ∀ ms s₂, Steps s₁ ms s₂ →
      (s₁.done.length < s₂.done.length ∨ (s₂.move .client).isSome = true ∨ (s₂.move (.worker k)).isSome = true) ∧
      ((∀ m ∈ ms, m.below n) → ms.countP (fun m => m.normal) ≤ bound + 4 * ms.countP (fun m => !m.normal)) := by
  have hi0 := AllInv.fresh P loc cloc mem
  have hi := (hi0.steps h₀).move h₁
  have hp := ((Pos.fresh P loc cloc mem).steps h₀ hi0).move (hi0.steps h₀) h₁
  have hstop : Stopping k s₁ := by
    simp only [Conf.move, Conf.client, hc, ho, Option.some.injEq] at h₁
    subst h₁
    refine ⟨Or.inl rfl, ?_, ?_, fun _ => rfl⟩ <;> simp [Conf.setW, hw]
  refine ⟨s₁.rank n, fun ms s₂ h => ⟨?_, fun hm => ?_⟩⟩
  · rcases hstop.steps h with ⟨h2, -⟩ | h2
    · exact Or.inr (h2.can_move (hi.steps h))
    · exact Or.inl h2
  · have := steps_rank hn h hi hp hm
    omega

/-- A worker that is asleep when it is destroyed. -/
example : ∃ (ms : List Move) (s : Conf Unit Nat), Steps (Conf.fresh [.destroy 0] (fun _ => ()) () (fun _ => 0)) ms s ∧ s.cpc = .next ∧
    s.ops = [.destroy 0] ∧ (s.ws 0).pc = .asleep :=
  ⟨[.worker 0, .worker 0, .worker 0], _, steps_of_run rfl, rfl, rfl, rfl⟩

/-! ## C58 -/

/-- C58: a pool starts at rest. -/
theorem C58_initial (loc : Nat → L) (cloc : L) (mem : Nat → E) : Idle (Conf.fresh [] loc cloc mem) :=
  ⟨fun k => Inv.of_fresh (loc k), fun _ => ⟨rfl, rfl⟩, rfl, rfl⟩

/-- C58: a parallel loop over the indices `[lo, hi)` run by the pool always returns; when it has returned, the shared memory is the result of
some interleaving in which every index is handled exactly once (`ParFor`), each of the workers used has run exactly one more task, and the
pool is at rest, so that the next loop can be run. -/
theorem C58_parallelFor (T : Nat) (hT : 0 < T) (hT31 : T < 2 ^ 31) (lo hi : Int) (hlt : lo < hi) (h31 : hi - lo < 2 ^ 31) (prog : Nat → List (Act L E)) (s : Conf L E) (hI : Idle s)
    (ha : ∀ k, (s.ws k).started = (s.ws k).submitted ∧ (s.ws k).finished = (s.ws k).submitted) :
    ∃ calls bound, parallelFor T lo hi = some calls ∧ calls.length ≤ T ∧
      ∀ ms s', Steps (s.start (poolOps (calls.map fun c => c.indices.flatMap prog))) ms s' →
        ((s'.cpc = .next ∧ s'.ops = []) ∨ (s'.move .client).isSome = true ∨ ∃ k < T - 1, (s'.move (.worker k)).isSome = true) ∧
        ((∀ m ∈ ms, m.below (T - 1)) → ms.countP (fun m => m.normal) ≤ bound + 4 * ms.countP (fun m => !m.normal)) ∧
        (s'.cpc = .next ∧ s'.ops = [] → ParFor T lo hi prog s.mem s'.mem ∧ Idle s' ∧
          (∀ k, (s'.ws k).started = (s'.ws k).submitted ∧ (s'.ws k).finished = (s'.ws k).submitted) ∧
          ∀ k, (s'.ws k).finished = (s.ws k).finished ++ if k < calls.length - 1 then [k] else []) := by
  obtain ⟨calls, hc, hl0, hlT, -⟩ := parallelFor_spec hT hT31 hlt h31
  obtain ⟨hi0, hp0, hst0⟩ := hI.start (poolOps (calls.map fun c => c.indices.flatMap prog))
  have htgt : ∀ op ∈ poolOps (calls.map fun c => c.indices.flatMap prog), ∀ k ∈ op.target, k < T - 1 := by
    intro op hop k hk
    have := poolOps_target _ op hop k hk
    rw [List.length_map] at this
    omega
  have hall : ∀ k, ((s.start (poolOps (calls.map fun c => c.indices.flatMap prog))).ws k).all := by
    intro k
    show (s.ws k).all
    unfold W.all
    rw [(hI.idle k).1]
    exact ha k
  refine ⟨calls, (s.start (poolOps (calls.map fun c => c.indices.flatMap prog))).rank (T - 1), hc, hlT, fun ms s' h => ⟨?_, fun hm => ?_, fun he => ?_⟩⟩
  · have hi := hi0.steps h
    have hp := hp0.steps h hi0
    have hst := stop_steps (poolOps_isDestroy _) h hi0 hp0 hst0
    have hsub : ∀ op ∈ s'.cpc.cur ++ s'.ops, op ∈ poolOps (calls.map fun c => c.indices.flatMap prog) := by
      intro op hop
      rw [← hp.prog]
      simp only [List.mem_append] at hop ⊢
      tauto
    by_cases he : s'.ops = [] ∧ s'.cpc.cur = []
    · left
      refine ⟨?_, he.1⟩
      have := he.2
      revert this
      cases s'.cpc <;> simp [CPc.cur]
    · right
      rcases no_deadlock hi hst (fun op hop => poolOps_isDestroy _ op (hsub op hop)) he with h1 | ⟨k, ⟨op, hop, hk⟩, h1⟩
      · exact Or.inl h1
      · exact Or.inr ⟨k, htgt op (hsub op hop) k hk, h1⟩
  · have := steps_rank htgt h hi0 hp0 hm
    omega
  · obtain ⟨h1, h2, h3⟩ := pool_run hI h he
    have hj : (fun j => (calls.map fun c => c.indices.flatMap prog).getD j []) = threads calls prog := by
      funext j
      simp only [threads, List.getD_eq_getElem?_getD, List.getElem?_map]
      cases calls[j]? <;> rfl
    refine ⟨⟨calls, hc, by rw [← hj]; exact h1⟩, h2, fun k => ?_, fun k => ?_⟩
    · have := all_steps (poolOps_disciplined _) h hi0 hp0 hall k
      simpa only [W.all, (h2.idle k).1] using this
    · have := h3 hall k
      rwa [List.length_map] at this

/-- A loop over three indices on two threads, run to its end. -/
example : ∃ (calls : List Call) (ms : List Move) (s' : Conf Unit Nat), parallelFor 2 0 3 = some calls ∧
    Steps ((Conf.fresh [] (fun _ => ()) () (fun _ => 0)).start (poolOps (calls.map fun c => c.indices.flatMap fun i => [setAct i (i + 1)]))) ms s' ∧
    s'.cpc = .next ∧ s'.ops = [] ∧ s'.mem 0 = 1 ∧ s'.mem 1 = 2 ∧ s'.mem 2 = 3 :=
  ⟨[⟨0, 2, 0⟩, ⟨2, 3, 1⟩], [.client, .client, .client, .client, .worker 0, .client, .worker 0, .worker 0, .worker 0, .client, .worker 0, .worker 0,
    .client, .worker 0, .worker 0, .worker 0, .client, .client, .client], _, by decide, steps_of_run rfl, rfl, rfl, rfl, rfl, rfl⟩

end FF.Props
