import Verif.WorkerPool

/-!
# Several parallel loops one after the other on the worker protocol

A client that runs parallel loops (and work of its own in between, which is a loop with one job) one after the other is one list of
operations on the workers.  A run of it splits into a run of each loop.
-/

set_option linter.unusedSimpArgs false

namespace FF.Worker

open FF.Par FF.Pool

variable {L E : Type}

/-- More operations to come after those of `s`. -/
def Conf.more (s : Conf L E) (B : List (Op L E)) : Conf L E := { s with ops := s.ops ++ B }

/-- More operations completed before those of `s`. -/
def Conf.after (s : Conf L E) (D : List (Op L E)) : Conf L E := { s with done := D ++ s.done }

theorem move_more (s : Conf L E) (B : List (Op L E)) (m : Move) (h : ¬ (m = .client ∧ s.cpc = .next ∧ s.ops = [])) :
    (s.more B).move m = (s.move m).map (·.more B) := by
  obtain ⟨ws, cpc, ops, done, cloc, mem⟩ := s
  cases m with
  | client =>
    simp only [Conf.move, Conf.client, Conf.more]
    cases cpc with
    | next =>
      cases ops with
      | nil => simp at h
      | cons op ops =>
        cases op <;> simp only [List.cons_append, Conf.setW] <;> (try split) <;> simp_all [Conf.more]
    | own as rest => cases rest <;> simp [Conf.complete, Conf.more, Conf.setW]
    | waitWoken k => simp only [Conf.setW]; split <;> simp_all [Conf.more]
    | desJoin k => simp only [Conf.setW]; split <;> simp_all [Conf.more, Conf.complete]
    | _ => simp [Conf.complete, Conf.more, Conf.setW]
  | worker k =>
    simp only [Conf.move, Conf.worker, Conf.more, Option.map_map]
    rfl
  | spuriousClient =>
    simp only [Conf.move, Conf.more]
    cases cpc <;> simp
  | spuriousWorker k =>
    simp only [Conf.move, Conf.more]
    cases (ws k).pc <;> simp [Conf.setW]

theorem move_after (s : Conf L E) (D : List (Op L E)) (m : Move) : (s.after D).move m = (s.move m).map (·.after D) := by
  obtain ⟨ws, cpc, ops, done, cloc, mem⟩ := s
  cases m with
  | client =>
    simp only [Conf.move, Conf.client, Conf.after]
    cases cpc with
    | next =>
      cases ops with
      | nil => simp
      | cons op ops =>
        cases op <;> simp only [Conf.setW] <;> (try split) <;> simp_all [Conf.after]
    | own as rest => cases rest <;> simp [Conf.complete, Conf.after, Conf.setW]
    | waitWoken k => simp only [Conf.setW]; split <;> simp_all [Conf.after]
    | desJoin k => simp only [Conf.setW]; split <;> simp_all [Conf.after, Conf.complete]
    | _ => simp [Conf.complete, Conf.after, Conf.setW]
  | worker k =>
    simp only [Conf.move, Conf.worker, Conf.after, Option.map_map]
    rfl
  | spuriousClient =>
    simp only [Conf.move, Conf.after]
    cases cpc <;> simp
  | spuriousWorker k =>
    simp only [Conf.move, Conf.after]
    cases (ws k).pc <;> simp [Conf.setW]

/-- A run of `A ++ B` is a run inside `A`, or a complete run of `A` and then a run of `B`. -/
theorem steps_split {s s' : Conf L E} {A B : List (Op L E)} {ms : List Move} (h : Steps (s.start (A ++ B)) ms s') :
    (∃ t, Steps (s.start A) ms t ∧ s' = t.more B) ∨
    ∃ ms₁ ms₂ t u, ms = ms₁ ++ ms₂ ∧ Steps (s.start A) ms₁ t ∧ (t.cpc = .next ∧ t.ops = []) ∧ Steps (t.start B) ms₂ u ∧ s' = u.after t.done := by
  generalize hs : s.start (A ++ B) = s0 at h
  induction h with
  | nil => subst hs; exact Or.inl ⟨s.start A, .nil _, rfl⟩
  | @snoc s1 s2 ms m hst hm ih =>
    have second : ∀ ms₁ ms₂ t u, ms = ms₁ ++ ms₂ → Steps (s.start A) ms₁ t → (t.cpc = .next ∧ t.ops = []) → Steps (t.start B) ms₂ u →
        s1 = u.after t.done → ∃ ms₁ ms₂ t u, ms ++ [m] = ms₁ ++ ms₂ ∧ Steps (s.start A) ms₁ t ∧ (t.cpc = .next ∧ t.ops = []) ∧
          Steps (t.start B) ms₂ u ∧ s2 = u.after t.done := by
      rintro ms₁ ms₂ t u rfl h1 h2 h3 rfl
      rw [move_after, Option.map_eq_some_iff] at hm
      obtain ⟨u', hu, rfl⟩ := hm
      exact ⟨ms₁, ms₂ ++ [m], t, u', by simp, h1, h2, .snoc m h3 hu, rfl⟩
    rcases ih with ⟨t, ht, rfl⟩ | ⟨ms₁, ms₂, t, u, h0, h1, h2, h3, h4⟩
    · by_cases hc : m = .client ∧ t.cpc = .next ∧ t.ops = []
      · right
        refine second ms [] t (t.start B) (by simp) ht hc.2 (.nil _) ?_
        obtain ⟨ws, cpc, ops, done, cloc, mem⟩ := t
        obtain ⟨-, h1, h2⟩ := hc
        simp only at h1 h2
        subst h1 h2
        simp [Conf.more, Conf.after, Conf.start]
      · left
        rw [move_more _ _ _ hc, Option.map_eq_some_iff] at hm
        obtain ⟨t', ht', rfl⟩ := hm
        exact ⟨t', .snoc m ht ht', rfl⟩
    · exact Or.inr (second ms₁ ms₂ t u h0 h1 h2 h3 h4)

/-- The operations of a client that runs loops with these jobs one after the other. -/
def seqOps (js : List (List (List (Act L E)))) : List (Op L E) := js.flatMap poolOps

/-- Complete interleaved runs of the loops one after the other. -/
def ExecSeq : List (List (List (Act L E))) → (Nat → E) → (Nat → E) → Prop
  | [], m, m' => m' = m
  | j :: js, m, m' => ∃ m1, Exec (fun i => j.getD i []) m m1 ∧ ExecSeq js m1 m'

theorem poolOps_ne_nil (jobs : List (List (Act L E))) : poolOps jobs ≠ [] := by
  simp [poolOps]

theorem seqOps_eq_nil {js : List (List (List (Act L E)))} (h : seqOps js = []) : js = [] := by
  cases js with
  | nil => rfl
  | cons j js => simp [seqOps, poolOps_ne_nil] at h

/-- The number of tasks that each worker has to run. -/
def seqRuns (js : List (List (List (Act L E)))) (k : Nat) : List Nat := js.flatMap fun j => if k < j.length - 1 then [k] else []

theorem seq_run {js : List (List (List (Act L E)))} : ∀ {s s' : Conf L E} (_ : Idle s) {ms : List Move} (_ : js ≠ [])
    (_ : Steps (s.start (seqOps js)) ms s') (_ : s'.cpc = .next ∧ s'.ops = []),
    ExecSeq js s.mem s'.mem ∧ Idle s' ∧ ((∀ k, (s.ws k).all) → ∀ k, (s'.ws k).all ∧ (s'.ws k).finished = (s.ws k).finished ++ seqRuns js k) := by
  induction js with
  | nil => intro s s' hI ms hne; exact absurd rfl hne
  | cons j js ih =>
    intro s s' hI ms _ h hend
    have one : ∀ {ms t}, Steps (s.start (poolOps j)) ms t → (t.cpc = .next ∧ t.ops = []) → Exec (fun i => j.getD i []) s.mem t.mem ∧ Idle t ∧
        ((∀ k, (s.ws k).all) → ∀ k, (t.ws k).all ∧ (t.ws k).finished = (s.ws k).finished ++ if k < j.length - 1 then [k] else []) := by
      intro ms t ht hend
      obtain ⟨e1, e2, e3⟩ := pool_run hI ht hend
      obtain ⟨hi, hp, hst⟩ := hI.start (poolOps j)
      exact ⟨e1, e2, fun ha k => ⟨all_steps (poolOps_disciplined j) ht hi hp ha k, e3 ha k⟩⟩
    by_cases hjs : js = []
    · subst hjs
      have h' : Steps (s.start (poolOps j)) ms s' := by simpa [seqOps] using h
      obtain ⟨e1, e2, e3⟩ := one h' hend
      exact ⟨⟨s'.mem, e1, rfl⟩, e2, fun ha k => ⟨(e3 ha k).1, by rw [(e3 ha k).2]; simp [seqRuns]⟩⟩
    · have h' : Steps (s.start (poolOps j ++ seqOps js)) ms s' := h
      rcases steps_split h' with ⟨t, ht, rfl⟩ | ⟨ms₁, ms₂, t, u, -, ht, ht', hu, rfl⟩
      · have : t.ops ++ seqOps js = [] := hend.2
        exact absurd (seqOps_eq_nil (List.append_eq_nil_iff.1 this).2) hjs
      · obtain ⟨e1, e2, e3⟩ := one ht ht'
        obtain ⟨f1, f2, f3⟩ := ih e2 hjs hu hend
        refine ⟨⟨t.mem, e1, f1⟩, ⟨f2.inv, f2.idle, f2.done⟩, fun ha k => ?_⟩
        obtain ⟨g1, g2⟩ := f3 (fun k => (e3 ha k).1) k
        refine ⟨g1, ?_⟩
        show (u.ws k).finished = _
        rw [g2, (e3 ha k).2, List.append_assoc]
        rfl

theorem seqOps_isDestroy (js : List (List (List (Act L E)))) : ∀ op ∈ seqOps js, Op.isDestroy op = false := by
  intro op h
  obtain ⟨j, -, h⟩ := List.mem_flatMap.1 h
  exact poolOps_isDestroy j op h

theorem seqOps_target {js : List (List (List (Act L E)))} {T : Nat} (hT : ∀ j ∈ js, j.length ≤ T) : ∀ op ∈ seqOps js, ∀ k ∈ op.target, k < T - 1 := by
  intro op h k hk
  obtain ⟨j, hj, h⟩ := List.mem_flatMap.1 h
  have := poolOps_target j op h k hk
  have := hT j hj
  omega

/-- As long as the loops have not all been run, the client or a worker can move without a spurious wake-up; and the number of steps is
bounded. -/
theorem seq_progress {js : List (List (List (Act L E)))} {T : Nat} (hT : ∀ j ∈ js, j.length ≤ T) {s s' : Conf L E} (hI : Idle s) {ms : List Move}
    (h : Steps (s.start (seqOps js)) ms s') :
    ((s'.cpc = .next ∧ s'.ops = []) ∨ (s'.move .client).isSome = true ∨ ∃ k < T - 1, (s'.move (.worker k)).isSome = true) ∧
    ((∀ m ∈ ms, m.below (T - 1)) → ms.countP (fun m => m.normal) ≤ (s.start (seqOps js)).rank (T - 1) + 4 * ms.countP (fun m => !m.normal)) := by
  obtain ⟨hi0, hp0, hst0⟩ := hI.start (seqOps js)
  refine ⟨?_, fun hm => ?_⟩
  · have hi := hi0.steps h
    have hp := hp0.steps h hi0
    have hst := stop_steps (seqOps_isDestroy js) h hi0 hp0 hst0
    have hsub : ∀ op ∈ s'.cpc.cur ++ s'.ops, op ∈ seqOps js := by
      intro op hop
      rw [← hp.prog]
      simp only [List.mem_append] at hop ⊢
      tauto
    by_cases he : s'.ops = [] ∧ s'.cpc.cur = []
    · left
      refine ⟨?_, he.1⟩
      have := he.2
      revert this
      cases s'.cpc <;> simp [CPc.cur]
    · right
      rcases no_deadlock hi hst (fun op hop => seqOps_isDestroy js op (hsub op hop)) he with h1 | ⟨k, ⟨op, hop, hk⟩, h1⟩
      · exact Or.inl h1
      · exact Or.inr ⟨k, seqOps_target hT op (hsub op hop) k hk, h1⟩
  · have := steps_rank (seqOps_target hT) h hi0 hp0 hm
    omega

end FF.Worker
