import Verif.WorkerSim

/-!
# `parallelFor` and `parallelBlock` on top of the worker protocol, and the destructor
-/

set_option linter.unusedSimpArgs false

namespace FF.Worker

open FF.Par FF.Pool

variable {L E : Type}

/-! ## In a disciplined program every submitted task is executed -/

def W.all (w : W L E) : Prop := match w.task with
  | none => w.started = w.submitted ∧ w.finished = w.submitted
  | some t => ∃ pre, w.submitted = pre ++ [t.id] ∧ match w.pc with
    | .running _ => w.started = pre ++ [t.id] ∧ w.finished = pre
    | .clear => w.started = pre ++ [t.id] ∧ w.finished = pre ++ [t.id]
    | _ => w.started = pre ∧ w.finished = pre

theorem all_step {w w' : W L E} {v : V} (h : Inv w v) (ha : w.all) {mem mem' : Nat → E} {n : Bool}
    (hs : w.step mem = some (w', mem', n)) : w'.all := by
  obtain ⟨stop, task, lock, pc, loc, sub, st, fin⟩ := w
  obtain ⟨h1, h2, h3, h4, h5, h6⟩ := h
  cases pc with
  | running r =>
    cases r <;> simp [W.step] at hs <;> obtain ⟨rfl, rfl, rfl⟩ := hs <;> cases task <;> simp_all [W.all, W.taskOk]
  | clear =>
    simp [W.step] at hs
    obtain ⟨rfl, rfl, rfl⟩ := hs
    cases task with
    | none => simp [W.taskOk] at h3
    | some t =>
      obtain ⟨pre, e1, e2, e3⟩ := ha
      exact ⟨e2.trans e1.symm, e3.trans e1.symm⟩
  | _ =>
    cases task <;> cases stop <;> cases lock <;> simp [W.step] at hs <;> obtain ⟨rfl, rfl, rfl⟩ := hs <;> simp_all [W.all, W.taskOk]

theorem all_move {B : Nat → List Nat} {P : List (Op L E)} (hD : Disciplined P) {s s' : Conf L E} {m : Move} (hi : AllInv s) (hp : Pos B P s)
    (ha : ∀ k, (s.ws k).all) (hs : s.move m = some s') : ∀ k, (s'.ws k).all := by
  have upd : ∀ (k : Nat) (w : W L E), w.all → ∀ j, (Function.update s.ws k w j).all := by
    intro k w e j
    by_cases hj : j = k
    · subst hj; rw [Function.update_self]; exact e
    · rw [Function.update_of_ne hj]; exact ha j
  have nt : ∀ w : W L E, w.all → w.notified.all := by
    rintro ⟨stop, task, lock, pc, loc, sub, st, fin⟩ h
    cases pc <;> cases task <;> exact h
  cases m with
  | worker k =>
    simp only [Conf.move, Conf.worker, Option.map_eq_some_iff] at hs
    obtain ⟨⟨w, mem, n⟩, h1, rfl⟩ := hs
    exact upd k w (all_step (hi k) (ha k) h1)
  | spuriousClient =>
    simp only [Conf.move] at hs
    split at hs
    · obtain rfl := Option.some.inj hs; exact ha
    · simp at hs
  | spuriousWorker k =>
    simp only [Conf.move] at hs
    split at hs
    · rename_i hk
      obtain rfl := Option.some.inj hs
      refine upd k _ ?_
      have := ha k
      simp only [W.all, hk] at this ⊢
      exact this
    · simp at hs
  | client =>
    simp only [Conf.move] at hs
    unfold Conf.client at hs
    split at hs
    · split at hs
      · simp at hs
      · split at hs
        · obtain rfl := Option.some.inj hs; exact upd _ _ (ha _)
        · simp at hs
      · split at hs
        · obtain rfl := Option.some.inj hs; exact upd _ _ (ha _)
        · simp at hs
      · obtain rfl := Option.some.inj hs; exact ha
      · obtain rfl := Option.some.inj hs; exact upd _ _ (ha _)
    · rename_i k t hcpc
      obtain rfl := Option.some.inj hs
      have hP : P = s.done ++ Op.submit k t :: s.ops := by
        rw [← hp.prog, hcpc]; simp [CPc.cur]
      have hk := hp.idle k (hD _ _ _ _ hP) (by simp [hcpc, CPc.view]) (by simp [hcpc, CPc.view])
      have hpc := (hi k).taskOk
      refine upd _ _ ?_
      have hak := ha k
      revert hpc hak
      unfold W.taskOk W.all
      rw [hk]
      rintro hpc ⟨e1, e2⟩
      refine ⟨_, rfl, ?_⟩
      cases h : (s.ws k).pc <;> simp [h, e1, e2] at hpc ⊢
    · obtain rfl := Option.some.inj hs; exact upd _ _ (ha _)
    · obtain rfl := Option.some.inj hs; exact upd _ _ (nt _ (ha _))
    · obtain rfl := Option.some.inj hs; exact ha
    · obtain rfl := Option.some.inj hs; exact upd _ _ (ha _)
    · simp at hs
    · split at hs
      · obtain rfl := Option.some.inj hs; exact upd _ _ (ha _)
      · simp at hs
    · obtain rfl := Option.some.inj hs; exact upd _ _ (ha _)
    · obtain rfl := Option.some.inj hs; exact ha
    · obtain rfl := Option.some.inj hs; exact ha
    · obtain rfl := Option.some.inj hs; exact upd _ _ (nt _ (ha _))
    · split at hs
      · obtain rfl := Option.some.inj hs; exact ha
      · simp at hs

theorem all_steps {B : Nat → List Nat} {P : List (Op L E)} (hD : Disciplined P) {s s' : Conf L E} {ms : List Move} (hs : Steps s ms s')
    (hi : AllInv s) (hp : Pos B P s) (ha : ∀ k, (s.ws k).all) : ∀ k, (s'.ws k).all := by
  induction hs with
  | nil => exact ha
  | snoc m hst hm ih => exact all_move hD (hi.steps hst) (hp.steps hst hi) ih hm

/-! ## The pool -/

/-- What `parallelFor` (`misc.hpp:154-162`) and `parallelBlock` (`misc.hpp:169-177`) do with the workers when the calls of the body are
`jobs`: submit all but the last, run the last, wait for the others. -/
def poolOps (jobs : List (List (Act L E))) : List (Op L E) :=
  (List.range (jobs.length - 1)).map (fun k => Op.submit k ⟨k, jobs.getD k []⟩) ++
  [Op.own (jobs.getD (jobs.length - 1) [])] ++
  (List.range (jobs.length - 1)).map (fun k => Op.wait k)

/-- A client about to run `ops`. -/
def Conf.start (s : Conf L E) (ops : List (Op L E)) : Conf L E := { s with cpc := .next, ops := ops, done := [] }

/-- The pool is at rest: nobody holds a mutex or has a task for a wrong reason, no worker has a task or is told to stop. -/
structure Idle (s : Conf L E) : Prop where
  inv : ∀ k, Inv (s.ws k) .away
  idle : ∀ k, (s.ws k).task = none ∧ (s.ws k).stop = false
  done : s.cpc = .next ∧ s.ops = []

theorem Idle.start {s : Conf L E} (h : Idle s) (ops : List (Op L E)) :
    AllInv (s.start ops) ∧ Pos (fun k => (s.ws k).submitted) ops (s.start ops) ∧ ∀ k, ((s.start ops).ws k).stop = false := by
  refine ⟨h.inv, ⟨by simp [Conf.start, CPc.cur], fun k => ?_, fun k _ _ _ => (h.idle k).1⟩, fun k => (h.idle k).2⟩
  simp [Conf.start, subsTo]

theorem idleAfter_append_no_submit (k : Nat) : ∀ (b a : List (Op L E)), (∀ j t, Op.submit j t ∈ b → j ≠ k) → idleAfter k a = true →
    idleAfter k (a ++ b) = true := by
  intro b
  induction b using List.reverseRecOn with
  | nil => intro a _ h; simpa using h
  | append_singleton b op ih =>
    intro a h ha
    have ih := ih a (fun j t hj => h j t (by simp [hj])) ha
    rw [← List.append_assoc, idleAfter_snoc]
    cases op with
    | submit j t => simp only; rw [if_neg (h j t (by simp))]; exact ih
    | wait j => simp only; split <;> [rfl; exact ih]
    | own as => exact ih
    | destroy j => exact ih

theorem poolOps_get_submit {jobs : List (List (Act L E))} {i k : Nat} {t : Task L E} (h : (poolOps jobs)[i]? = some (.submit k t)) :
    k = i ∧ i < jobs.length - 1 ∧ t = ⟨k, jobs.getD k []⟩ := by
  unfold poolOps at h
  rw [List.getElem?_append] at h
  split at h
  · rw [List.getElem?_append] at h
    split at h
    · rename_i h1 h2
      rw [List.length_map, List.length_range] at h2
      rw [List.getElem?_map, List.getElem?_range h2] at h
      simp only [Option.map_some, Option.some.injEq, Op.submit.injEq] at h
      obtain ⟨rfl, rfl⟩ := h
      exact ⟨rfl, h2, rfl⟩
    · have := List.mem_of_getElem? h
      simp at this
  · have := List.mem_of_getElem? h
    simp at this

theorem poolOps_submit {jobs : List (List (Act L E))} {k : Nat} {t : Task L E} (h : Op.submit k t ∈ poolOps jobs) :
    k < jobs.length - 1 ∧ t = ⟨k, jobs.getD k []⟩ := by
  obtain ⟨i, hi⟩ := List.getElem?_of_mem h
  obtain ⟨rfl, h1, h2⟩ := poolOps_get_submit hi
  exact ⟨h1, h2⟩

theorem poolOps_disciplined (jobs : List (List (Act L E))) : Disciplined (poolOps jobs) := by
  intro d k t r h
  refine idleAfter_append_no_submit k d [] ?_ rfl
  have hk : (poolOps jobs)[d.length]? = some (.submit k t) := by rw [h]; simp
  obtain ⟨hk, -, -⟩ := poolOps_get_submit hk
  intro j t' hj
  obtain ⟨i, hi⟩ := List.getElem?_of_mem hj
  have hlt : i < d.length := (List.getElem?_eq_some_iff.1 hi).1
  have hi' : (poolOps jobs)[i]? = some (.submit j t') := by rw [h, List.getElem?_append_left hlt]; exact hi
  obtain ⟨hj', -, -⟩ := poolOps_get_submit hi'
  omega

theorem poolOps_isDestroy (jobs : List (List (Act L E))) : ∀ op ∈ poolOps jobs, Op.isDestroy op = false := by
  intro op h
  simp only [poolOps, List.mem_append, List.mem_map, List.mem_singleton] at h
  rcases h with (⟨k, -, rfl⟩ | rfl) | ⟨k, -, rfl⟩ <;> rfl

theorem poolOps_target (jobs : List (List (Act L E))) : ∀ op ∈ poolOps jobs, ∀ k ∈ op.target, k < jobs.length - 1 := by
  intro op h k hk
  simp only [poolOps, List.mem_append, List.mem_map, List.mem_singleton, List.mem_range] at h
  rcases h with (⟨j, hj, rfl⟩ | rfl) | ⟨j, hj, rfl⟩ <;> simp only [Op.target, Option.mem_def, Option.some.injEq, reduceCtorEq] at hk <;> omega

theorem actsTo_poolOps (jobs : List (List (Act L E))) (k : Nat) (hk : k ≠ jobs.length - 1) : actsTo k (poolOps jobs) = jobs.getD k [] := by
  have h1 : ∀ n, actsTo k ((List.range n).map (fun k => Op.submit (L := L) (E := E) k ⟨k, jobs.getD k []⟩)) = if k < n then jobs.getD k [] else [] := by
    intro n
    induction n with
    | zero => simp [actsTo]
    | succ n ih =>
      rw [List.range_succ, List.map_append]
      have : ∀ a b : List (Op L E), actsTo k (a ++ b) = actsTo k a ++ actsTo k b := fun a b => List.flatMap_append
      rw [this, ih]
      simp only [List.map_cons, List.map_nil, actsTo, List.flatMap_cons, List.flatMap_nil, List.append_nil]
      by_cases h : k < n
      · rw [if_pos h, if_neg (show ¬n = k by omega), if_pos (show k < n + 1 by omega)]; simp
      · rw [if_neg h]
        by_cases h' : n = k
        · subst h'; simp
        · rw [if_neg h', if_neg (show ¬k < n + 1 by omega)]; simp
  have h2 : ∀ n, actsTo k ((List.range n).map (fun k => Op.wait (L := L) (E := E) k)) = [] := by
    intro n
    simp [actsTo]
  have app : ∀ a b : List (Op L E), actsTo k (a ++ b) = actsTo k a ++ actsTo k b := fun a b => List.flatMap_append
  unfold poolOps
  rw [app, app, h1, h2]
  simp only [actsTo, List.flatMap_cons, List.flatMap_nil, List.append_nil]
  split
  · rfl
  · rw [List.getD_eq_getElem?_getD, List.getElem?_eq_none (by omega)]; rfl

theorem ownActs_poolOps (jobs : List (List (Act L E))) : ownActs (poolOps jobs) = jobs.getD (jobs.length - 1) [] := by
  have h1 : ∀ l : List Nat, ownActs (l.map (fun k => Op.submit (L := L) (E := E) k ⟨k, jobs.getD k []⟩)) = [] := by
    intro l
    induction l with
    | nil => rfl
    | cons x l ih => exact ih
  have h2 : ∀ l : List Nat, ownActs (l.map (fun k => Op.wait (L := L) (E := E) k)) = [] := by
    intro l
    induction l with
    | nil => rfl
    | cons x l ih => exact ih
  have app : ∀ a b : List (Op L E), ownActs (a ++ b) = ownActs a ++ ownActs b := fun a b => List.flatMap_append
  unfold poolOps
  rw [app, app, h1, h2]
  simp [ownActs]

theorem subsTo_poolOps (jobs : List (List (Act L E))) (k : Nat) : subsTo k (poolOps jobs) = if k < jobs.length - 1 then [k] else [] := by
  have h1 : ∀ n, subsTo k ((List.range n).map (fun k => Op.submit (L := L) (E := E) k ⟨k, jobs.getD k []⟩)) = if k < n then [k] else [] := by
    intro n
    induction n with
    | zero => simp [subsTo]
    | succ n ih =>
      rw [List.range_succ, List.map_append, subsTo_append, ih]
      simp only [List.map_cons, List.map_nil, subsTo, List.flatMap_cons, List.flatMap_nil, List.append_nil]
      by_cases h : k < n
      · rw [if_pos h, if_neg (show ¬n = k by omega), if_pos (show k < n + 1 by omega)]; simp
      · rw [if_neg h]
        by_cases h' : n = k
        · subst h'; simp
        · rw [if_neg h', if_neg (show ¬k < n + 1 by omega)]; simp
  unfold poolOps
  rw [subsTo_append, subsTo_append, h1]
  simp [subsTo]

theorem idleAfter_poolOps (jobs : List (List (Act L E))) (k : Nat) : idleAfter k (poolOps jobs) = true := by
  by_cases hk : k < jobs.length - 1
  · obtain ⟨a, b, hab⟩ := List.append_of_mem (List.mem_range.2 hk)
    have : poolOps jobs = ((List.range (jobs.length - 1)).map (fun k => Op.submit k ⟨k, jobs.getD k []⟩) ++
        [Op.own (jobs.getD (jobs.length - 1) [])] ++ a.map (fun k => Op.wait k) ++ [Op.wait k]) ++ b.map (fun k => Op.wait k) := by
      conv_lhs => rw [poolOps]
      rw [show (List.range (jobs.length - 1)).map (fun k => Op.wait (L := L) (E := E) k) = (a ++ k :: b).map (fun k => Op.wait k) by rw [← hab]]
      simp
    rw [this]
    apply idleAfter_append_no_submit
    · intro j t h; simp at h
    · rw [idleAfter_snoc]; simp
  · refine idleAfter_append_no_submit k (poolOps jobs) [] ?_ rfl
    intro j t h
    have := (poolOps_submit h).1
    omega

/-- What holds when the client has run a parallel loop to its end. -/
theorem pool_run {jobs : List (List (Act L E))} {s s' : Conf L E} (hI : Idle s) {ms : List Move}
    (hs : Steps (s.start (poolOps jobs)) ms s') (hend : s'.cpc = .next ∧ s'.ops = []) :
    Exec (fun j => jobs.getD j []) s.mem s'.mem ∧ Idle s' ∧
    ((∀ k, (s.ws k).all) → ∀ k, (s'.ws k).finished = (s.ws k).finished ++ if k < jobs.length - 1 then [k] else []) := by
  obtain ⟨hi, hp, hst⟩ := hI.start (poolOps jobs)
  have hi' := hi.steps hs
  have hp' := hp.steps hs hi
  have hst' := stop_steps (poolOps_isDestroy jobs) hs hi hp hst
  have hdone : s'.done = poolOps jobs := by
    have := hp'.prog
    rw [hend.1, hend.2] at this
    simpa [CPc.cur] using this
  have htask : ∀ k, (s'.ws k).task = none := by
    intro k
    refine hp'.idle k ?_ ?_ ?_
    · rw [hdone]; exact idleAfter_poolOps jobs k
    · rw [hend.1]; simp [CPc.view]
    · rw [hend.1]; simp [CPc.view]
  refine ⟨?_, ⟨fun k => ?_, fun k => ⟨htask k, hst' k⟩, hend⟩, fun ha k => ?_⟩
  · have hc : ∀ k t, Op.submit k t ∈ poolOps jobs → k ≠ jobs.length - 1 := by
      intro k t h
      have := (poolOps_submit h).1
      omega
    obtain ⟨sched, hsim⟩ := sim_steps (poolOps_disciplined jobs) (jobs.length - 1) hc (poolOps_isDestroy jobs) hs hi hp hst
    refine exec_of_run (s := (s.start (poolOps jobs)).par (jobs.length - 1)) (sched := sched) ?_ rfl ?_ ?_
    · funext k
      simp only [Conf.par, Conf.start]
      split
      · rename_i h; subst h
        simp [CPc.ownTodo, ownActs_poolOps]
      · rename_i h
        rw [(hI.inv k).todo_none (hI.idle k).1, actsTo_poolOps jobs k h]
        simp [CPc.todo]
    · intro j
      rw [← hsim]
      simp only [Conf.par, hend.1, hend.2]
      split
      · rfl
      · rw [(hi' j).todo_none (htask j)]; rfl
    · rw [← hsim]; rfl
  · have := hi' k
    rw [hend.1] at this
    exact this
  · have h1 := all_steps (poolOps_disciplined jobs) hs hi hp ha k
    have h2 := ha k
    simp only [W.all, htask k] at h1
    simp only [W.all, (hI.idle k).1] at h2
    rw [h1.2, h2.2, hp'.subs k, hdone, hend.1, subsTo_poolOps]
    simp

/-! ## The destructor -/

/-- After the flag is set, with the worker not about to fall asleep. -/
structure Stopping (k : Nat) (s : Conf L E) : Prop where
  cpc : s.cpc = .desNotify k ∨ s.cpc = .desJoin k
  stop : (s.ws k).stop = true
  awake : (s.ws k).pc ≠ .willSleep
  notice : (s.ws k).pc = .asleep → s.cpc = .desNotify k

theorem stopping_step {w w' : W L E} {mem mem' : Nat → E} {n : Bool} (hst : w.stop = true) (hw : w.pc ≠ .willSleep)
    (hs : w.step mem = some (w', mem', n)) : w'.stop = true ∧ w'.pc ≠ .willSleep ∧ w'.pc ≠ .asleep := by
  obtain ⟨stop, task, lock, pc, loc, sub, st, fin⟩ := w
  simp only at hst
  subst hst
  cases pc with
  | running r => cases r <;> simp [W.step] at hs <;> obtain ⟨rfl, rfl, rfl⟩ := hs <;> simp
  | willSleep => simp at hw
  | _ => cases task <;> cases lock <;> simp [W.step] at hs <;> obtain ⟨rfl, rfl, rfl⟩ := hs <;> simp

theorem Stopping.move {k : Nat} {s s' : Conf L E} {m : Move} (h : Stopping k s) (hs : s.move m = some s') :
    Stopping k s' ∨ (s'.cpc = .next ∧ s'.done = s.done ++ [.destroy k] ∧ (s'.ws k).pc = .exited) := by
  obtain ⟨h1, h2, h3, h4⟩ := h
  cases m with
  | client =>
    simp only [Conf.move, Conf.client] at hs
    rcases h1 with h1 | h1
    · simp only [h1, Option.some.injEq] at hs
      subst hs
      left
      refine ⟨Or.inr rfl, ?_, ?_, ?_⟩ <;> simp only [Conf.setW, Function.update_self]
      · rw [(notified_fields _).2.2.1, h2]
      · unfold W.notified; split <;> [simp; exact h3]
      · unfold W.notified; split
        · simp
        · rename_i h; intro ha; exact absurd ha h
    · simp only [h1] at hs
      split at hs
      · rename_i hx
        obtain rfl := Option.some.inj hs
        right
        exact ⟨rfl, rfl, hx⟩
      · simp at hs
  | worker j =>
    simp only [Conf.move, Conf.worker, Option.map_eq_some_iff] at hs
    obtain ⟨⟨w, mem, n⟩, hw, rfl⟩ := hs
    left
    have hc : (if n = true then s.cpc.notified j else s.cpc) = s.cpc := by
      rcases h1 with h1 | h1 <;> rw [h1] <;> simp [CPc.notified]
    by_cases hj : k = j
    · subst hj
      obtain ⟨e1, e2, e3⟩ := stopping_step h2 h3 hw
      exact ⟨by simpa only [hc] using h1, by simpa [Conf.setW] using e1, by simpa [Conf.setW] using e2, fun h => absurd (by simpa [Conf.setW] using h) e3⟩
    · refine ⟨by simpa only [hc] using h1, ?_, ?_, ?_⟩ <;> simp only [Conf.setW, Function.update_of_ne hj, hc] <;> assumption
  | spuriousClient =>
    simp only [Conf.move] at hs
    rcases h1 with h1 | h1 <;> rw [h1] at hs <;> simp at hs
  | spuriousWorker j =>
    simp only [Conf.move] at hs
    split at hs
    · obtain rfl := Option.some.inj hs
      left
      by_cases hj : k = j
      · subst hj
        refine ⟨h1, ?_, ?_, ?_⟩ <;> simp [Conf.setW, h2]
      · refine ⟨h1, ?_, ?_, ?_⟩ <;> simp only [Conf.setW, Function.update_of_ne hj] <;> assumption
    · simp at hs

theorem done_mono {s s' : Conf L E} {m : Move} (hs : s.move m = some s') : s.done.length ≤ s'.done.length := by
  cases m with
  | worker j =>
    simp only [Conf.move, Conf.worker, Option.map_eq_some_iff] at hs
    obtain ⟨⟨w, mem, n⟩, hw, rfl⟩ := hs
    exact le_refl _
  | spuriousClient =>
    simp only [Conf.move] at hs
    split at hs
    · obtain rfl := Option.some.inj hs; exact le_refl _
    · simp at hs
  | spuriousWorker j =>
    simp only [Conf.move] at hs
    split at hs
    · obtain rfl := Option.some.inj hs; exact le_refl _
    · simp at hs
  | client =>
    simp only [Conf.move] at hs
    unfold Conf.client at hs
    (repeat' split at hs) <;> first
      | (simp at hs; done)
      | (obtain rfl := Option.some.inj hs; simp [Conf.setW, Conf.complete])

theorem Stopping.done_eq {k : Nat} {s s' : Conf L E} {m : Move} (h : Stopping k s) (hs : s.move m = some s') :
    (Stopping k s' ∧ s'.done = s.done) ∨ s.done.length < s'.done.length := by
  rcases h.move hs with h' | ⟨-, h', -⟩
  · left
    refine ⟨h', ?_⟩
    cases m with
    | worker j =>
      simp only [Conf.move, Conf.worker, Option.map_eq_some_iff] at hs
      obtain ⟨⟨w, mem, n⟩, hw, rfl⟩ := hs
      rfl
    | spuriousClient =>
      simp only [Conf.move] at hs
      split at hs
      · obtain rfl := Option.some.inj hs; rfl
      · simp at hs
    | spuriousWorker j =>
      simp only [Conf.move] at hs
      split at hs
      · obtain rfl := Option.some.inj hs; rfl
      · simp at hs
    | client =>
      simp only [Conf.move, Conf.client] at hs
      rcases h.cpc with h1 | h1
      · simp only [h1, Option.some.injEq] at hs; subst hs; rfl
      · simp only [h1] at hs
        split at hs
        · obtain rfl := Option.some.inj hs
          rcases h'.cpc with h2 | h2 <;> simp [Conf.complete] at h2
        · simp at hs
  · right; rw [h']; simp

theorem Stopping.steps {k : Nat} {s s' : Conf L E} {ms : List Move} (hs : Steps s ms s') (h : Stopping k s) :
    (Stopping k s' ∧ s'.done = s.done) ∨ s.done.length < s'.done.length := by
  induction hs with
  | nil => exact Or.inl ⟨h, rfl⟩
  | snoc m hst hm ih =>
    rcases ih with ⟨h', e⟩ | h'
    · rcases h'.done_eq hm with ⟨h2, e2⟩ | h2
      · exact Or.inl ⟨h2, e2.trans e⟩
      · exact Or.inr (by rw [← e]; exact h2)
    · exact Or.inr (lt_of_lt_of_le h' (done_mono hm))

/-- The client waits for a worker that is asleep, with no notification to come. -/
theorem lost_move {k : Nat} {s s' : Conf L E} {m : Move} (hc : s.cpc = .desJoin k) (hw : (s.ws k).pc = .asleep)
    (hm : m ≠ .spuriousWorker k) (hs : s.move m = some s') : s'.cpc = .desJoin k ∧ (s'.ws k).pc = .asleep := by
  cases m with
  | client => simp [Conf.move, Conf.client, hc, hw] at hs
  | worker j =>
    simp only [Conf.move, Conf.worker, Option.map_eq_some_iff] at hs
    obtain ⟨⟨w, mem, n⟩, h1, rfl⟩ := hs
    have hj : k ≠ j := by
      rintro rfl
      simp [W.step, hw] at h1
    refine ⟨?_, ?_⟩
    · rw [hc]; cases n <;> simp [CPc.notified]
    · simp only [Conf.setW, Function.update_of_ne hj]; exact hw
  | spuriousClient => simp [Conf.move, hc] at hs
  | spuriousWorker j =>
    have hj : k ≠ j := fun h => hm (by rw [h])
    simp only [Conf.move] at hs
    split at hs
    · obtain rfl := Option.some.inj hs
      exact ⟨hc, by simp only [Conf.setW, Function.update_of_ne hj]; exact hw⟩
    · simp at hs

theorem lost_steps {k : Nat} {s s' : Conf L E} {ms : List Move} (hs : Steps s ms s') (hc : s.cpc = .desJoin k)
    (hw : (s.ws k).pc = .asleep) (hm : Move.spuriousWorker k ∉ ms) : s'.cpc = .desJoin k ∧ (s'.ws k).pc = .asleep := by
  induction hs with
  | nil => exact ⟨hc, hw⟩
  | snoc m _ hmv ih =>
    simp only [List.mem_append, List.mem_singleton, not_or] at hm
    obtain ⟨h1, h2⟩ := ih hm.1
    exact lost_move h1 h2 (fun h => hm.2 h.symm) hmv

theorem Stopping.can_move {k : Nat} {s : Conf L E} (hi : AllInv s) (h : Stopping k s) :
    (s.move .client).isSome = true ∨ (s.move (.worker k)).isSome = true := by
  obtain ⟨h1, h2, h3, h4⟩ := h
  rcases h1 with h1 | h1
  · left; simp [Conf.move, Conf.client, h1]
  · have ha : (s.ws k).pc ≠ .asleep := fun ha => by rw [h4 ha] at h1; simp at h1
    have hv : s.cpc.view k = .away := by rw [h1]; rfl
    have hik := hi k
    rw [hv] at hik
    by_cases hx : (s.ws k).pc = .exited
    · left; simp [Conf.move, Conf.client, h1, hx]
    · right
      simp only [Conf.move, Conf.worker, Option.isSome_map]
      revert h2 h3 ha hx hik
      generalize s.ws k = w
      intro h2 h3 ha hik hx
      obtain ⟨stop, task, lock, pc, loc, sub, st, fin⟩ := w
      obtain ⟨i1, i2, i3, i4, i5, i6⟩ := hik
      simp only at h2
      subst h2
      cases pc with
      | running r => cases r <;> simp [W.step]
      | _ => rcases lock with _ | _ | _ <;> cases task <;> simp_all [W.step, WPc.holds, V.holds, W.taskOk]

end FF.Worker
