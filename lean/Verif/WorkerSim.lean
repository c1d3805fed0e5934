import Verif.WorkerProgress

/-!
# The worker protocol runs the tasks as interleaved threads

Every run of a program in which a worker is waited for between two submissions is, for the shared memory, an interleaved run of one thread
per worker and one for the client.
-/

set_option linter.unusedSimpArgs false

namespace FF.Worker

open FF.Par

variable {L E : Type}

/-- What worker `k` still has to do for operations not yet started. -/
def actsTo (k : Nat) (ops : List (Op L E)) : List (Act L E) := ops.flatMap fun
  | .submit j t => if j = k then t.acts else []
  | _ => []

/-- What the client still has to do itself for operations not yet started. -/
def ownActs (ops : List (Op L E)) : List (Act L E) := ops.flatMap fun
  | .own as => as
  | _ => []

/-- What a worker has still to do of the task it has been given. -/
def W.todo (w : W L E) : List (Act L E) := match w.pc with
  | .running r => r
  | .clear => []
  | _ => match w.task with
    | some t => t.acts
    | none => []

def CPc.todo (c : CPc L E) (k : Nat) : List (Act L E) := match c with
  | .subWrite j t => if j = k then t.acts else []
  | _ => []

def CPc.ownTodo : CPc L E → List (Act L E)
  | .own _ rest => rest
  | _ => []

/-- The threads of a configuration; the client is number `c`. -/
def Conf.par (c : Nat) (s : Conf L E) : State L E where
  rest k := if k = c then s.cpc.ownTodo ++ ownActs s.ops else (s.ws k).todo ++ s.cpc.todo k ++ actsTo k s.ops
  loc k := if k = c then s.cloc else (s.ws k).loc
  mem := s.mem

/-- Between two submissions to a worker it is waited for. -/
def Disciplined (P : List (Op L E)) : Prop := ∀ d k t r, P = d ++ Op.submit k t :: r → idleAfter k d = true

theorem step_todo {w w' : W L E} {v : V} (h : Inv w v) (hst : w.stop = false) {mem mem' : Nat → E} {n : Bool}
    (hs : w.step mem = some (w', mem', n)) :
    (w'.todo = w.todo ∧ w'.loc = w.loc ∧ mem' = mem) ∨
    ∃ a, w.todo = a :: w'.todo ∧ (w'.loc, mem') = a (w.loc, mem) := by
  obtain ⟨stop, task, lock, pc, loc, sub, st, fin⟩ := w
  obtain ⟨h1, h2, h3, h4, h5, h6⟩ := h
  simp only at hst
  subst hst
  cases pc with
  | running r =>
    cases r with
    | nil => simp [W.step] at hs; obtain ⟨rfl, rfl, rfl⟩ := hs; left; simp [W.todo]
    | cons a r => simp [W.step] at hs; obtain ⟨rfl, rfl, rfl⟩ := hs; right; exact ⟨a, rfl, rfl⟩
  | _ =>
    left
    cases task <;> cases lock <;> simp [W.step] at hs <;> obtain ⟨rfl, rfl, rfl⟩ := hs <;> simp_all [W.todo, W.taskOk]

theorem todo_notified (w : W L E) : w.notified.todo = w.todo := by
  obtain ⟨stop, task, lock, pc, loc, sub, st, fin⟩ := w
  cases pc <;> rfl

theorem cnotified_todo (c : CPc L E) (k j : Nat) : (c.notified k).todo j = c.todo j ∧ (c.notified k).ownTodo = c.ownTodo := by
  cases c with
  | waitAsleep i =>
    by_cases h : i = k
    · simp [CPc.notified, CPc.todo, CPc.ownTodo, h]
    · simp [CPc.notified, CPc.todo, CPc.ownTodo, h]
  | _ => exact ⟨rfl, rfl⟩

theorem Inv.todo_none {w : W L E} {v : V} (h : Inv w v) (ht : w.task = none) : w.todo = [] := by
  obtain ⟨stop, task, lock, pc, loc, sub, st, fin⟩ := w
  obtain ⟨h1, h2, h3, h4, h5, h6⟩ := h
  simp only at ht
  subst ht
  cases pc <;> simp_all [W.todo, W.taskOk]

/-- A step of the protocol is no step or one step of one of the threads. -/
theorem sim_move {B : Nat → List Nat} {P : List (Op L E)} (hD : Disciplined P) (c : Nat) {s s' : Conf L E} {m : Move} (hi : AllInv s) (hp : Pos B P s)
    (hst : ∀ k, (s.ws k).stop = false) (hc : ∀ k t, Op.submit k t ∈ P → k ≠ c) (hct : (s.ws c).task = none)
    (hs : s.move m = some s') : s'.par c = s.par c ∨ ∃ j, s'.par c = (s.par c).step j := by
  -- changes of a worker object that do not matter
  have upd : ∀ (k : Nat) (w : W L E), w.todo = (s.ws k).todo → ∀ j, (Function.update s.ws k w j).todo = (s.ws j).todo := by
    intro k w e j
    by_cases hj : j = k
    · subst hj; rw [Function.update_self, e]
    · rw [Function.update_of_ne hj]
  have updl : ∀ (k : Nat) (w : W L E), w.loc = (s.ws k).loc → ∀ j, (Function.update s.ws k w j).loc = (s.ws j).loc := by
    intro k w e j
    by_cases hj : j = k
    · subst hj; rw [Function.update_self, e]
    · rw [Function.update_of_ne hj]
  have ext : ∀ (a b : State L E), a.rest = b.rest → a.loc = b.loc → a.mem = b.mem → a = b := by
    rintro ⟨⟩ ⟨⟩ h1 h2 h3
    simp only at h1 h2 h3
    subst h1 h2 h3
    rfl
  cases m with
  | worker k =>
    simp only [Conf.move, Conf.worker, Option.map_eq_some_iff] at hs
    obtain ⟨⟨w, mem, n⟩, h1, rfl⟩ := hs
    have hcn : ∀ j, (if n = true then s.cpc.notified k else s.cpc).todo j = s.cpc.todo j := by
      intro j; cases n
      · rfl
      · exact (cnotified_todo _ _ _).1
    have hco : (if n = true then s.cpc.notified k else s.cpc).ownTodo = s.cpc.ownTodo := by
      cases n
      · rfl
      · exact (cnotified_todo _ _ 0).2
    rcases step_todo (hi k) (hst k) h1 with ⟨e1, e2, e3⟩ | ⟨a, e1, e2⟩
    · left
      refine ext _ _ ?_ ?_ e3
      · funext j
        simp only [Conf.par, Conf.setW, hcn, hco, upd k w e1]
      · funext j
        simp only [Conf.par, Conf.setW, updl k w e2]
    · right
      refine ⟨k, ?_⟩
      have hkc : k ≠ c := by
        rintro rfl
        rw [(hi k).todo_none hct] at e1
        simp at e1
      have hr : (s.par c).rest k = a :: (w.todo ++ s.cpc.todo k ++ actsTo k s.ops) := by
        simp only [Conf.par, if_neg hkc, e1, List.cons_append]
      have hl : (s.par c).loc k = (s.ws k).loc := by simp only [Conf.par, if_neg hkc]
      unfold State.step
      rw [hr]
      simp only [hl]
      rw [show (s.par c).mem = s.mem from rfl, ← e2]
      refine ext _ _ ?_ ?_ rfl
      · funext j
        simp only [Conf.par, Conf.setW, hcn, hco]
        by_cases hj : j = k
        · subst hj; rw [Function.update_self, Function.update_self, if_neg hkc]
        · rw [Function.update_of_ne hj, Function.update_of_ne hj]
      · funext j
        simp only [Conf.par, Conf.setW]
        by_cases hj : j = k
        · subst hj; rw [Function.update_self, Function.update_self, if_neg hkc]
        · rw [Function.update_of_ne hj, Function.update_of_ne hj]
  | spuriousClient =>
    simp only [Conf.move] at hs
    split at hs
    · rename_i k hk
      obtain rfl := Option.some.inj hs
      left
      refine ext _ _ ?_ rfl rfl
      funext j
      simp only [Conf.par, hk, CPc.ownTodo, CPc.todo]
    · simp at hs
  | spuriousWorker k =>
    simp only [Conf.move] at hs
    split at hs
    · rename_i hk
      obtain rfl := Option.some.inj hs
      left
      refine ext _ _ ?_ ?_ rfl
      · funext j
        simp only [Conf.par, Conf.setW]
        rw [upd k _ (by simp only [W.todo, hk])]
      · funext j
        simp only [Conf.par, Conf.setW]
        rw [updl k _ (by rfl)]
    · simp at hs
  | client =>
    have same : ∀ (k : Nat) (w : W L E) (cpc : CPc L E) (ops done : List (Op L E)), w.todo = (s.ws k).todo → w.loc = (s.ws k).loc →
        cpc.ownTodo ++ ownActs ops = s.cpc.ownTodo ++ ownActs s.ops → (∀ j, cpc.todo j ++ actsTo j ops = s.cpc.todo j ++ actsTo j s.ops) →
        (Conf.mk (Function.update s.ws k w) cpc ops done s.cloc s.mem).par c = s.par c := by
      intro k w cpc ops done e1 e2 e3 e4
      refine ext _ _ ?_ ?_ rfl
      · funext j
        simp only [Conf.par, upd k w e1, List.append_assoc, e3, e4]
      · funext j
        simp only [Conf.par, updl k w e2]
    simp only [Conf.move] at hs
    unfold Conf.client at hs
    split at hs
    · rename_i hcpc
      split at hs
      · simp at hs
      · rename_i k t ops hops
        split at hs
        · obtain rfl := Option.some.inj hs
          left
          exact same _ _ _ _ _ rfl rfl (by simp [hcpc, hops, CPc.ownTodo, ownActs]) (by simp [hcpc, hops, CPc.todo, actsTo])
        · simp at hs
      · rename_i k ops hops
        split at hs
        · obtain rfl := Option.some.inj hs
          left
          exact same _ _ _ _ _ rfl rfl (by simp [hcpc, hops, CPc.ownTodo, ownActs]) (by simp [hcpc, hops, CPc.todo, actsTo])
        · simp at hs
      · rename_i as ops hops
        obtain rfl := Option.some.inj hs
        left
        refine ext _ _ ?_ rfl rfl
        funext j
        simp [Conf.par, hcpc, hops, CPc.ownTodo, ownActs, CPc.todo, actsTo]
      · rename_i k ops hops
        obtain rfl := Option.some.inj hs
        left
        exact same _ _ _ _ _ rfl rfl (by simp [hcpc, hops, CPc.ownTodo, ownActs]) (by simp [hcpc, hops, CPc.todo, actsTo])
    · rename_i k t hcpc
      obtain rfl := Option.some.inj hs
      left
      have hP : P = s.done ++ Op.submit k t :: s.ops := by
        rw [← hp.prog, hcpc]; simp [CPc.cur]
      have hk := hp.idle k (hD _ _ _ _ hP) (by simp [hcpc, CPc.view]) (by simp [hcpc, CPc.view])
      have hkc : k ≠ c := hc k t (by rw [hP]; simp)
      have ht := (hi k).todo_none hk
      have hpc : (match (s.ws k).pc with
        | .running _ | .clear => False
        | _ => True) := by
        have := (hi k).taskOk
        revert this
        unfold W.taskOk
        rw [hk]
        cases (s.ws k).pc <;> simp
      refine ext _ _ ?_ ?_ rfl
      · funext j
        simp only [Conf.par, Conf.setW, hcpc, CPc.ownTodo, CPc.todo]
        by_cases hj : j = k
        · subst hj
          rw [Function.update_self, if_neg hkc, if_neg hkc, ht, if_pos rfl]
          simp only [W.todo]
          revert hpc
          cases (s.ws j).pc <;> simp
        · rw [Function.update_of_ne hj, if_neg (Ne.symm hj)]
      · funext j
        simp only [Conf.par, Conf.setW]
        rw [updl k _ (by rfl)]
    · rename_i k t hcpc
      obtain rfl := Option.some.inj hs
      left
      exact same _ _ _ _ _ rfl rfl (by simp [hcpc, CPc.ownTodo, Conf.setW, Conf.complete]) (by simp [hcpc, CPc.todo, Conf.setW, Conf.complete])
    · rename_i k t hcpc
      obtain rfl := Option.some.inj hs
      left
      exact same _ _ _ _ _ (todo_notified _) (notified_fields _).2.2.2.2.1 (by simp [hcpc, CPc.ownTodo, Conf.setW, Conf.complete]) (by simp [hcpc, CPc.todo, Conf.setW, Conf.complete])
    · rename_i k hcpc
      obtain rfl := Option.some.inj hs
      left
      refine ext _ _ ?_ rfl rfl
      funext j
      simp only [Conf.par, hcpc]
      cases (s.ws k).task <;> simp [CPc.ownTodo, CPc.todo]
    · rename_i k hcpc
      obtain rfl := Option.some.inj hs
      left
      exact same _ _ _ _ _ rfl rfl (by simp [hcpc, CPc.ownTodo, Conf.setW, Conf.complete]) (by simp [hcpc, CPc.todo, Conf.setW, Conf.complete])
    · simp at hs
    · rename_i k hcpc
      split at hs
      · obtain rfl := Option.some.inj hs
        left
        exact same _ _ _ _ _ rfl rfl (by simp [hcpc, CPc.ownTodo, Conf.setW, Conf.complete]) (by simp [hcpc, CPc.todo, Conf.setW, Conf.complete])
      · simp at hs
    · rename_i k hcpc
      obtain rfl := Option.some.inj hs
      left
      exact same _ _ _ _ _ rfl rfl (by simp [hcpc, CPc.ownTodo, Conf.setW, Conf.complete]) (by simp [hcpc, CPc.todo, Conf.setW, Conf.complete])
    · rename_i as a rest hcpc
      obtain rfl := Option.some.inj hs
      right
      refine ⟨c, ?_⟩
      have hr : (s.par c).rest c = a :: (rest ++ ownActs s.ops) := by simp [Conf.par, hcpc, CPc.ownTodo]
      have hl : (s.par c).loc c = s.cloc := by simp [Conf.par]
      unfold State.step
      rw [hr]
      simp only [hl]
      rw [show (s.par c).mem = s.mem from rfl]
      refine ext _ _ ?_ ?_ rfl
      · funext j
        simp only [Conf.par]
        by_cases hj : j = c
        · subst hj; simp [CPc.ownTodo]
        · rw [Function.update_of_ne hj, if_neg hj, if_neg hj]
          simp [hcpc, CPc.todo]
      · funext j
        simp only [Conf.par]
        by_cases hj : j = c
        · subst hj; simp
        · rw [Function.update_of_ne hj, if_neg hj, if_neg hj]
    · rename_i as hcpc
      obtain rfl := Option.some.inj hs
      left
      refine ext _ _ ?_ rfl rfl
      funext j
      simp [Conf.par, Conf.complete, hcpc, CPc.ownTodo, CPc.todo]
    · rename_i k hcpc
      obtain rfl := Option.some.inj hs
      left
      exact same _ _ _ _ _ (todo_notified _) (notified_fields _).2.2.2.2.1 (by simp [hcpc, CPc.ownTodo, Conf.setW, Conf.complete]) (by simp [hcpc, CPc.todo, Conf.setW, Conf.complete])
    · rename_i k hcpc
      split at hs
      · obtain rfl := Option.some.inj hs
        left
        refine ext _ _ ?_ rfl rfl
        funext j
        simp [Conf.par, Conf.complete, hcpc, CPc.ownTodo, CPc.todo]
      · simp at hs

/-- The pool is at rest and the client is about to run `P`. -/
structure AtRest (P : List (Op L E)) (s : Conf L E) : Prop where
  inv : AllInv s
  cpc : s.cpc = .next
  ops : s.ops = P
  idle : ∀ k, (s.ws k).task = none ∧ (s.ws k).stop = false

theorem AtRest.fresh (P : List (Op L E)) (loc : Nat → L) (cloc : L) (mem : Nat → E) : AtRest P (Conf.fresh P loc cloc mem) :=
  ⟨AllInv.fresh _ _ _ _, rfl, rfl, fun _ => ⟨rfl, rfl⟩⟩

theorem exec_of_run {progs : Nat → List (Act L E)} {s : State L E} {m m' : Nat → E} {sched : List Nat} (hr : s.rest = progs)
    (hm : s.mem = m) (hdone : ∀ j, (s.run sched).rest j = []) (hm' : (s.run sched).mem = m') : Exec progs m m' := by
  obtain ⟨r, l, mm⟩ := s
  simp only at hr hm
  subst hr hm
  exact ⟨l, sched, hdone, hm'⟩

/-- Worker `c` has no task as long as none is submitted to it. -/
theorem task_none_steps {B : Nat → List Nat} {c : Nat} {P : List (Op L E)} (hc : ∀ k t, Op.submit k t ∈ P → k ≠ c) {s s' : Conf L E} {ms : List Move}
    (hi : AllInv s) (hp : Pos B P s) (hs : Steps s ms s') : (s'.ws c).task = none := by
  have hp' := hp.steps hs hi
  have hno : ∀ d : List (Op L E), (∀ k t, Op.submit k t ∈ d → k ≠ c) → idleAfter c d = true := by
    intro d
    induction d using List.reverseRecOn with
    | nil => intro _; rfl
    | append_singleton d op ih =>
      intro h
      have ih := ih (fun k t hk => h k t (by simp [hk]))
      rw [idleAfter_snoc]
      cases op with
      | submit k t => simp only; rw [if_neg (h k t (by simp))]; exact ih
      | wait k => simp only; split <;> [rfl; exact ih]
      | own as => exact ih
      | destroy k => exact ih
  have hcur : ∀ k t, Op.submit k t ∈ s'.cpc.cur → k ≠ c := fun k t hk => hc k t (by rw [← hp'.prog]; simp [hk])
  have hv : s'.cpc.view c ≠ .release ∧ s'.cpc.view c ≠ .notify := by
    revert hcur
    cases s'.cpc with
    | subRelease k t => intro h; simp [CPc.view, h k t (by simp [CPc.cur])]
    | subNotify k t => intro h; simp [CPc.view, h k t (by simp [CPc.cur])]
    | _ => intro _; simp only [CPc.view]; constructor <;> (try split) <;> simp
  exact hp'.idle c (hno _ fun k t hk => hc k t (by rw [← hp'.prog]; simp [hk])) hv.1 hv.2

theorem sim_steps {B : Nat → List Nat} {P : List (Op L E)} (hD : Disciplined P) (c : Nat) (hc : ∀ k t, Op.submit k t ∈ P → k ≠ c)
    (hP : ∀ op ∈ P, Op.isDestroy op = false) {s s' : Conf L E} {ms : List Move} (hs : Steps s ms s') (hi : AllInv s) (hp : Pos B P s)
    (hst : ∀ k, (s.ws k).stop = false) : ∃ sched, s'.par c = (s.par c).run sched := by
  induction hs with
  | nil => exact ⟨[], rfl⟩
  | @snoc s' s'' ms m hsteps hmv ih =>
    obtain ⟨sched, ih⟩ := ih
    rcases sim_move hD c (hi.steps hsteps) (hp.steps hsteps hi) (stop_steps hP hsteps hi hp hst) hc (task_none_steps hc hi hp hsteps) hmv with
      h | ⟨j, h⟩
    · exact ⟨sched, by rw [h, ih]⟩
    · refine ⟨sched ++ [j], ?_⟩
      rw [h, ih]
      simp [State.run, List.foldl_append]

end FF.Worker
