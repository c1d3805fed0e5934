import Verif.Worker

/-!
# Invariants of the worker protocol
-/

set_option linter.unusedSimpArgs false

namespace FF.Worker

open FF.Par

variable {L E : Type}

/-- What one worker sees of the client. -/
inductive V where
  | away | write | release | notify | test | willSleep | asleep | woken | wRelease
deriving DecidableEq

def CPc.view : CPc L E → Nat → V
  | .subWrite k _, j => if k = j then .write else .away
  | .subRelease k _, j => if k = j then .release else .away
  | .subNotify k _, j => if k = j then .notify else .away
  | .waitTest k, j => if k = j then .test else .away
  | .waitWillSleep k, j => if k = j then .willSleep else .away
  | .waitAsleep k, j => if k = j then .asleep else .away
  | .waitWoken k, j => if k = j then .woken else .away
  | .waitRelease k, j => if k = j then .wRelease else .away
  | _, _ => .away

def V.holds : V → Bool
  | .write | .release | .test | .willSleep | .wRelease => true
  | _ => false

def V.notified : V → V
  | .asleep => .woken
  | v => v

def WPc.holds : WPc L E → Bool
  | .test | .willSleep | .testStop | .running _ | .clear | .release | .exitRelease => true
  | _ => false

def W.taskOk (w : W L E) : Prop := match w.pc with
  | .willSleep | .release => w.task = none
  | .testStop => w.task.isSome = true ∨ w.stop = true
  | .running _ | .clear => w.task.isSome = true
  | .exitRelease | .exited => w.stop = true
  | _ => True

def W.wakeOk (w : W L E) (v : V) : Prop := match w.pc with
  | .asleep => w.task.isSome = true → v = .release ∨ v = .notify
  | _ => True

def W.waitOk (w : W L E) : V → Prop
  | .asleep => w.task = none → (match w.pc with | .release | .notify => True | _ => False)
  | .willSleep => w.task.isSome = true
  | .wRelease => w.task = none
  | .release => w.task.isSome = true
  | _ => True

/-- How the records fit the task slot. -/
def W.hist (w : W L E) : Prop := match w.task with
  | none => w.started = w.finished ∧ List.Sublist w.finished w.submitted ∧ w.submitted.getLast? = w.finished.getLast?
  | some t => ∃ pre, w.submitted = pre ++ [t.id] ∧ match w.pc with
    | .running _ => w.started = w.finished ++ [t.id] ∧ List.Sublist w.finished pre
    | .clear => ∃ f, w.started = f ++ [t.id] ∧ w.finished = f ++ [t.id] ∧ List.Sublist f pre
    | _ => w.started = w.finished ∧ List.Sublist w.finished pre

structure Inv (w : W L E) (v : V) : Prop where
  lockW : w.lock = some true ↔ w.pc.holds = true
  lockC : w.lock = some false ↔ v.holds = true
  taskOk : w.taskOk
  wakeOk : w.wakeOk v
  waitOk : w.waitOk v
  hist : w.hist

theorem Inv.of_fresh (l : L) : Inv (W.fresh l : W L E) .away := by
  constructor <;> simp [W.fresh, WPc.holds, V.holds, W.taskOk, W.wakeOk, W.waitOk, W.hist]

theorem Inv.step {w w' : W L E} {v : V} {mem mem' : Nat → E} {n : Bool} (h : Inv w v) (hs : w.step mem = some (w', mem', n)) :
    Inv w' (if n then v.notified else v) := by
  obtain ⟨stop, task, lock, pc, loc, sub, st, fin⟩ := w
  obtain ⟨h1, h2, h3, h4, h5, h6⟩ := h
  cases pc with
  | acquire =>
    cases lock <;> simp [W.step] at hs
    obtain ⟨rfl, rfl, rfl⟩ := hs
    cases task <;> cases v <;> constructor <;> simp_all [WPc.holds, V.holds, W.taskOk, W.wakeOk, W.waitOk, W.hist]
  | test =>
    cases task <;> cases stop <;> simp [W.step] at hs <;> obtain ⟨rfl, rfl, rfl⟩ := hs <;>
    cases v <;> constructor <;> simp_all [WPc.holds, V.holds, W.taskOk, W.wakeOk, W.waitOk, W.hist]
  | willSleep =>
    simp [W.step] at hs
    obtain ⟨rfl, rfl, rfl⟩ := hs
    cases task <;> cases v <;> constructor <;> simp_all [WPc.holds, V.holds, W.taskOk, W.wakeOk, W.waitOk, W.hist]
  | asleep => simp [W.step] at hs
  | woken =>
    cases lock <;> simp [W.step] at hs
    obtain ⟨rfl, rfl, rfl⟩ := hs
    cases task <;> cases v <;> constructor <;> simp_all [WPc.holds, V.holds, W.taskOk, W.wakeOk, W.waitOk, W.hist]
  | testStop =>
    cases task <;> cases stop <;> simp [W.step] at hs <;> obtain ⟨rfl, rfl, rfl⟩ := hs <;>
    cases v <;> constructor <;> simp_all [WPc.holds, V.holds, W.taskOk, W.wakeOk, W.waitOk, W.hist]
  | running r =>
    cases r with
    | cons a r =>
      simp [W.step] at hs
      obtain ⟨rfl, rfl, rfl⟩ := hs
      cases task <;> cases v <;> constructor <;> simp_all [WPc.holds, V.holds, W.taskOk, W.wakeOk, W.waitOk, W.hist]
    | nil =>
      simp [W.step] at hs
      obtain ⟨rfl, rfl, rfl⟩ := hs
      cases task <;> cases v <;> constructor <;> simp_all [WPc.holds, V.holds, W.taskOk, W.wakeOk, W.waitOk, W.hist]
  | clear =>
    simp [W.step] at hs
    obtain ⟨rfl, rfl, rfl⟩ := hs
    cases task with
    | none => simp [W.taskOk] at h3
    | some t =>
      refine ⟨by simpa [WPc.holds] using h1, by simpa [WPc.holds] using h2, rfl, trivial, ?_, ?_⟩
      · cases v <;> simp_all [WPc.holds, V.holds, W.waitOk]
      · obtain ⟨pre, e1, f, e2, e3, e4⟩ := h6
        simp only [] at e1 e2 e3
        subst e1 e2 e3
        refine ⟨rfl, ?_, by simp⟩
        exact List.Sublist.append_right e4 _
  | release =>
    simp [W.step] at hs
    obtain ⟨rfl, rfl, rfl⟩ := hs
    cases task <;> cases v <;> constructor <;> simp_all [WPc.holds, V.holds, W.taskOk, W.wakeOk, W.waitOk, W.hist]
  | notify =>
    simp [W.step] at hs
    obtain ⟨rfl, rfl, rfl⟩ := hs
    cases task <;> cases v <;> constructor <;> simp_all [WPc.holds, V.holds, V.notified, W.taskOk, W.wakeOk, W.waitOk, W.hist]
  | exitRelease =>
    simp [W.step] at hs
    obtain ⟨rfl, rfl, rfl⟩ := hs
    cases task <;> cases v <;> constructor <;> simp_all [WPc.holds, V.holds, W.taskOk, W.wakeOk, W.waitOk, W.hist]
  | exited => simp [W.step] at hs

/-! ## Moves of the client, seen by one worker -/

theorem Inv.lock_write {w : W L E} (h : Inv w .away) (hl : w.lock = none) : Inv { w with lock := some false } .write := by
  obtain ⟨stop, task, lock, pc, loc, sub, st, fin⟩ := w
  obtain ⟨h1, h2, h3, h4, h5, h6⟩ := h
  simp only at hl
  subst hl
  cases task <;> cases pc <;> constructor <;> simp_all [WPc.holds, V.holds, W.taskOk, W.wakeOk, W.waitOk, W.hist]

theorem Inv.lock_test {w : W L E} (h : Inv w .away) (hl : w.lock = none) : Inv { w with lock := some false } .test := by
  obtain ⟨stop, task, lock, pc, loc, sub, st, fin⟩ := w
  obtain ⟨h1, h2, h3, h4, h5, h6⟩ := h
  simp only at hl
  subst hl
  cases task <;> cases pc <;> constructor <;> simp_all [WPc.holds, V.holds, W.taskOk, W.wakeOk, W.waitOk, W.hist]

theorem Inv.relock_test {w : W L E} (h : Inv w .woken) (hl : w.lock = none) : Inv { w with lock := some false } .test := by
  obtain ⟨stop, task, lock, pc, loc, sub, st, fin⟩ := w
  obtain ⟨h1, h2, h3, h4, h5, h6⟩ := h
  simp only at hl
  subst hl
  cases task <;> cases pc <;> constructor <;> simp_all [WPc.holds, V.holds, W.taskOk, W.wakeOk, W.waitOk, W.hist]

theorem Inv.write {w : W L E} (h : Inv w .write) (t : Task L E) :
    Inv { w with task := some t, submitted := w.submitted ++ [t.id] } .release := by
  obtain ⟨stop, task, lock, pc, loc, sub, st, fin⟩ := w
  obtain ⟨h1, h2, h3, h4, h5, h6⟩ := h
  have hlock : lock = some false := h2.2 rfl
  subst hlock
  have key : sub = sub ∧ st = fin ∧ List.Sublist fin sub := by
    refine ⟨rfl, ?_⟩
    cases task with
    | none => exact ⟨h6.1, h6.2.1⟩
    | some t0 =>
      obtain ⟨pre, e, h⟩ := h6
      simp only at e
      subst e
      cases pc <;> simp_all [WPc.holds]
  cases pc <;> constructor <;> simp_all [WPc.holds, V.holds, W.taskOk, W.wakeOk, W.waitOk, W.hist]

theorem Inv.release {w : W L E} (h : Inv w .release) : Inv { w with lock := none } .notify := by
  obtain ⟨stop, task, lock, pc, loc, sub, st, fin⟩ := w
  obtain ⟨h1, h2, h3, h4, h5, h6⟩ := h
  have hlock : lock = some false := h2.2 rfl
  subst hlock
  cases task <;> cases pc <;> constructor <;> simp_all [WPc.holds, V.holds, W.taskOk, W.wakeOk, W.waitOk, W.hist]

theorem Inv.notify {w : W L E} (h : Inv w .notify) : Inv w.notified .away := by
  obtain ⟨stop, task, lock, pc, loc, sub, st, fin⟩ := w
  obtain ⟨h1, h2, h3, h4, h5, h6⟩ := h
  cases task <;> cases pc <;> constructor <;> simp_all [WPc.holds, V.holds, W.taskOk, W.wakeOk, W.waitOk, W.hist, W.notified]

theorem Inv.notify_away {w : W L E} (h : Inv w .away) : Inv w.notified .away := by
  obtain ⟨stop, task, lock, pc, loc, sub, st, fin⟩ := w
  obtain ⟨h1, h2, h3, h4, h5, h6⟩ := h
  cases task <;> cases pc <;> constructor <;> simp_all [WPc.holds, V.holds, W.taskOk, W.wakeOk, W.waitOk, W.hist, W.notified]

theorem Inv.test_some {w : W L E} (h : Inv w .test) (ht : w.task.isSome = true) : Inv w .willSleep := by
  obtain ⟨h1, h2, h3, h4, h5, h6⟩ := h
  refine ⟨h1, h2, h3, ?_, ht, h6⟩
  unfold W.wakeOk at h4 ⊢
  split <;> simp_all

theorem Inv.test_none {w : W L E} (h : Inv w .test) (ht : w.task = none) : Inv w .wRelease := by
  obtain ⟨h1, h2, h3, h4, h5, h6⟩ := h
  refine ⟨h1, h2, h3, ?_, ht, h6⟩
  unfold W.wakeOk at h4 ⊢
  split <;> simp_all

theorem Inv.sleep {w : W L E} (h : Inv w .willSleep) : Inv { w with lock := none } .asleep := by
  obtain ⟨stop, task, lock, pc, loc, sub, st, fin⟩ := w
  obtain ⟨h1, h2, h3, h4, h5, h6⟩ := h
  have hlock : lock = some false := h2.2 rfl
  subst hlock
  cases task <;> cases pc <;> constructor <;> simp_all [WPc.holds, V.holds, W.taskOk, W.wakeOk, W.waitOk, W.hist]

theorem Inv.wake {w : W L E} (h : Inv w .asleep) : Inv w .woken := by
  obtain ⟨stop, task, lock, pc, loc, sub, st, fin⟩ := w
  obtain ⟨h1, h2, h3, h4, h5, h6⟩ := h
  cases task <;> cases pc <;> constructor <;> simp_all [WPc.holds, V.holds, W.taskOk, W.wakeOk, W.waitOk, W.hist]

theorem Inv.wait_release {w : W L E} (h : Inv w .wRelease) : Inv { w with lock := none } .away := by
  obtain ⟨stop, task, lock, pc, loc, sub, st, fin⟩ := w
  obtain ⟨h1, h2, h3, h4, h5, h6⟩ := h
  have hlock : lock = some false := h2.2 rfl
  subst hlock
  cases task <;> cases pc <;> constructor <;> simp_all [WPc.holds, V.holds, W.taskOk, W.wakeOk, W.waitOk, W.hist]

theorem Inv.set_stop {w : W L E} {v : V} (h : Inv w v) : Inv { w with stop := true } v := by
  obtain ⟨stop, task, lock, pc, loc, sub, st, fin⟩ := w
  obtain ⟨h1, h2, h3, h4, h5, h6⟩ := h
  cases pc <;> constructor <;> simp_all [WPc.holds, V.holds, W.taskOk, W.wakeOk, W.waitOk, W.hist]

theorem Inv.wake_worker {w : W L E} {v : V} (h : Inv w v) (hp : w.pc = .asleep) : Inv { w with pc := .woken } v := by
  obtain ⟨stop, task, lock, pc, loc, sub, st, fin⟩ := w
  obtain ⟨h1, h2, h3, h4, h5, h6⟩ := h
  simp only at hp
  subst hp
  cases task <;> cases v <;> constructor <;> simp_all [WPc.holds, V.holds, W.taskOk, W.wakeOk, W.waitOk, W.hist]

/-! ## All configurations -/

def AllInv (s : Conf L E) : Prop := ∀ k, Inv (s.ws k) (s.cpc.view k)

theorem view_notified (c : CPc L E) (k j : Nat) : (c.notified k).view j = if j = k then (c.view j).notified else c.view j := by
  cases c with
  | waitAsleep k' =>
    unfold CPc.notified
    by_cases h : k' = k
    · subst h
      by_cases hj : k' = j
      · subst hj; simp [CPc.view, V.notified]
      · simp [CPc.view, V.notified, hj, Ne.symm hj]
    · by_cases hj : k' = j
      · subst hj; simp [CPc.view, h]
      · simp [CPc.view, V.notified, hj, h]
  | _ => 
    simp only [CPc.notified, CPc.view]
    repeat' split
    all_goals simp_all [V.notified]

theorem AllInv.set {s : Conf L E} {k : Nat} {w : W L E} {c : CPc L E} (h : AllInv s) (hw : Inv w (c.view k))
    (hc : ∀ j, j ≠ k → c.view j = s.cpc.view j) (j : Nat) : Inv (Function.update s.ws k w j) (c.view j) := by
  by_cases hj : j = k
  · subst hj; rw [Function.update_self]; exact hw
  · rw [Function.update_of_ne hj, hc j hj]; exact h j

theorem AllInv.client {s s' : Conf L E} (h : AllInv s) (hs : s.client = some s') : AllInv s' := by
  obtain ⟨ws, cpc, ops, done, cloc, mem⟩ := s
  cases cpc with
  | next =>
    cases ops with
    | nil => simp [Conf.client] at hs
    | cons op ops =>
      cases op with
      | submit k t =>
        by_cases hl : (ws k).lock = none
        · simp [Conf.client, hl] at hs
          subst hs
          exact h.set (by simp only [CPc.view, if_true]; exact (h k).lock_write hl) (fun j hj => by simp [CPc.view, Ne.symm hj])
        · simp [Conf.client, hl] at hs
      | wait k =>
        by_cases hl : (ws k).lock = none
        · simp [Conf.client, hl] at hs
          subst hs
          exact h.set (by simp only [CPc.view, if_true]; exact (h k).lock_test hl) (fun j hj => by simp [CPc.view, Ne.symm hj])
        · simp [Conf.client, hl] at hs
      | own as =>
        simp [Conf.client] at hs
        subst hs
        exact h
      | destroy k =>
        simp [Conf.client] at hs
        subst hs
        exact h.set (by simp only [CPc.view]; exact (h k).set_stop) (fun j hj => by simp [CPc.view])
  | subWrite k t =>
    simp [Conf.client] at hs
    subst hs
    have hk := h k
    simp only [CPc.view, if_true] at hk
    exact h.set (by simp only [CPc.view, if_true]; exact hk.write t) (fun j hj => by simp [CPc.view, Ne.symm hj])
  | subRelease k t =>
    simp [Conf.client] at hs
    subst hs
    have hk := h k
    simp only [CPc.view, if_true] at hk
    exact h.set (by simp only [CPc.view, if_true]; exact hk.release) (fun j hj => by simp [CPc.view, Ne.symm hj])
  | subNotify k t =>
    simp [Conf.client, Conf.complete, Conf.setW] at hs
    subst hs
    have hk := h k
    simp only [CPc.view, if_true] at hk
    exact h.set (by simp only [CPc.view, if_true]; exact hk.notify) (fun j hj => by simp [CPc.view, Ne.symm hj])
  | waitTest k =>
    simp [Conf.client] at hs
    subst hs
    have hk := h k
    simp only [CPc.view, if_true] at hk
    intro j
    by_cases hj : j = k
    · subst hj
      cases ht : (ws j).task with
      | none => simp only [CPc.view, if_true]; exact hk.test_none ht
      | some t => simp only [CPc.view, if_true, reduceCtorEq, if_false]; exact hk.test_some (by rw [ht]; rfl)
    · have := h j
      simp only [CPc.view, if_neg (Ne.symm hj)] at this
      simp only
      split <;> simpa only [CPc.view, if_neg (Ne.symm hj)] using this
  | waitWillSleep k =>
    simp [Conf.client] at hs
    subst hs
    have hk := h k
    simp only [CPc.view, if_true] at hk
    exact h.set (by simp only [CPc.view, if_true]; exact hk.sleep) (fun j hj => by simp [CPc.view, Ne.symm hj])
  | waitAsleep k => simp [Conf.client] at hs
  | waitWoken k =>
    by_cases hl : (ws k).lock = none
    · simp [Conf.client, hl] at hs
      subst hs
      have hk := h k
      simp only [CPc.view, if_true] at hk
      exact h.set (by simp only [CPc.view, if_true]; exact hk.relock_test hl) (fun j hj => by simp [CPc.view, Ne.symm hj])
    · simp [Conf.client, hl] at hs
  | waitRelease k =>
    simp [Conf.client, Conf.complete, Conf.setW] at hs
    subst hs
    have hk := h k
    simp only [CPc.view, if_true] at hk
    exact h.set (by simp only [CPc.view, if_true]; exact hk.wait_release) (fun j hj => by simp [CPc.view, Ne.symm hj])
  | own as rest =>
    cases rest with
    | nil => simp [Conf.client, Conf.complete] at hs; subst hs; exact h
    | cons a rest => simp [Conf.client] at hs; subst hs; exact h
  | desNotify k =>
    simp [Conf.client, Conf.complete, Conf.setW] at hs
    subst hs
    exact h.set (by simp only [CPc.view]; exact Inv.notify_away (h k)) (fun j hj => by simp [CPc.view])
  | desJoin k =>
    simp only [Conf.client] at hs
    split at hs
    · simp [Conf.complete] at hs; subst hs; exact h
    · simp at hs

theorem AllInv.worker {s s' : Conf L E} {k : Nat} (h : AllInv s) (hs : s.worker k = some s') : AllInv s' := by
  simp only [Conf.worker, Option.map_eq_some_iff] at hs
  obtain ⟨⟨w, mem, n⟩, h1, rfl⟩ := hs
  have := (h k).step h1
  refine AllInv.set h ?_ ?_
  · cases n
    · simpa using this
    · simpa [view_notified] using this
  · intro j hj
    cases n
    · simp
    · simp [view_notified, hj]

theorem AllInv.move {s s' : Conf L E} {m : Move} (h : AllInv s) (hs : s.move m = some s') : AllInv s' := by
  cases m with
  | client => exact h.client hs
  | worker k => exact h.worker hs
  | spuriousClient =>
    simp only [Conf.move] at hs
    split at hs
    · rename_i k hk
      obtain rfl := Option.some.inj hs
      intro j
      have hj := h j
      rw [hk] at hj
      by_cases hjk : k = j
      · subst hjk
        simp only [CPc.view, if_true] at hj ⊢
        exact hj.wake
      · simp only [CPc.view, if_neg hjk] at hj ⊢
        exact hj
    · simp at hs
  | spuriousWorker k =>
    simp only [Conf.move] at hs
    split at hs
    · rename_i hk
      obtain rfl := Option.some.inj hs
      exact AllInv.set h ((h k).wake_worker hk) (fun _ _ => rfl)
    · simp at hs

theorem AllInv.steps {s s' : Conf L E} {ms : List Move} (hs : Steps s ms s') (h : AllInv s) : AllInv s' := by
  induction hs with
  | nil => exact h
  | snoc m _ hm ih => exact ih.move hm

theorem AllInv.fresh (ops : List (Op L E)) (loc : Nat → L) (cloc : L) (mem : Nat → E) : AllInv (Conf.fresh ops loc cloc mem) :=
  fun k => Inv.of_fresh (loc k)

theorem steps_of_run {s : Conf L E} : ∀ {ms : List Move} {s' : Conf L E}, s.runMoves ms = some s' → Steps s ms s' := by
  intro ms
  induction ms using List.reverseRecOn with
  | nil => intro s' h; obtain rfl := Option.some.inj h; exact .nil _
  | append_singleton ms m ih =>
    intro s' h
    unfold Conf.runMoves at h ih
    rw [List.foldlM_append, Option.bind_eq_bind, Option.bind_eq_some_iff] at h
    obtain ⟨s1, h1, h2⟩ := h
    refine .snoc m (ih h1) ?_
    simpa using h2

theorem Steps.trans {s s' s'' : Conf L E} {ms ms' : List Move} (h : Steps s ms s') (h' : Steps s' ms' s'') : Steps s (ms ++ ms') s'' := by
  induction h' with
  | nil => simpa using h
  | snoc m _ hm ih => rw [← List.append_assoc]; exact .snoc m ih hm

end FF.Worker
