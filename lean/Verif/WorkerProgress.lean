import Verif.WorkerProof
import Mathlib.Algebra.BigOperators.Group.Finset.Basic
import Mathlib.Algebra.Order.BigOperators.Group.Finset

/-!
# The worker protocol: what has been done, no deadlock, bounded number of steps
-/

set_option linter.unusedSimpArgs false

namespace FF.Worker

open FF.Par

variable {L E : Type}

/-- The operation in progress. -/
def CPc.cur : CPc L E → List (Op L E)
  | .next => []
  | .subWrite k t | .subRelease k t | .subNotify k t => [.submit k t]
  | .waitTest k | .waitWillSleep k | .waitAsleep k | .waitWoken k | .waitRelease k => [.wait k]
  | .own as _ => [.own as]
  | .desNotify k | .desJoin k => [.destroy k]

/-- The names of the tasks submitted to worker `k` by the operations, in order. -/
def subsTo (k : Nat) (ops : List (Op L E)) : List Nat := ops.flatMap fun
  | .submit j t => if j = k then [t.id] else []
  | _ => []

/-- No task has been submitted to worker `k` since the last time it was waited for. -/
def idleAfter (k : Nat) (ops : List (Op L E)) : Bool := ops.foldl (fun b op => match op with
  | .submit j _ => if j = k then false else b
  | .wait j => if j = k then true else b
  | _ => b) true

theorem subsTo_append (k : Nat) (a b : List (Op L E)) : subsTo k (a ++ b) = subsTo k a ++ subsTo k b := List.flatMap_append

theorem idleAfter_snoc (k : Nat) (a : List (Op L E)) (op : Op L E) : idleAfter k (a ++ [op]) = match op with
  | .submit j _ => if j = k then false else idleAfter k a
  | .wait j => if j = k then true else idleAfter k a
  | _ => idleAfter k a := by
  unfold idleAfter
  rw [List.foldl_append]
  cases op <;> rfl

theorem cur_notified (c : CPc L E) (k : Nat) : (c.notified k).cur = c.cur := by
  cases c with
  | waitAsleep j =>
    by_cases h : j = k
    · simp [CPc.notified, CPc.cur, h]
    · simp [CPc.notified, CPc.cur, h]
  | _ => rfl

/-- What a worker's part of a configuration owes to the operations. -/
structure Pos (B : Nat → List Nat) (P : List (Op L E)) (s : Conf L E) : Prop where
  prog : s.done ++ s.cpc.cur ++ s.ops = P
  subs : ∀ k, (s.ws k).submitted = B k ++ subsTo k s.done ++ (match s.cpc with
    | .subRelease j t | .subNotify j t => subsTo k [Op.submit (L := L) (E := E) j t]
    | _ => [])
  idle : ∀ k, idleAfter k s.done = true → s.cpc.view k ≠ .release → s.cpc.view k ≠ .notify → (s.ws k).task = none

theorem step_task {w w' : W L E} {mem mem' : Nat → E} {n : Bool} (hs : w.step mem = some (w', mem', n)) :
    w'.submitted = w.submitted ∧ (w'.task = w.task ∨ w'.task = none) ∧ w'.stop = w.stop := by
  obtain ⟨stop, task, lock, pc, loc, sub, st, fin⟩ := w
  cases pc with
  | running r => cases r <;> simp [W.step] at hs <;> obtain ⟨rfl, rfl, rfl⟩ := hs <;> simp
  | _ =>
    cases task <;> cases stop <;> cases lock <;> simp [W.step] at hs <;> obtain ⟨rfl, rfl, rfl⟩ := hs <;> simp

theorem notified_fields (w : W L E) : w.notified.submitted = w.submitted ∧ w.notified.task = w.task ∧ w.notified.stop = w.stop ∧
    w.notified.lock = w.lock ∧ w.notified.loc = w.loc ∧ w.notified.finished = w.finished ∧ w.notified.started = w.started := by
  unfold W.notified
  split <;> simp

theorem Pos.worker {B : Nat → List Nat} {P : List (Op L E)} {s s' : Conf L E} {k : Nat} (h : Pos B P s) (hs : s.worker k = some s') : Pos B P s' := by
  simp only [Conf.worker, Option.map_eq_some_iff] at hs
  obtain ⟨⟨w, mem, n⟩, h1, rfl⟩ := hs
  obtain ⟨e1, e2, -⟩ := step_task h1
  obtain ⟨p1, p2, p3⟩ := h
  have hcur : (if n = true then s.cpc.notified k else s.cpc).cur = s.cpc.cur := by
    cases n
    · rfl
    · exact cur_notified _ _
  refine ⟨by simpa only [Conf.setW, hcur] using p1, fun j => ?_, fun j hj hr hn => ?_⟩
  · have hm : (match (if n = true then s.cpc.notified k else s.cpc) with
        | .subRelease j' t | .subNotify j' t => subsTo j [Op.submit (L := L) (E := E) j' t]
        | _ => []) = (match s.cpc with
        | .subRelease j' t | .subNotify j' t => subsTo j [Op.submit (L := L) (E := E) j' t]
        | _ => []) := by
      cases n
      · rfl
      · simp only [if_true]
        cases s.cpc with
        | waitAsleep j' =>
          by_cases h : j' = k
          · simp [CPc.notified, h]
          · simp [CPc.notified, h]
        | _ => rfl
    simp only [Conf.setW, hm]
    by_cases hj : j = k
    · subst hj; rw [Function.update_self, e1]; exact p2 j
    · rw [Function.update_of_ne hj]; exact p2 j
  · have hv : s.cpc.view j ≠ .release ∧ s.cpc.view j ≠ .notify := by
      cases n
      · exact ⟨by simpa using hr, by simpa using hn⟩
      · simp only [if_true, view_notified] at hr hn
        constructor
        · intro he; rw [he] at hr; split at hr <;> exact hr rfl
        · intro he; rw [he] at hn; split at hn <;> exact hn rfl
    have := p3 j hj hv.1 hv.2
    simp only [Conf.setW]
    by_cases hjk : j = k
    · subst hjk
      rw [Function.update_self]
      rcases e2 with e2 | e2
      · rw [e2]; exact this
      · exact e2
    · rw [Function.update_of_ne hjk]; exact this

theorem Pos.client {B : Nat → List Nat} {P : List (Op L E)} {s s' : Conf L E} (hi : AllInv s) (h : Pos B P s) (hs : s.client = some s') : Pos B P s' := by
  obtain ⟨ws, cpc, ops, done, cloc, mem⟩ := s
  obtain ⟨p1, p2, p3⟩ := h
  have upd : ∀ (k : Nat) (w : W L E), w.submitted = (ws k).submitted → ∀ j, (Function.update ws k w j).submitted = (ws j).submitted := by
    intro k w e j
    by_cases hj : j = k
    · subst hj; rw [Function.update_self, e]
    · rw [Function.update_of_ne hj]
  have updt : ∀ (k : Nat) (w : W L E), w.task = (ws k).task → ∀ j, (Function.update ws k w j).task = (ws j).task := by
    intro k w e j
    by_cases hj : j = k
    · subst hj; rw [Function.update_self, e]
    · rw [Function.update_of_ne hj]
  cases cpc with
  | next =>
    cases ops with
    | nil => simp [Conf.client] at hs
    | cons op ops =>
      cases op with
      | submit k t =>
        by_cases hl : (ws k).lock = none
        · simp [Conf.client, hl] at hs
          subst hs
          refine ⟨by simpa [CPc.cur, Conf.setW] using p1, fun j => ?_, fun j hj _ _ => ?_⟩
          · simp only [Conf.setW]; rw [upd _ _ (by simp)]; simpa using p2 j
          · simp only [Conf.setW]; rw [updt _ _ (by simp)]; exact p3 j hj (by simp [CPc.view]) (by simp [CPc.view])
        · simp [Conf.client, hl] at hs
      | wait k =>
        by_cases hl : (ws k).lock = none
        · simp [Conf.client, hl] at hs
          subst hs
          refine ⟨by simpa [CPc.cur, Conf.setW] using p1, fun j => ?_, fun j hj _ _ => ?_⟩
          · simp only [Conf.setW]; rw [upd _ _ (by simp)]; simpa using p2 j
          · simp only [Conf.setW]; rw [updt _ _ (by simp)]; exact p3 j hj (by simp [CPc.view]) (by simp [CPc.view])
        · simp [Conf.client, hl] at hs
      | own as =>
        simp [Conf.client] at hs
        subst hs
        exact ⟨by simpa [CPc.cur, Conf.setW] using p1, fun j => by simpa using p2 j, fun j hj _ _ => p3 j hj (by simp [CPc.view]) (by simp [CPc.view])⟩
      | destroy k =>
        simp [Conf.client] at hs
        subst hs
        refine ⟨by simpa [CPc.cur, Conf.setW] using p1, fun j => ?_, fun j hj _ _ => ?_⟩
        · simp only [Conf.setW]; rw [upd _ _ (by simp)]; simpa using p2 j
        · simp only [Conf.setW]; rw [updt _ _ (by simp)]; exact p3 j hj (by simp [CPc.view]) (by simp [CPc.view])
  | subWrite k t =>
    simp [Conf.client] at hs
    subst hs
    refine ⟨by simpa [CPc.cur, Conf.setW] using p1, fun j => ?_, fun j hj h1 _ => ?_⟩
    · have := p2 j
      simp only [List.append_nil] at this
      simp only [Conf.setW]
      by_cases hj : j = k
      · subst hj; rw [Function.update_self, ← this]; simp [subsTo]
      · rw [Function.update_of_ne hj, this]; simp [subsTo, Ne.symm hj]
    · simp only [Conf.setW]
      by_cases hjk : j = k
      · subst hjk; simp [CPc.view] at h1
      · rw [Function.update_of_ne hjk]; exact p3 j hj (by simp [CPc.view, Ne.symm hjk]) (by simp [CPc.view, Ne.symm hjk])
  | subRelease k t =>
    simp [Conf.client] at hs
    subst hs
    refine ⟨by simpa [CPc.cur, Conf.setW] using p1, fun j => ?_, fun j hj h1 h2 => ?_⟩
    · simp only [Conf.setW]; rw [upd _ _ (by simp)]; simpa using p2 j
    · simp only [Conf.setW]; rw [updt _ _ (by simp)]
      by_cases hjk : k = j
      · subst hjk; simp [CPc.view] at h2
      · exact p3 j hj (by simp [CPc.view, hjk]) (by simp [CPc.view, hjk])
  | subNotify k t =>
    simp [Conf.client, Conf.complete, Conf.setW] at hs
    subst hs
    refine ⟨by simpa [CPc.cur, Conf.setW] using p1, fun j => ?_, fun j hj h1 h2 => ?_⟩
    · simp only [Conf.setW]; rw [upd _ _ (notified_fields _).1, subsTo_append]; simpa using p2 j
    · simp only [Conf.setW]; rw [updt _ _ (notified_fields _).2.1]
      simp only [idleAfter_snoc] at hj
      by_cases hjk : k = j
      · subst hjk; simp at hj
      · rw [if_neg hjk] at hj
        exact p3 j hj (by simp [CPc.view, hjk]) (by simp [CPc.view, hjk])
  | waitTest k =>
    simp [Conf.client] at hs
    subst hs
    cases ht : (ws k).task with
    | none =>
      refine ⟨by simpa [CPc.cur, Conf.setW] using p1, fun j => ?_, fun j hj h1 h2 => ?_⟩
      · simpa using p2 j
      · exact p3 j hj (by simp only [CPc.view]; split <;> simp) (by simp only [CPc.view]; split <;> simp)
    | some t =>
      refine ⟨by simpa [CPc.cur, Conf.setW] using p1, fun j => ?_, fun j hj h1 h2 => ?_⟩
      · simpa using p2 j
      · exact p3 j hj (by simp only [CPc.view]; split <;> simp) (by simp only [CPc.view]; split <;> simp)
  | waitWillSleep k =>
    simp [Conf.client] at hs
    subst hs
    refine ⟨by simpa [CPc.cur, Conf.setW] using p1, fun j => ?_, fun j hj h1 h2 => ?_⟩
    · simp only [Conf.setW]; rw [upd _ _ (by simp)]; simpa using p2 j
    · simp only [Conf.setW]; rw [updt _ _ (by simp)]
      exact p3 j hj (by simp only [CPc.view]; split <;> simp) (by simp only [CPc.view]; split <;> simp)
  | waitAsleep k => simp [Conf.client] at hs
  | waitWoken k =>
    by_cases hl : (ws k).lock = none
    · simp [Conf.client, hl] at hs
      subst hs
      refine ⟨by simpa [CPc.cur, Conf.setW] using p1, fun j => ?_, fun j hj h1 h2 => ?_⟩
      · simp only [Conf.setW]; rw [upd _ _ (by simp)]; simpa using p2 j
      · simp only [Conf.setW]; rw [updt _ _ (by simp)]
        exact p3 j hj (by simp only [CPc.view]; split <;> simp) (by simp only [CPc.view]; split <;> simp)
    · simp [Conf.client, hl] at hs
  | waitRelease k =>
    simp [Conf.client, Conf.complete, Conf.setW] at hs
    subst hs
    have hk := (hi k).waitOk
    simp only [CPc.view, if_true] at hk
    refine ⟨by simpa [CPc.cur, Conf.setW] using p1, fun j => ?_, fun j hj h1 h2 => ?_⟩
    · simp only [Conf.setW]; rw [upd _ _ (by simp), subsTo_append]
      have := p2 j
      simp at this
      simp [this, subsTo]
    · simp only [Conf.setW]; rw [updt _ _ (by simp)]
      simp only [idleAfter_snoc] at hj
      by_cases hjk : k = j
      · subst hjk; exact hk
      · rw [if_neg hjk] at hj
        exact p3 j hj (by simp [CPc.view, hjk]) (by simp [CPc.view, hjk])
  | own as rest =>
    cases rest with
    | nil =>
      simp [Conf.client, Conf.complete] at hs
      subst hs
      refine ⟨by simpa [CPc.cur, Conf.setW] using p1, fun j => ?_, fun j hj h1 h2 => ?_⟩
      · have := p2 j
        simp at this
        simp [this, subsTo]
      · simp only [idleAfter_snoc] at hj
        exact p3 j hj (by simp [CPc.view]) (by simp [CPc.view])
    | cons a rest =>
      simp [Conf.client] at hs
      subst hs
      exact ⟨by simpa [CPc.cur, Conf.setW] using p1, fun j => by simpa using p2 j, fun j hj _ _ => p3 j hj (by simp [CPc.view]) (by simp [CPc.view])⟩
  | desNotify k =>
    simp [Conf.client, Conf.complete, Conf.setW] at hs
    subst hs
    refine ⟨by simpa [CPc.cur, Conf.setW] using p1, fun j => ?_, fun j hj h1 h2 => ?_⟩
    · simp only [Conf.setW]; rw [upd _ _ (notified_fields _).1]; simpa using p2 j
    · simp only [Conf.setW]; rw [updt _ _ (notified_fields _).2.1]
      exact p3 j hj (by simp [CPc.view]) (by simp [CPc.view])
  | desJoin k =>
    simp only [Conf.client] at hs
    split at hs
    · simp [Conf.complete] at hs
      subst hs
      refine ⟨by simpa [CPc.cur, Conf.setW] using p1, fun j => ?_, fun j hj h1 h2 => ?_⟩
      · have := p2 j
        simp at this
        simp [this, subsTo]
      · simp only [idleAfter_snoc] at hj
        exact p3 j hj (by simp [CPc.view]) (by simp [CPc.view])
    · simp at hs

theorem Pos.move {B : Nat → List Nat} {P : List (Op L E)} {s s' : Conf L E} {m : Move} (hi : AllInv s) (h : Pos B P s) (hs : s.move m = some s') : Pos B P s' := by
  cases m with
  | client => exact h.client hi hs
  | worker k => exact h.worker hs
  | spuriousClient =>
    simp only [Conf.move] at hs
    split at hs
    · rename_i k hk
      obtain rfl := Option.some.inj hs
      obtain ⟨p1, p2, p3⟩ := h
      rw [hk] at p1 p2 p3
      exact ⟨p1, p2, fun j hj _ _ => p3 j hj (by simp only [CPc.view]; split <;> simp) (by simp only [CPc.view]; split <;> simp)⟩
    · simp at hs
  | spuriousWorker k =>
    simp only [Conf.move] at hs
    split at hs
    · obtain rfl := Option.some.inj hs
      obtain ⟨p1, p2, p3⟩ := h
      refine ⟨p1, fun j => ?_, fun j hj h1 h2 => ?_⟩
      · simp only [Conf.setW]
        by_cases hjk : j = k
        · subst hjk; rw [Function.update_self]; exact p2 j
        · rw [Function.update_of_ne hjk]; exact p2 j
      · simp only [Conf.setW]
        by_cases hjk : j = k
        · subst hjk; rw [Function.update_self]; exact p3 j hj h1 h2
        · rw [Function.update_of_ne hjk]; exact p3 j hj h1 h2
    · simp at hs

theorem Pos.steps {B : Nat → List Nat} {P : List (Op L E)} {s s' : Conf L E} {ms : List Move} (hs : Steps s ms s') (hi : AllInv s) (h : Pos B P s) : Pos B P s' := by
  induction hs with
  | nil => exact h
  | snoc m hst hm ih => exact ih.move (hi.steps hst) hm

theorem Pos.fresh (ops : List (Op L E)) (loc : Nat → L) (cloc : L) (mem : Nat → E) : Pos (fun _ => []) ops (Conf.fresh ops loc cloc mem) := by
  refine ⟨by simp [Conf.fresh, CPc.cur], fun k => ?_, fun k _ _ _ => rfl⟩
  simp [Conf.fresh, W.fresh, subsTo]

/-! ## Without destructors nobody is told to stop -/

def Op.isDestroy : Op L E → Bool
  | .destroy _ => true
  | _ => false

theorem stop_move {s s' : Conf L E} {m : Move} (hd : ∀ op ∈ s.cpc.cur ++ s.ops, Op.isDestroy op = false) (h : ∀ k, (s.ws k).stop = false)
    (hs : s.move m = some s') : ∀ k, (s'.ws k).stop = false := by
  have upd : ∀ (k : Nat) (w : W L E), w.stop = (s.ws k).stop → ∀ j, (Function.update s.ws k w j).stop = false := by
    intro k w e j
    by_cases hj : j = k
    · subst hj; rw [Function.update_self, e]; exact h j
    · rw [Function.update_of_ne hj]; exact h j
  cases m with
  | client =>
    obtain ⟨ws, cpc, ops, done, cloc, mem⟩ := s
    simp only [Conf.move] at hs
    cases cpc with
    | next =>
      cases ops with
      | nil => simp [Conf.client] at hs
      | cons op ops =>
        cases op with
        | destroy k => simp [CPc.cur, Op.isDestroy] at hd
        | own as => simp [Conf.client] at hs; subst hs; exact h
        | submit k t =>
          by_cases hl : (ws k).lock = none
          · simp [Conf.client, hl] at hs; subst hs; exact upd _ _ rfl
          · simp [Conf.client, hl] at hs
        | wait k =>
          by_cases hl : (ws k).lock = none
          · simp [Conf.client, hl] at hs; subst hs; exact upd _ _ rfl
          · simp [Conf.client, hl] at hs
    | subWrite k t => simp [Conf.client] at hs; subst hs; exact upd _ _ rfl
    | subRelease k t => simp [Conf.client] at hs; subst hs; exact upd _ _ rfl
    | subNotify k t =>
      simp [Conf.client, Conf.complete, Conf.setW] at hs; subst hs; exact upd _ _ (notified_fields _).2.2.1
    | waitTest k => simp [Conf.client] at hs; subst hs; exact h
    | waitWillSleep k => simp [Conf.client] at hs; subst hs; exact upd _ _ rfl
    | waitAsleep k => simp [Conf.client] at hs
    | waitWoken k =>
      by_cases hl : (ws k).lock = none
      · simp [Conf.client, hl] at hs; subst hs; exact upd _ _ rfl
      · simp [Conf.client, hl] at hs
    | waitRelease k => simp [Conf.client, Conf.complete, Conf.setW] at hs; subst hs; exact upd _ _ rfl
    | own as rest =>
      cases rest <;> simp [Conf.client, Conf.complete] at hs <;> subst hs <;> exact h
    | desNotify k => simp [CPc.cur, Op.isDestroy] at hd
    | desJoin k => simp [CPc.cur, Op.isDestroy] at hd
  | worker k =>
    simp only [Conf.move, Conf.worker, Option.map_eq_some_iff] at hs
    obtain ⟨⟨w, mem, n⟩, h1, rfl⟩ := hs
    exact upd _ _ (step_task h1).2.2
  | spuriousClient =>
    simp only [Conf.move] at hs
    split at hs
    · obtain rfl := Option.some.inj hs; exact h
    · simp at hs
  | spuriousWorker k =>
    simp only [Conf.move] at hs
    split at hs
    · obtain rfl := Option.some.inj hs; exact upd _ _ rfl
    · simp at hs

theorem stop_steps {B : Nat → List Nat} {P : List (Op L E)} (hP : ∀ op ∈ P, Op.isDestroy op = false) {s s' : Conf L E} {ms : List Move} (hs : Steps s ms s')
    (hi : AllInv s) (hp : Pos B P s) (h : ∀ k, (s.ws k).stop = false) : ∀ k, (s'.ws k).stop = false := by
  induction hs with
  | nil => exact h
  | snoc m hst hm ih =>
    refine stop_move (fun op hop => hP op ?_) ih hm
    rw [← (hp.steps hst hi).prog]
    simp only [List.mem_append] at hop ⊢
    tauto

/-! ## No deadlock -/

/-- The worker that an operation uses. -/
def Op.target : Op L E → Option Nat
  | .submit k _ | .wait k | .destroy k => some k
  | .own _ => none

/-- A worker that is not asleep and not waiting for a mutex that the client holds can move. -/
theorem worker_can_move {w : W L E} {v : V} (h : Inv w v) (hs : w.stop = false) (ha : w.pc ≠ .asleep) (hl : w.lock ≠ some false)
    (mem : Nat → E) : (w.step mem).isSome = true := by
  obtain ⟨stop, task, lock, pc, loc, sub, st, fin⟩ := w
  obtain ⟨h1, h2, h3, h4, h5, h6⟩ := h
  simp only at hs
  subst hs
  cases pc with
  | running r => cases r <;> simp [W.step]
  | _ =>
    rcases lock with _ | _ | _ <;> cases task <;> simp_all [W.step, WPc.holds, W.taskOk]

/-- Without destructors the client never ends up waiting for ever: some thread can move without a spurious wake-up. -/
theorem no_deadlock {s : Conf L E} (hi : AllInv s) (hst : ∀ k, (s.ws k).stop = false)
    (hd : ∀ op ∈ s.cpc.cur ++ s.ops, Op.isDestroy op = false) (hn : ¬ (s.ops = [] ∧ s.cpc.cur = [])) :
    (s.move .client).isSome = true ∨
      ∃ k, (∃ op ∈ s.cpc.cur ++ s.ops, k ∈ op.target) ∧ (s.move (.worker k)).isSome = true := by
  have wk : ∀ k, (s.ws k).pc ≠ .asleep → (s.ws k).lock ≠ some false → (s.move (.worker k)).isSome = true := by
    intro k ha hl
    have := worker_can_move (hi k) (hst k) ha hl s.mem
    simpa [Conf.move, Conf.worker] using this
  -- a thread that wants the mutex of worker `k`
  have want : ∀ k, (s.cpc.view k).holds = false → (s.ws k).lock ≠ none → (s.move (.worker k)).isSome = true := by
    intro k hv hl
    have h1 : (s.ws k).lock ≠ some false := by
      intro he
      rw [(hi k).lockC.1 he] at hv
      simp at hv
    apply wk k _ h1
    intro ha
    have h2 : (s.ws k).lock = some true := by
      rcases h : (s.ws k).lock with _ | _ | _
      · exact absurd h hl
      · exact absurd h h1
      · rfl
    rw [(hi k).lockW, ha] at h2
    simp [WPc.holds] at h2
  obtain ⟨ws, cpc, ops, done, cloc, mem⟩ := s
  cases cpc with
  | next =>
    cases ops with
    | nil => simp [CPc.cur] at hn
    | cons op ops =>
      cases op with
      | destroy k => simp [CPc.cur, Op.isDestroy] at hd
      | own as => left; simp [Conf.move, Conf.client]
      | submit k t =>
        by_cases hl : (ws k).lock = none
        · left; simp [Conf.move, Conf.client, hl]
        · exact Or.inr ⟨k, ⟨.submit k t, by simp [CPc.cur], by simp [Op.target]⟩, want k rfl hl⟩
      | wait k =>
        by_cases hl : (ws k).lock = none
        · left; simp [Conf.move, Conf.client, hl]
        · exact Or.inr ⟨k, ⟨.wait k, by simp [CPc.cur], by simp [Op.target]⟩, want k rfl hl⟩
  | waitAsleep k =>
    right
    refine ⟨k, ⟨.wait k, by simp [CPc.cur], by simp [Op.target]⟩, ?_⟩
    have hk := hi k
    simp only [CPc.view, if_true] at hk
    have hl : (ws k).lock ≠ some false := by
      intro he
      have := hk.lockC.1 he
      simp [V.holds] at this
    apply wk k _ hl
    intro ha
    cases ht : (ws k).task with
    | none =>
      have := hk.waitOk ht
      simp only at ha
      rw [ha] at this
      exact this
    | some t =>
      have := hk.wakeOk
      simp only at ha
      simp [W.wakeOk, ha, ht] at this
  | waitWoken k =>
    by_cases hl : (ws k).lock = none
    · left; simp [Conf.move, Conf.client, hl]
    · exact Or.inr ⟨k, ⟨.wait k, by simp [CPc.cur], by simp [Op.target]⟩, want k (by simp [CPc.view, V.holds]) hl⟩
  | own as rest => left; cases rest <;> simp [Conf.move, Conf.client]
  | desNotify k => simp [CPc.cur, Op.isDestroy] at hd
  | desJoin k => simp [CPc.cur, Op.isDestroy] at hd
  | _ => left; simp [Conf.move, Conf.client]

/-! ## Every schedule is finite up to spurious wake-ups -/

def WPc.rank : WPc L E → Nat
  | .acquire | .woken => 4
  | .test => 3
  | .testStop => 2
  | .willSleep | .exitRelease => 1
  | .asleep | .exited => 0
  | .notify => 9
  | .release => 10
  | .clear => 11
  | .running r => 12 + r.length

def WPc.inTask : WPc L E → Bool
  | .running _ | .clear => true
  | _ => false

def W.rank (w : W L E) : Nat :=
  w.pc.rank + if w.pc.inTask then 0 else match w.task with
    | some t => 15 + t.acts.length
    | none => 0

def CPc.rank : CPc L E → Nat
  | .next | .waitAsleep _ => 0
  | .subWrite _ t => 22 + t.acts.length
  | .subRelease _ _ => 6
  | .subNotify _ _ => 5
  | .waitTest _ => 3
  | .waitWillSleep _ | .waitRelease _ | .desJoin _ => 1
  | .waitWoken _ => 4
  | .own _ rest => 1 + rest.length
  | .desNotify _ => 6

def Op.rank : Op L E → Nat
  | .submit _ t => 23 + t.acts.length
  | .wait _ => 4
  | .own as => 2 + as.length
  | .destroy _ => 7

def opsRank (ops : List (Op L E)) : Nat := (ops.map Op.rank).sum

/-- A bound on the number of steps left, with workers numbered below `n`. -/
def Conf.rank (n : Nat) (s : Conf L E) : Nat := opsRank s.ops + s.cpc.rank + ∑ k ∈ Finset.range n, (s.ws k).rank

def Move.normal : Move → Bool
  | .client | .worker _ => true
  | _ => false

theorem sum_update (n k : Nat) (hk : k < n) (ws : Nat → W L E) (w : W L E) :
    (∑ j ∈ Finset.range n, (Function.update ws k w j).rank) + (ws k).rank = (∑ j ∈ Finset.range n, (ws j).rank) + w.rank := by
  rw [← Finset.add_sum_erase _ _ (Finset.mem_range.2 hk), ← Finset.add_sum_erase (Finset.range n) (fun j => (ws j).rank) (Finset.mem_range.2 hk)]
  rw [Function.update_self]
  have : ∑ x ∈ (Finset.range n).erase k, (Function.update ws k w x).rank = ∑ x ∈ (Finset.range n).erase k, (ws x).rank := by
    apply Finset.sum_congr rfl
    intro x hx
    rw [Function.update_of_ne (Finset.ne_of_mem_erase hx)]
  rw [this]
  omega

theorem sum_update_ge (n k : Nat) (hk : n ≤ k) (ws : Nat → W L E) (w : W L E) :
    (∑ j ∈ Finset.range n, (Function.update ws k w j).rank) = (∑ j ∈ Finset.range n, (ws j).rank) := by
  apply Finset.sum_congr rfl
  intro x hx
  rw [Function.update_of_ne]
  have := Finset.mem_range.1 hx
  omega

theorem step_rank {w w' : W L E} {v : V} (h : Inv w v) {mem mem' : Nat → E} {n : Bool} (hs : w.step mem = some (w', mem', n)) :
    w'.rank + (if n then 5 else 1) ≤ w.rank := by
  obtain ⟨stop, task, lock, pc, loc, sub, st, fin⟩ := w
  obtain ⟨h1, h2, h3, h4, h5, h6⟩ := h
  cases pc with
  | running r => cases r <;> simp [W.step] at hs <;> obtain ⟨rfl, rfl, rfl⟩ := hs <;> cases task <;> simp [W.rank, WPc.rank, WPc.inTask] <;> omega
  | _ =>
    cases task <;> cases stop <;> cases lock <;> simp [W.step] at hs <;> obtain ⟨rfl, rfl, rfl⟩ := hs <;>
      simp_all [W.rank, WPc.rank, WPc.inTask, W.taskOk] <;> omega

theorem notified_rank (w : W L E) : w.notified.rank ≤ w.rank + 4 := by
  obtain ⟨stop, task, lock, pc, loc, sub, st, fin⟩ := w
  cases pc <;> cases task <;> simp [W.notified, W.rank, WPc.rank, WPc.inTask]; omega

theorem cnotified_rank (c : CPc L E) (k : Nat) : (c.notified k).rank ≤ c.rank + 4 := by
  cases c with
  | waitAsleep j =>
    by_cases h : j = k
    · simp [CPc.notified, CPc.rank, h]
    · simp [CPc.notified, CPc.rank, h]
  | _ => simp [CPc.notified, CPc.rank]

theorem client_rank {n : Nat} {s s' : Conf L E} (ht : ∀ op ∈ s.cpc.cur ++ s.ops, ∀ k ∈ op.target, k < n) (hs : s.client = some s') :
    s'.rank n + 1 ≤ s.rank n := by
  obtain ⟨ws, cpc, ops, done, cloc, mem⟩ := s
  cases cpc with
  | next =>
    cases ops with
    | nil => simp [Conf.client] at hs
    | cons op ops =>
      cases op with
      | submit k t =>
        have hk : k < n := ht (.submit k t) (by simp [CPc.cur]) k (by simp [Op.target])
        by_cases hl : (ws k).lock = none
        · simp [Conf.client, hl] at hs
          subst hs
          have := sum_update n k hk ws { ws k with lock := some false }
          simp only [Conf.rank, Conf.setW, opsRank, List.map_cons, List.sum_cons, Op.rank, CPc.rank]
          simp only [W.rank] at this ⊢
          omega
        · simp [Conf.client, hl] at hs
      | wait k =>
        have hk : k < n := ht (.wait k) (by simp [CPc.cur]) k (by simp [Op.target])
        by_cases hl : (ws k).lock = none
        · simp [Conf.client, hl] at hs
          subst hs
          have := sum_update n k hk ws { ws k with lock := some false }
          simp only [Conf.rank, Conf.setW, opsRank, List.map_cons, List.sum_cons, Op.rank, CPc.rank]
          simp only [W.rank] at this ⊢
          omega
        · simp [Conf.client, hl] at hs
      | own as =>
        simp [Conf.client] at hs
        subst hs
        simp only [Conf.rank, opsRank, List.map_cons, List.sum_cons, Op.rank, CPc.rank]
        omega
      | destroy k =>
        have hk : k < n := ht (.destroy k) (by simp [CPc.cur]) k (by simp [Op.target])
        simp [Conf.client] at hs
        subst hs
        have := sum_update n k hk ws { ws k with stop := true }
        simp only [Conf.rank, Conf.setW, opsRank, List.map_cons, List.sum_cons, Op.rank, CPc.rank]
        simp only [W.rank] at this ⊢
        omega
  | subWrite k t =>
    have hk : k < n := ht (.submit k t) (by simp [CPc.cur]) k (by simp [Op.target])
    simp [Conf.client] at hs
    subst hs
    have := sum_update n k hk ws { ws k with task := some t, submitted := (ws k).submitted ++ [t.id] }
    have hw : W.rank { ws k with task := some t, submitted := (ws k).submitted ++ [t.id] } ≤ (ws k).rank + 15 + t.acts.length := by
      simp only [W.rank]
      split <;> omega
    simp only [Conf.rank, Conf.setW, CPc.rank]
    dsimp only at this hw
    omega
  | subRelease k t =>
    have hk : k < n := ht (.submit k t) (by simp [CPc.cur]) k (by simp [Op.target])
    simp [Conf.client] at hs
    subst hs
    have := sum_update n k hk ws { ws k with lock := none }
    simp only [Conf.rank, Conf.setW, CPc.rank]
    simp only [W.rank] at this ⊢
    omega
  | subNotify k t =>
    have hk : k < n := ht (.submit k t) (by simp [CPc.cur]) k (by simp [Op.target])
    simp [Conf.client, Conf.complete, Conf.setW] at hs
    subst hs
    have := sum_update n k hk ws (ws k).notified
    have hw := notified_rank (ws k)
    simp only [Conf.rank, CPc.rank]
    omega
  | waitTest k =>
    simp [Conf.client] at hs
    subst hs
    simp only [Conf.rank]
    split <;> simp only [CPc.rank] <;> omega
  | waitWillSleep k =>
    have hk : k < n := ht (.wait k) (by simp [CPc.cur]) k (by simp [Op.target])
    simp [Conf.client] at hs
    subst hs
    have := sum_update n k hk ws { ws k with lock := none }
    simp only [Conf.rank, Conf.setW, CPc.rank]
    simp only [W.rank] at this ⊢
    omega
  | waitAsleep k => simp [Conf.client] at hs
  | waitWoken k =>
    have hk : k < n := ht (.wait k) (by simp [CPc.cur]) k (by simp [Op.target])
    by_cases hl : (ws k).lock = none
    · simp [Conf.client, hl] at hs
      subst hs
      have := sum_update n k hk ws { ws k with lock := some false }
      simp only [Conf.rank, Conf.setW, CPc.rank]
      simp only [W.rank] at this ⊢
      omega
    · simp [Conf.client, hl] at hs
  | waitRelease k =>
    have hk : k < n := ht (.wait k) (by simp [CPc.cur]) k (by simp [Op.target])
    simp [Conf.client, Conf.complete, Conf.setW] at hs
    subst hs
    have := sum_update n k hk ws { ws k with lock := none }
    simp only [Conf.rank, CPc.rank]
    simp only [W.rank] at this ⊢
    omega
  | own as rest =>
    cases rest <;> simp [Conf.client, Conf.complete] at hs <;> subst hs <;> simp only [Conf.rank, CPc.rank, List.length_cons, List.length_nil] <;> omega
  | desNotify k =>
    have hk : k < n := ht (.destroy k) (by simp [CPc.cur]) k (by simp [Op.target])
    simp [Conf.client, Conf.complete, Conf.setW] at hs
    subst hs
    have := sum_update n k hk ws (ws k).notified
    have hw := notified_rank (ws k)
    simp only [Conf.rank, CPc.rank]
    omega
  | desJoin k =>
    simp only [Conf.client] at hs
    split at hs
    · simp [Conf.complete] at hs
      subst hs
      simp only [Conf.rank, CPc.rank]
      omega
    · simp at hs

/-- The workers that move are numbered below `n`. -/
def Move.below (n : Nat) : Move → Prop
  | .worker k | .spuriousWorker k => k < n
  | _ => True

theorem move_rank {n : Nat} {s s' : Conf L E} {m : Move} (hi : AllInv s) (ht : ∀ op ∈ s.cpc.cur ++ s.ops, ∀ k ∈ op.target, k < n)
    (hm : m.below n) (hs : s.move m = some s') : s'.rank n + (if m.normal then 1 else 0) ≤ s.rank n + (if m.normal then 0 else 4) := by
  cases m with
  | client => exact client_rank ht hs
  | worker k =>
    simp only [Conf.move, Conf.worker, Option.map_eq_some_iff] at hs
    obtain ⟨⟨w, mem, b⟩, h1, rfl⟩ := hs
    have hr := step_rank (hi k) h1
    have := sum_update n k hm s.ws w
    have hc := cnotified_rank s.cpc k
    cases b
    · simp only [Conf.rank, Conf.setW, Move.normal, if_true, Bool.false_eq_true, if_false] at hr ⊢
      omega
    · simp only [Conf.rank, Conf.setW, Move.normal, if_true] at hr ⊢
      omega
  | spuriousClient =>
    simp only [Conf.move] at hs
    split at hs
    · rename_i k hk
      obtain rfl := Option.some.inj hs
      simp only [Conf.rank, Move.normal, Bool.false_eq_true, if_false, hk, CPc.rank]
      omega
    · simp at hs
  | spuriousWorker k =>
    simp only [Conf.move] at hs
    split at hs
    · rename_i hk
      obtain rfl := Option.some.inj hs
      have := sum_update n k hm s.ws { s.ws k with pc := .woken }
      have hw : W.rank { s.ws k with pc := .woken } = (s.ws k).rank + 4 := by
        simp only [W.rank, hk, WPc.rank, WPc.inTask]
        simp only [Bool.false_eq_true, if_false]
        omega
      simp only [Conf.rank, Conf.setW, Move.normal, Bool.false_eq_true, if_false]
      dsimp only at this hw
      omega
    · simp at hs

theorem steps_rank {B : Nat → List Nat} {P : List (Op L E)} {n : Nat} (hP : ∀ op ∈ P, ∀ k ∈ op.target, k < n) {s s' : Conf L E} {ms : List Move}
    (hs : Steps s ms s') (hi : AllInv s) (hp : Pos B P s) (hm : ∀ m ∈ ms, m.below n) :
    s'.rank n + ms.countP (fun m => m.normal) ≤ s.rank n + 4 * ms.countP (fun m => !m.normal) := by
  induction hs with
  | nil => simp
  | @snoc s' s'' ms m hst hmv ih =>
    have ih := ih (fun m hm' => hm m (by simp [hm']))
    have := move_rank (n := n) (m := m) (hi.steps hst) (fun op hop => hP op (by
      rw [← (hp.steps hst hi).prog]
      simp only [List.mem_append] at hop ⊢
      tauto)) (hm m (by simp)) hmv
    rw [List.countP_append, List.countP_append, List.countP_singleton, List.countP_singleton]
    cases hn : m.normal <;> simp only [hn, Bool.not_true, Bool.not_false, Bool.false_eq_true, if_true, if_false] at this ⊢ <;> omega

end FF.Worker
