import Verif.ThreadPool

/-!
# The worker threads: `ThreadWorker`, `c/misc.hpp:43-98`

Several workers, each with its mutex, its two condition variables, its task slot and its stop flag, and one client thread that runs a
list of operations on them.  A configuration moves by one atomic step of one thread; which thread moves is arbitrary.  Waiting on a
condition variable is: test the predicate while holding the mutex; if it is false release the mutex and fall asleep in one step; once
woken, acquire the mutex and test again.  A notification wakes the thread if it is asleep and is lost otherwise; a sleeping thread may
also wake up by itself (`Move.spurious...`).  A task is a list of atomic actions on the shared memory.

Simplified: the memory is sequentially consistent; a task does not throw and does not use the pool itself; the copies of `std::function`
are not modelled; one client thread uses a given pool at a time.
-/

namespace FF.Worker

open FF.Par

variable {L E : Type}

/-- A `std::function<void()>` given to `submit`, with a name to tell tasks apart. -/
structure Task (L E : Type) where
  id : Nat
  acts : List (Act L E)

/-- Where the worker thread is in `worker()`, `misc.hpp:52-69`. -/
inductive WPc (L E : Type) where
  | acquire      -- line 56, before the lock is taken
  | test         -- line 58, holding the mutex, about to evaluate the predicate
  | willSleep    -- line 58, the predicate was false; still holding the mutex
  | asleep       -- line 58, blocked in `occupied.wait`
  | woken        -- line 58, woken, before the lock is taken again
  | testStop     -- line 60, the predicate was true
  | running (rest : List (Act L E))  -- line 64, inside the task
  | clear        -- line 65
  | release      -- line 66, end of the scope of the lock
  | notify       -- line 67
  | exitRelease  -- line 61, the lock is released by the `return`
  | exited

/-- A `ThreadWorker` object, `misc.hpp:45-50`.  `lock` is the owner of the mutex (`some true`: the worker, `some false`: the client).
`submitted`, `started` and `finished` only record what happened. -/
structure W (L E : Type) where
  stop : Bool
  task : Option (Task L E)
  lock : Option Bool
  pc : WPc L E
  loc : L
  submitted : List Nat
  started : List Nat
  finished : List Nat

/-- What the client does with worker `k`: `submit` (`misc.hpp:85-91`), `wait` (`misc.hpp:93-97`), the destructor (`misc.hpp:77-82`), or
work of its own. -/
inductive Op (L E : Type) where
  | submit (k : Nat) (t : Task L E)
  | wait (k : Nat)
  | own (as : List (Act L E))
  | destroy (k : Nat)

/-- Where the client is. -/
inductive CPc (L E : Type) where
  | next                                  -- between operations
  | subWrite (k : Nat) (t : Task L E)     -- line 88, holding the mutex
  | subRelease (k : Nat) (t : Task L E)   -- line 89
  | subNotify (k : Nat) (t : Task L E)    -- line 90
  | waitTest (k : Nat)                    -- line 96, holding the mutex
  | waitWillSleep (k : Nat)
  | waitAsleep (k : Nat)
  | waitWoken (k : Nat)
  | waitRelease (k : Nat)                 -- line 97, end of the scope of the lock
  | own (as rest : List (Act L E))
  | desNotify (k : Nat)                   -- line 79
  | desJoin (k : Nat)                     -- line 81

/-- The workers, the client, the operations it has still to start and those it has completed, and the shared memory. -/
structure Conf (L E : Type) where
  ws : Nat → W L E
  cpc : CPc L E
  ops : List (Op L E)
  done : List (Op L E)
  cloc : L
  mem : Nat → E

/-- One step of the worker thread, `misc.hpp:52-69`: the new object and memory, and whether `finished` is notified.  `none`: the thread
is blocked or has ended. -/
def W.step (w : W L E) (mem : Nat → E) : Option (W L E × (Nat → E) × Bool) :=
  match w.pc with
  | .acquire => if w.lock.isNone then some ({ w with lock := some true, pc := .test }, mem, false) else none
  | .test => if w.task.isSome || w.stop then some ({ w with pc := .testStop }, mem, false)
    else some ({ w with pc := .willSleep }, mem, false)
  | .willSleep => some ({ w with lock := none, pc := .asleep }, mem, false)
  | .asleep => none
  | .woken => if w.lock.isNone then some ({ w with lock := some true, pc := .test }, mem, false) else none
  | .testStop =>
    if w.stop then some ({ w with pc := .exitRelease }, mem, false)
    else match w.task with
      | some t => some ({ w with pc := .running t.acts, started := w.started ++ [t.id] }, mem, false)
      | none => none
  | .running (a :: rest) => some ({ w with pc := .running rest, loc := (a (w.loc, mem)).1 }, (a (w.loc, mem)).2, false)
  | .running [] =>
    some ({ w with pc := .clear, finished := w.finished ++ (w.task.map Task.id).toList }, mem, false)
  | .clear => some ({ w with task := none, pc := .release }, mem, false)
  | .release => some ({ w with lock := none, pc := .notify }, mem, false)
  | .notify => some ({ w with pc := .acquire }, mem, true)
  | .exitRelease => some ({ w with lock := none, pc := .exited }, mem, false)
  | .exited => none

/-- `occupied.notify_one()`: only the worker waits on this condition variable. -/
def W.notified (w : W L E) : W L E := match w.pc with
  | .asleep => { w with pc := .woken }
  | _ => w

/-- `finished.notify_one()` by worker `k`, with one client. -/
def CPc.notified (c : CPc L E) (k : Nat) : CPc L E := match c with
  | .waitAsleep k' => if k' = k then .waitWoken k' else c
  | _ => c

def Conf.setW (s : Conf L E) (k : Nat) (w : W L E) : Conf L E := { s with ws := Function.update s.ws k w }

/-- The current operation ends. -/
def Conf.complete (s : Conf L E) (op : Op L E) : Conf L E := { s with cpc := .next, done := s.done ++ [op] }

/-- One step of the client: `submit` (`misc.hpp:85-91`), `wait` (`misc.hpp:93-97`), destructor (`misc.hpp:77-82`), work of its own. -/
def Conf.client (s : Conf L E) : Option (Conf L E) :=
  match s.cpc with
  | .next => match s.ops with
    | [] => none
    | .submit k t :: ops => if (s.ws k).lock.isNone then
        some { s.setW k { s.ws k with lock := some false } with cpc := .subWrite k t, ops := ops } else none
    | .wait k :: ops => if (s.ws k).lock.isNone then
        some { s.setW k { s.ws k with lock := some false } with cpc := .waitTest k, ops := ops } else none
    | .own as :: ops => some { s with cpc := .own as as, ops := ops }
    | .destroy k :: ops => some { s.setW k { s.ws k with stop := true } with cpc := .desNotify k, ops := ops }
  | .subWrite k t =>
    some { s.setW k { s.ws k with task := some t, submitted := (s.ws k).submitted ++ [t.id] } with cpc := .subRelease k t }
  | .subRelease k t => some { s.setW k { s.ws k with lock := none } with cpc := .subNotify k t }
  | .subNotify k t => some ((s.setW k (s.ws k).notified).complete (.submit k t))
  | .waitTest k => some { s with cpc := if (s.ws k).task.isNone then .waitRelease k else .waitWillSleep k }
  | .waitWillSleep k => some { s.setW k { s.ws k with lock := none } with cpc := .waitAsleep k }
  | .waitAsleep _ => none
  | .waitWoken k => if (s.ws k).lock.isNone then
      some { s.setW k { s.ws k with lock := some false } with cpc := .waitTest k } else none
  | .waitRelease k => some ((s.setW k { s.ws k with lock := none }).complete (.wait k))
  | .own as (a :: rest) => some { s with cpc := .own as rest, cloc := (a (s.cloc, s.mem)).1, mem := (a (s.cloc, s.mem)).2 }
  | .own as [] => some (s.complete (.own as))
  | .desNotify k => some { s.setW k (s.ws k).notified with cpc := .desJoin k }
  | .desJoin k => match (s.ws k).pc with
    | .exited => some (s.complete (.destroy k))
    | _ => none

/-- One step of the thread of worker `k`. -/
def Conf.worker (s : Conf L E) (k : Nat) : Option (Conf L E) :=
  ((s.ws k).step s.mem).map fun (w, mem, n) =>
    { s.setW k w with mem := mem, cpc := if n then s.cpc.notified k else s.cpc }

/-- The choices of the scheduler. -/
inductive Move where
  | client
  | worker (k : Nat)
  | spuriousClient
  | spuriousWorker (k : Nat)
deriving DecidableEq

/-- One step; `none` if the chosen thread cannot move. -/
def Conf.move (s : Conf L E) : Move → Option (Conf L E)
  | .client => s.client
  | .worker k => s.worker k
  | .spuriousClient => match s.cpc with
    | .waitAsleep k => some { s with cpc := .waitWoken k }
    | _ => none
  | .spuriousWorker k => match (s.ws k).pc with
    | .asleep => some (s.setW k { s.ws k with pc := .woken })
    | _ => none

/-- `Steps s ms s'`: the schedule `ms` leads from `s` to `s'`. -/
inductive Steps : Conf L E → List Move → Conf L E → Prop where
  | nil (s) : Steps s [] s
  | snoc {s s' s'' ms} (m : Move) : Steps s ms s' → s'.move m = some s'' → Steps s (ms ++ [m]) s''

/-- Run a given schedule. -/
def Conf.runMoves (s : Conf L E) (ms : List Move) : Option (Conf L E) := ms.foldlM Conf.move s

/-- A worker just constructed, `misc.hpp:72-75`. -/
def W.fresh (l : L) : W L E := ⟨false, none, none, .acquire, l, [], [], []⟩

/-- New workers, and a client that is to run `ops`. -/
def Conf.fresh (ops : List (Op L E)) (loc : Nat → L) (cloc : L) (mem : Nat → E) : Conf L E :=
  ⟨fun k => W.fresh (loc k), .next, ops, [], cloc, mem⟩

end FF.Worker
