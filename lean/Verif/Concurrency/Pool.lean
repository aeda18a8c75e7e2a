import Verif.Concurrency.PromiseLemmas
/-
Model of the process pool (pkm/src/pkm/utils/multiproc/__init__.py, "mp" below): clients that submit tasks,
the threads of the worker handlers, worker processes that may die at any time, cancelation and closing, in
any interleaving.

Simplifications: a submitted function that is running either returns or its process dies (it does not run
forever, an exception it raises is a result like others); the log thread of a worker (mp 115-122) and
`join` (mp 167-170) are left out, they do not change the pool; a critical section is one step; the
transfer of a task to the process and back is one step (`finish`).
-/
namespace Pkm
namespace Conc

/-- A task, numbered in the order of submission; `exit` marks the tasks that `close` submits. -/
structure Task where
  id : Nat
  exit : Bool
  deriving DecidableEq, Repr

/-- Where the thread of a worker handler is (mp 128-162). -/
inductive Phase where
  /-- at `while not self._should_terminate()` (mp 131) -/
  | top
  /-- in `q.get` (mp 134) -/
  | waiting
  /-- has sent the task and waits for the result (mp 140-159) -/
  | running (t : Task)
  /-- in the `finally` clause, before `_removed_worker` (mp 160-162) -/
  | removing
  deriving DecidableEq, Repr

structure Worker where
  id : Nat
  phase : Phase
  /-- `self._proc.poll() is None` -/
  alive : Bool
  deriving DecidableEq, Repr

/-- What can be observed. -/
inductive PEv where
  /-- the task was given to a worker -/
  | started (t : Nat) (worker : Nat)
  /-- the promise of the task is completed with the result (`ok`) or failed since the process died -/
  | done (t : Nat) (ok : Bool)
  | spawned (worker : Nat)
  | removed (worker : Nat)
  deriving DecidableEq, Repr

/-- The pool (mp 222-228) with `queue` and `unfinished` of its `Queue`. `pending`: the calls of
`_spawn_new_worker_if_needed` that were not executed yet; `exits`: the calls of `execute(sys.exit, 0)` that
`close` still has to do; `attached`: the worker a task was given to (mp 203), latest first; `canceled`:
the tasks with `_canceled` (mp 210); the latest event of the log is its first. -/
structure Pool where
  max : Nat
  queue : List Task
  unfinished : Nat
  workers : List Worker
  nextWorker : Nat
  nextTask : Nat
  pending : Nat
  closed : Bool
  exits : Nat
  attached : List (Nat × Nat)
  canceled : List Nat
  log : List PEv
  deriving DecidableEq, Repr

/-- The steps; the number is the position of the worker (or the task for `cancel`). -/
inductive Act where
  | submit
  | check
  | enter (i : Nat)
  | take (i : Nat)
  | timeout (i : Nat)
  | finish (i : Nat)
  | die (i : Nat)
  | fail (i : Nat)
  | remove (i : Nat)
  | close
  | submitExit
  | cancel (t : Nat)
  deriving DecidableEq, Repr

namespace Pool

/-- A new pool (mp 219-228). -/
def init (max : Nat) : Pool := ⟨max, [], 0, [], 0, 0, 0, false, 0, [], [], []⟩

def setPhase (s : Pool) (i : Nat) (w : Worker) (ph : Phase) : Pool :=
  { s with workers := s.workers.set i { w with phase := ph } }

def say (s : Pool) (e : PEv) : Pool := { s with log := e :: s.log }

/-- `execute` up to the call of `_spawn_new_worker_if_needed` (mp 230-240). -/
def put (s : Pool) (exit : Bool) : Pool :=
  { s with queue := s.queue ++ [⟨s.nextTask, exit⟩], unfinished := s.unfinished + 1, nextTask := s.nextTask + 1,
           pending := s.pending + 1 }

/-- The task is done or failed (`self.deferred.promise().is_completed()`). -/
def isDone (s : Pool) (t : Nat) : Bool := s.log.any (fun e => match e with | .done t' _ => t' == t | _ => false)

/-- `worker.kill()` for the worker with this id. -/
def kill (s : Pool) (id : Nat) : Pool :=
  { s with workers := s.workers.map (fun w => if w.id = id then { w with alive := false } else w) }

/-- One step; `none`: it is not possible now. -/
def step (s : Pool) : Act → Option Pool
  | .submit => if s.closed then none else some (s.put false)
  | .check =>
    match s.pending with
    | 0 => none
    | p + 1 =>
      -- mp 250-259
      if s.workers.length < s.unfinished && s.workers.length < s.max then
        some { s with pending := p, workers := s.workers ++ [⟨s.nextWorker, .top, true⟩],
                      nextWorker := s.nextWorker + 1, log := .spawned s.nextWorker :: s.log }
      else some { s with pending := p }
  | .enter i =>
    match s.workers[i]? with
    | some w =>
      match w.phase with
      | .top => some (s.setPhase i w (if s.closed || !w.alive then .removing else .waiting))
      | _ => none
    | none => none
  | .take i =>
    match s.workers[i]? with
    | some w =>
      match w.phase, s.queue with
      | .waiting, t :: rest =>
        -- mp 140-144 and `attach_worker` (mp 199-205)
        if s.canceled.contains t.id then
          some (({ s with queue := rest, unfinished := s.unfinished - 1 }).setPhase i w .top)
        else
          some ((({ s with queue := rest, attached := (t.id, w.id) :: s.attached }).setPhase i w (.running t)).say
            (.started t.id w.id))
      | _, _ => none
    | none => none
  | .timeout i =>
    match s.workers[i]? with
    | some w =>
      match w.phase, s.queue with
      | .waiting, [] => some (s.setPhase i { w with alive := false } .removing)
      | _, _ => none
    | none => none
  | .finish i =>
    match s.workers[i]? with
    | some w =>
      match w.phase with
      | .running t =>
        if w.alive && !t.exit then
          some ((({ s with unfinished := s.unfinished - 1 }).setPhase i w .top).say (.done t.id true))
        else none
      | _ => none
    | none => none
  | .die i =>
    match s.workers[i]? with
    | some w => some { s with workers := s.workers.set i { w with alive := false } }
    | none => none
  | .fail i =>
    match s.workers[i]? with
    | some w =>
      match w.phase with
      | .running t =>
        -- the process is dead or exits as told (mp 156-159)
        if !w.alive || t.exit then
          some ((({ s with unfinished := s.unfinished - 1 }).setPhase i { w with alive := false } .top).say
            (.done t.id false))
        else none
      | _ => none
    | none => none
  | .remove i =>
    match s.workers[i]? with
    | some w =>
      match w.phase with
      | .removing =>
        -- mp 244-248
        some { s with workers := s.workers.eraseIdx i, pending := s.pending + 1, log := .removed w.id :: s.log }
      | _ => none
    | none => none
  | .close => some { s with closed := true, exits := s.exits + s.workers.length }
  | .submitExit =>
    match s.exits with
    | 0 => none
    | n + 1 => some (({ s with exits := n }).put true)
  | .cancel t =>
    -- mp 207-214
    if s.canceled.contains t || s.isDone t then
      let s := { s with canceled := t :: s.canceled }
      match s.attached.find? (fun a => a.1 == t) with
      | some (_, w) => some (s.kill w)
      | none => some s
    else some s

/-- A schedule; steps that are not possible are skipped. -/
def run : List Act → Pool → Pool
  | [], s => s
  | a :: as, s => run as ((s.step a).getD s)

end Pool

/-- The states of a pool. -/
inductive PoolReach (max : Nat) : Pool → Prop where
  | start : PoolReach max (Pool.init max)
  | next {s s'} (a : Act) : PoolReach max s → s.step a = some s' → PoolReach max s'

end Conc
end Pkm
