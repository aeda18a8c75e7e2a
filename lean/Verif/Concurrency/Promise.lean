import Verif.Dict
/-
Model of `_SimplePromise` of pkm/src/pkm/utils/promises.py ("pr") under concurrency.

Any number of threads execute programs of calls on one promise. A step of the system is one step of one
thread: acquiring the lock, or one statement inside of a critical section, or one call of a listener; every
interleaving is a sequence of thread numbers. `Condition.wait` releases the lock and blocks until
`notify_all` (no spurious wake-ups, which would only add steps), then the thread has to acquire the lock
again. Listeners are opaque: in the code they are wrappers that catch every exception (pr 164-169).
-/
namespace Pkm
namespace Conc

variable {V E L : Type}

/-- What a promise is completed with. -/
inductive Outcome (V E : Type) where
  | value (v : V)
  | error (e : E)
  deriving DecidableEq, Repr

/-- The calls that a thread makes. -/
inductive POp (V E L : Type) where
  /-- `_complete(v)` / `_fail(e)` -/
  | finish (o : Outcome V E)
  /-- `when_completed(callback)` -/
  | listen (l : L)
  /-- `result(wait)` -/
  | result (wait : Bool)
  deriving DecidableEq, Repr

/-- Where a thread is. -/
inductive PC (V E L : Type) where
  /-- between two calls -/
  | run
  /-- `_complete`/`_fail` with the lock: `if self._done` (pr 202, 217) -/
  | check (o : Outcome V E)
  /-- `self._result = result` / `self._err = err` (pr 204, 220) -/
  | write (o : Outcome V E)
  /-- `self._done = True` (pr 205, 221) -/
  | setDone (o : Outcome V E)
  /-- `notify_all()` (pr 206, 222) -/
  | notifyAll
  /-- `listeners = self._listeners; self._listeners = None` and the end of the critical section -/
  | take
  /-- the listeners still to be called (pr 210, 226) -/
  | call (ls : List L)
  /-- `when_completed` with the lock (pr 157-172) -/
  | listenIn (l : L)
  /-- `result` with the lock (pr 180-189) -/
  | resultIn (wait : Bool)
  /-- in `self._wait_lock.wait()` -/
  | waiting
  /-- notified, has to acquire the lock again -/
  | retry
  deriving DecidableEq, Repr

structure Thread (V E L : Type) where
  pc : PC V E L
  prog : List (POp V E L)
  deriving DecidableEq, Repr

/-- What can be observed. -/
inductive Ev (V E L : Type) where
  | completed (o : Outcome V E)
  /-- `ValueError("already completed")` -/
  | rejected (thread : Nat)
  | called (l : L)
  /-- a call of `result` returned or raised -/
  | got (thread : Nat) (o : Outcome V E)
  /-- a call of `result` returned the initial `None` of `_result` -/
  | gotNone (thread : Nat)
  /-- `ValueError("promise not completed yet")` -/
  | notYet (thread : Nat)
  /-- an `AttributeError` or `TypeError` since `_listeners` is `None` -/
  | crash (thread : Nat)
  deriving DecidableEq, Repr

/-- The fields of the promise (pr 148-153), the lock, the threads and what was observed so far (the latest
event first). -/
structure PState (V E L : Type) where
  lock : Option Nat
  result : Option V
  err : Option E
  done : Bool
  listeners : Option (List L)
  threads : List (Thread V E L)
  log : List (Ev V E L)
  deriving DecidableEq, Repr

namespace PState

/-- The state of a new promise with threads that have their programs before them. -/
def init (progs : List (List (POp V E L))) : PState V E L :=
  ⟨none, none, none, false, some [], progs.map (fun p => ⟨.run, p⟩), []⟩

def setPC (s : PState V E L) (i : Nat) (th : Thread V E L) (pc : PC V E L) : PState V E L :=
  { s with threads := s.threads.set i { th with pc := pc } }

/-- Leave the critical section. -/
def leave (s : PState V E L) (i : Nat) (th : Thread V E L) (pc : PC V E L) : PState V E L :=
  { s with lock := none, threads := s.threads.set i { th with pc := pc } }

def say (s : PState V E L) (e : Ev V E L) : PState V E L := { s with log := e :: s.log }

/-- The critical section that a call starts with. -/
def entry : POp V E L → PC V E L
  | .finish o => .check o
  | .listen l => .listenIn l
  | .result w => .resultIn w

/-- `notify_all`. -/
def wake (th : Thread V E L) : Thread V E L :=
  match th.pc with
  | .waiting => { th with pc := .retry }
  | _ => th

/-- What `result` returns or raises for a completed promise (pr 182-184): `raise self._err` if the
exception is truthy. `none`: the returned value is Python's `None` as `_result` was not set. -/
def outcome (truthy : E → Bool) (s : PState V E L) : Option (Outcome V E) :=
  match s.err with
  | some e => if truthy e then some (.error e) else s.result.map .value
  | none => s.result.map .value

/-- One step of thread `i`; `none`: the thread cannot step now. -/
def step (truthy : E → Bool) (s : PState V E L) (i : Nat) : Option (PState V E L) :=
  match s.threads[i]? with
  | none => none
  | some th =>
    match th.pc with
    | .run =>
      match th.prog with
      | [] => none
      | op :: rest =>
        if s.lock.isSome then none
        else some { s with lock := some i, threads := s.threads.set i ⟨entry op, rest⟩ }
    | .check o =>
      if s.done then some ((s.leave i th .run).say (.rejected i))
      else some (s.setPC i th (.write o))
    | .write o =>
      match o with
      | .value v => some (({ s with result := some v }).setPC i th (.setDone o))
      | .error e => some (({ s with err := some e }).setPC i th (.setDone o))
    | .setDone o => some ((({ s with done := true }).setPC i th .notifyAll).say (.completed o))
    | .notifyAll =>
      some (({ s with threads := s.threads.map wake }).setPC i th .take)
    | .take =>
      match s.listeners with
      | some ls => some (({ s with listeners := none }).leave i th (.call ls))
      | none => some ((s.leave i th .run).say (.crash i))
    | .call ls =>
      match ls with
      | [] => some (s.setPC i th .run)
      | l :: ls => some ((s.setPC i th (.call ls)).say (.called l))
    | .listenIn l =>
      if s.done then some (s.leave i th (.call [l]))
      else
        match s.listeners with
        | some ls => some (({ s with listeners := some (ls ++ [l]) }).leave i th .run)
        | none => some ((s.leave i th .run).say (.crash i))
    | .resultIn wait =>
      if s.done then
        match s.outcome truthy with
        | some o => some ((s.leave i th .run).say (.got i o))
        | none => some ((s.leave i th .run).say (.gotNone i))
      else if wait then some (s.leave i th .waiting)
      else some ((s.leave i th .run).say (.notYet i))
    | .waiting => none
    | .retry =>
      if s.lock.isSome then none
      else some { s with lock := some i, threads := s.threads.set i { th with pc := .resultIn true } }

/-- A schedule: the threads in the order of their steps. Threads that cannot step are skipped. -/
def runSchedule (truthy : E → Bool) : List Nat → PState V E L → PState V E L
  | [], s => s
  | i :: is, s => runSchedule truthy is ((s.step truthy i).getD s)

end PState

/-- The states that some interleaving leads to. -/
inductive Reach (truthy : E → Bool) (s0 : PState V E L) : PState V E L → Prop where
  | start : Reach truthy s0 s0
  | next {s s'} (i : Nat) : Reach truthy s0 s → s.step truthy i = some s' → Reach truthy s0 s'

end Conc
end Pkm
