import Verif.Concurrency.PromiseLemmas
/-
Model of `cached_property` (pkm/src/pkm/utils/properties.py 13-74, "cp" below) under concurrency: one
property of one instance, read and cleared by any number of threads in any interleaving.

Simplifications: the body of `with self._mutation_lock` (cp 29-32 and 43-44) is one step, since it does
nothing but access the dictionary; `hasattr`, `getattr`, `setattr` and `delattr` of the instance are one step
each; the function does not read the property of the same instance itself (the locks are re-entrant, such a
function recurses forever); the result of the k-th call of the function is given by `func k`; a setter is
not modelled; the identifier of the instance is not reused while its entry exists (cp 27).
-/
namespace Pkm
namespace Conc

variable {V E : Type}

/-- What the threads do: read the property or `del` it (also what `clear_cached_properties` does, cp 77-80). -/
inductive COp where
  | read
  | clear
  deriving DecidableEq, Repr

/-- Where a thread is. `lk` is the number of the instance lock, `own` is `instance_lock_owner`. -/
inductive CPC (V : Type) where
  /-- between two operations -/
  | run
  /-- `getattr` in the loop of `__get__` (cp 50-54) -/
  | read
  /-- `_compute` up to the end of the first critical section (cp 27-32) -/
  | enter
  /-- `with instance_lock` (cp 34) -/
  | acquire (lk : Nat) (own : Bool)
  /-- `if not hasattr` (cp 35) -/
  | inside (lk : Nat) (own : Bool)
  /-- in `self._func(instance)` (cp 36), the `k`-th call of it -/
  | computing (lk : Nat) (own : Bool) (k : Nat)
  /-- `setattr` (cp 37-40) -/
  | setting (lk : Nat) (own : Bool) (v : V)
  /-- the end of `with instance_lock` -/
  | releasing (lk : Nat) (own : Bool)
  /-- `del self._instance_locks[iid]` (cp 42-44) -/
  | cleanup (lk : Nat)
  /-- `if hasattr` in `__delete__` (cp 73) -/
  | delCheck
  /-- `delattr` in `__delete__` (cp 74) -/
  | delAttr
  deriving DecidableEq, Repr

structure CThread (V : Type) where
  pc : CPC V
  prog : List COp
  deriving DecidableEq, Repr

/-- What can be observed. -/
inductive CEv (V E : Type) where
  /-- the function is called -/
  | call (thread : Nat)
  /-- the function returned -/
  | computed (thread : Nat) (v : V)
  /-- the function raised, and so does the read -/
  | raised (thread : Nat) (e : E)
  /-- a read returned -/
  | returned (thread : Nat) (v : V)
  /-- `KeyError` of `del self._instance_locks[iid]` -/
  | keyError (thread : Nat)
  /-- `AttributeError` of `delattr` -/
  | attributeError (thread : Nat)
  deriving DecidableEq, Repr

/-- The cached attribute of the instance, the entry of `_instance_locks`, the holders of the instance locks
made so far, the number of calls of the function, the threads and what was observed (the latest first). -/
structure CState (V E : Type) where
  attr : Option V
  entry : Option Nat
  locks : List (Option Nat)
  calls : Nat
  threads : List (CThread V)
  log : List (CEv V E)
  deriving DecidableEq, Repr

namespace CState

def init (progs : List (List COp)) : CState V E := ⟨none, none, [], 0, progs.map (fun p => ⟨.run, p⟩), []⟩

def setPC (s : CState V E) (i : Nat) (th : CThread V) (pc : CPC V) : CState V E :=
  { s with threads := s.threads.set i { th with pc := pc } }

def say (s : CState V E) (e : CEv V E) : CState V E := { s with log := e :: s.log }

/-- Release an instance lock. -/
def unlock (s : CState V E) (lk : Nat) : CState V E := { s with locks := s.locks.set lk none }

/-- The first step of an operation. -/
def start : COp → CPC V
  | .read => .read
  | .clear => .delCheck

/-- One step of thread `i`; `none`: the thread cannot step now. -/
def step (func : Nat → Except E V) (s : CState V E) (i : Nat) : Option (CState V E) :=
  match s.threads[i]? with
  | none => none
  | some th =>
    match th.pc with
    | .run =>
      match th.prog with
      | [] => none
      | op :: rest => some { s with threads := s.threads.set i ⟨start op, rest⟩ }
    | .read =>
      match s.attr with
      | some v => some ((s.setPC i th .run).say (.returned i v))
      | none => some (s.setPC i th .enter)
    | .enter =>
      match s.entry with
      | some lk => some (s.setPC i th (.acquire lk false))
      | none =>
        some (({ s with entry := some s.locks.length, locks := s.locks ++ [none] }).setPC i th
          (.acquire s.locks.length true))
    | .acquire lk own =>
      match s.locks[lk]? with
      | some none => some (({ s with locks := s.locks.set lk (some i) }).setPC i th (.inside lk own))
      | _ => none
    | .inside lk own =>
      match s.attr with
      | some _ => some (s.setPC i th (.releasing lk own))
      | none => some ((({ s with calls := s.calls + 1 }).setPC i th (.computing lk own s.calls)).say (.call i))
    | .computing lk own k =>
      match func k with
      | .ok v => some ((s.setPC i th (.setting lk own v)).say (.computed i v))
      | .error e => some (((s.unlock lk).setPC i th .run).say (.raised i e))
    | .setting lk own v => some (({ s with attr := some v }).setPC i th (.releasing lk own))
    | .releasing lk own => some ((s.unlock lk).setPC i th (if own then .cleanup lk else .read))
    | .cleanup _ =>
      match s.entry with
      | some _ => some (({ s with entry := none }).setPC i th .read)
      | none => some ((s.setPC i th .run).say (.keyError i))
    | .delCheck =>
      match s.attr with
      | some _ => some (s.setPC i th .delAttr)
      | none => some (s.setPC i th .run)
    | .delAttr =>
      match s.attr with
      | some _ => some (({ s with attr := none }).setPC i th .run)
      | none => some ((s.setPC i th .run).say (.attributeError i))

/-- A schedule: the threads in the order of their steps. Threads that cannot step are skipped. -/
def runSchedule (func : Nat → Except E V) : List Nat → CState V E → CState V E
  | [], s => s
  | i :: is, s => runSchedule func is ((s.step func i).getD s)

end CState

/-- The states that some interleaving leads to. -/
inductive CReach (func : Nat → Except E V) (s0 : CState V E) : CState V E → Prop where
  | start : CReach func s0 s0
  | next {s s'} (i : Nat) : CReach func s0 s → s.step func i = some s' → CReach func s0 s'

/-- `n` steps in a row. -/
inductive CSteps (func : Nat → Except E V) : CState V E → Nat → CState V E → Prop where
  | zero {s} : CSteps func s 0 s
  | succ {s s' s'' n} (i : Nat) : CSteps func s n s' → s'.step func i = some s'' → CSteps func s (n + 1) s''

end Conc
end Pkm
