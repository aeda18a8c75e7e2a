import Verif.Install.Model
/-
Model of plans that are executed by the operations of a plan, on one pool of threads.

`InstallationPlan.execute` (pkm/src/pkm/api/packages/package_installation.py 265-300) gives its operations to `pkm.threads`
(pkm/src/pkm/api/pkm.py 61), one `ThreadPoolExecutor` for all the program, and waits for them. An operation that installs a
package from its sources (pkm/src/pkm/api/packages/standard_package.py 112-113) builds it first, which installs the requirements
of the build (pkm/src/pkm/build/external_builders.py 120, 133), and one that installs an application installs its contained
packages (pkm/src/pkm/api/environments/package_containers.py 163). Each executes a plan of its own (package_installation.py
111), in the thread of the worker, on the same pool.

The pool has `m` workers and a queue, first in first out. Of an operation only the number of operations of its own plan
matters. Not modelled: plans below these (their operations do not execute plans), failures (see `Execution`), the tasks of the resolver, which need no others.
-/
namespace Pkm
namespace Nested

/-- What is in the queue of the pool: an operation of the outer plan with the size of its own plan, or an operation of the
plan of the operation `id`. -/
inductive Item where
  | outer (id size : Nat)
  | inner (id : Nat)
  deriving DecidableEq

/-- What a worker does: an outer operation that has not come to its plan, one that waits for some number of operations
(promises.py 114-120), an operation of an inner plan. -/
inductive Busy where
  | fresh (id size : Nat)
  | wait (id left : Nat)
  | inner (id : Nat)
  deriving DecidableEq

/-- `todo`: what the caller has yet to submit (package_installation.py 298), with the sizes of the inner plans. -/
structure St where
  todo : List (Nat × Nat)
  queue : List Item
  busy : List Busy
  deriving DecidableEq

def begin_ : Item → Busy
  | .outer id n => .fresh id n
  | .inner id => .inner id

/-- An operation of the plan of `id` has ended. -/
def ended (id : Nat) : Busy → Busy
  | .wait id' (k + 1) => if id' = id then .wait id' k else .wait id' (k + 1)
  | b => b

inductive Who where
  | submit
  | take
  | work (pos : Nat)
  deriving DecidableEq

/-- A step; `none`: not possible. -/
def step (m : Nat) (s : St) : Who → Option St
  | .submit => match s.todo with
    | [] => none
    | (id, n) :: todo => some { s with todo := todo, queue := s.queue ++ [.outer id n] }
  | .take => match s.queue with
    | [] => none
    | t :: queue => if s.busy.length < m then some { s with queue := queue, busy := s.busy ++ [begin_ t] } else none
  | .work pos => match s.busy[pos]? with
    | none => none
    | some (.fresh _ 0) => some { s with busy := s.busy.eraseIdx pos }
    | some (.fresh id (n + 1)) => some { s with busy := s.busy.set pos (.wait id (n + 1)), queue := s.queue ++ List.replicate (n + 1) (.inner id) }
    | some (.wait _ 0) => some { s with busy := s.busy.eraseIdx pos }
    | some (.wait _ (_ + 1)) => none
    | some (.inner id) => some { s with busy := (s.busy.eraseIdx pos).map (ended id) }

end Nested

namespace Spec
open Nested

/-- The operations of a plan, with the sizes of the plans they execute themselves. -/
def withPlans (sizes : List Nat) : St := ⟨sizes.zipIdx.map (fun p => (p.2, p.1)), [], []⟩

/-- The number of operations that execute a plan of their own with something in it. -/
def nesting (sizes : List Nat) : Nat := (sizes.filter (fun n => 0 < n)).length

/-- A number of steps on a pool of `m` workers. -/
inductive PoolSteps (m : Nat) : St → Nat → St → Prop
  | refl (s : St) : PoolSteps m s 0 s
  | step {s s' s'' : St} {n : Nat} (a : Who) : Nested.step m s a = some s' → PoolSteps m s' n s'' → PoolSteps m s (n + 1) s''

/-- All is done. -/
def AllDone (s : St) : Prop := s.todo = [] ∧ s.queue = [] ∧ s.busy = []

/-- Nobody can go on, but not all is done. -/
def Deadlock (m : Nat) (s : St) : Prop := ¬ AllDone s ∧ ∀ a, Nested.step m s a = none

end Spec
end Pkm
