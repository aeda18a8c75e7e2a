import Verif.Install.Model
/-
Model of the execution of an installation plan: `InstallationPlan.execute` and `_PackageOperationTask.execute`
(pkm/src/pkm/api/packages/package_installation.py 265-339, "pi"), `Promise.execute` and `await_all_promises_or_cancel`
(pkm/src/pkm/utils/promises.py 73-121, "pr"), with `MonitoredOperation.with_async` (pkm/src/pkm/utils/monitors.py 148-160)
as identity and the thread pool of Python's standard library.

What is known of a package in the site is of an arbitrary type `I`. Each operation works on its own package, in phases that
are done or raise as a whole (for the phases see the `Files` models, C32 and C96). Not modelled: the killing of another task's
worker by the cancellation of a completed one (C27), monitors that raise (C95), operations that execute a plan of their own (see `Nested`).
-/
namespace Pkm
namespace PlanRun

variable {I E : Type}

/-- The operations of a plan: `install_to` of a package that is not installed, `update_at` of a package of a repository
(pkm/src/pkm/api/packages/package.py 184-199), `update_at` of an installed package, which changes its marks
(pkm/src/pkm/api/packages/site_packages.py 200-207), and `uninstall`. -/
inductive Op (I : Type) where
  | install (new : I)
  | replace (new : I)
  | mark (f : I → I)
  | remove

/-- The phases of an operation: `update_at` uninstalls first. -/
def phases : Op I → List (Option I → Option I)
  | .install new => [fun _ => some new]
  | .replace new => [fun _ => none, fun _ => some new]
  | .mark f => [fun cur => cur.map f]
  | .remove => [fun _ => none]

/-- An operation on a package; `raises k` is the exception that ends its phase `k`. `serial`: the package is `Serializable`. -/
structure Job (I E : Type) where
  key : Text
  op : Op I
  serial : Bool
  raises : Nat → Option E

/-- Where an operation runs. -/
inductive Place where
  | caller | thread | process
  deriving DecidableEq

/-- `concurrency_mode` (pi 290-298). -/
inductive Mode where
  | none | thread | proc
  deriving DecidableEq

/-- The executor of a task (pi 290-298, 319): processes are used if more than one task can be sent to one. -/
def place (mode : Mode) (jobs : List (Job I E)) (j : Job I E) : Place :=
  match mode with
  | .none => .caller
  | .thread => .thread
  | .proc => if 1 < (jobs.filter (·.serial)).length ∧ j.serial then .process else .thread

inductive Status (E : Type) where
  /-- not yet submitted -/
  | waiting
  | queued
  /-- the number of phases done -/
  | running (k : Nat)
  | finished (e : Option E)
  | cancelled
  deriving DecidableEq

/-- Where the caller of `execute` is. -/
inductive Main (E : Type) where
  /-- the list comprehension (pi 295, 298) -/
  | submit (i : Nat)
  /-- `await_all_promises` (pr 114-120) -/
  | await (i : Nat)
  /-- the list comprehension that requests cancellation (pr 106) -/
  | cancel (e : E) (i : Nat) (left : List Nat)
  /-- waiting for those that were not cancelled (pr 106-110) -/
  | settle (e : E) (left : List Nat)
  | raised (e : E)
  | returned
  deriving DecidableEq

/-- What does not change. `isExc`: the exception is an `Exception`. -/
structure Env (I E : Type) where
  mode : Mode
  jobs : List (Job I E)
  threads : Nat
  procs : Nat
  isExc : E → Bool

structure State (I E : Type) where
  /-- the files of the site, by the key of the package -/
  site : Text → Option I
  /-- what `target.site_packages` has read of it -/
  view : Option (Text → Option I)
  status : List (Status E)
  main : Main E

/-- The beginning: the packages of the site were read to compute the operations (pi 276). -/
def init (env : Env I E) (site : Text → Option I) : State I E := ⟨site, some site, env.jobs.map (fun _ => .waiting), .submit 0⟩

def setSite (site : Text → Option I) (k : Text) (v : Option I) : Text → Option I := fun k' => if k' = k then v else site k'

/-- A phase that uninstalls an installed package reloads the site (site_packages.py 235-236): of the object it has, which a
process has a copy of. -/
def viewAfter (p : Place) (v : Option I) (view : Option (Text → Option I)) : Option (Text → Option I) :=
  if p ≠ .process ∧ v.isNone then none else view

/-- An operation in the thread of the caller (pr 77-81). -/
def runAll (j : Job I E) : Nat → List (Option I → Option I) → (Text → Option I) → Option (Text → Option I) →
    (Text → Option I) × Option (Text → Option I) × Option E
  | _, [], site, view => (site, view, none)
  | k, f :: fs, site, view => match j.raises k with
    | some e => (site, view, some e)
    | none => runAll j (k + 1) fs (setSite site j.key (f (site j.key))) (viewAfter .caller (f (site j.key)) view)

/-- Whether some earlier operation waits for the same pool. -/
def first (env : Env I E) (p : Place) (i : Nat) (status : List (Status E)) : Bool :=
  (List.range i).all (fun i' => match env.jobs[i']?, status[i']? with
    | some j, some .queued => place env.mode env.jobs j ≠ p
    | _, _ => true)

/-- The number of workers of a pool that are busy. -/
def busy (env : Env I E) (p : Place) (status : List (Status E)) : Nat :=
  ((List.range env.jobs.length).filter (fun i => match env.jobs[i]?, status[i]? with
    | some j, some (.running _) => place env.mode env.jobs j = p
    | _, _ => false)).length

def limit (env : Env I E) : Place → Nat
  | .caller => 0
  | .thread => env.threads
  | .process => env.procs

/-- A step of the caller; `none`: it waits, or has ended. -/
def stepMain (env : Env I E) (s : State I E) : Option (State I E) :=
  match s.main with
  | .submit i => match env.jobs[i]? with
    | none => some { s with main := .await 0 }
    | some j => match place env.mode env.jobs j with
      | .caller =>
        let r := runAll j 0 (phases j.op) s.site s.view
        some ⟨r.1, r.2.1, s.status.set i (.finished r.2.2), .submit (i + 1)⟩
      | _ => some { s with status := s.status.set i .queued, main := .submit (i + 1) }
  | .await i => match s.status[i]? with
    | none => some { s with view := none, main := .returned }
    | some (.finished none) => some { s with main := .await (i + 1) }
    | some (.finished (some e)) => some { s with main := if env.isExc e then .cancel e 0 [] else .raised e }
    | _ => none
  | .cancel e i left => match env.jobs[i]?, s.status[i]? with
    | some j, some st => match place env.mode env.jobs j with
      | .process => some { s with main := .cancel e (i + 1) left }
      | .caller => some { s with main := .cancel e (i + 1) (left ++ [i]) }
      | .thread => match st with
        | .queued => some { s with status := s.status.set i .cancelled, main := .cancel e (i + 1) left }
        | .cancelled => some { s with main := .cancel e (i + 1) left }
        | _ => some { s with main := .cancel e (i + 1) (left ++ [i]) }
    | _, _ => some { s with main := .settle e left }
  | .settle e left => match left with
    | [] => some { s with main := .raised e }
    | i :: left => match s.status[i]? with
      | some (.finished _) => some { s with main := .settle e left }
      | _ => none
  | .raised _ => none
  | .returned => none

/-- A step of the worker that has, or takes, operation `i`. -/
def stepWorker (env : Env I E) (s : State I E) (i : Nat) : Option (State I E) :=
  match env.jobs[i]?, s.status[i]? with
  | some j, some .queued =>
    let p := place env.mode env.jobs j
    if first env p i s.status ∧ busy env p s.status < limit env p then some { s with status := s.status.set i (.running 0) } else none
  | some j, some (.running k) => match (phases j.op)[k]? with
    | none => some { s with status := s.status.set i (.finished none) }
    | some f => match j.raises k with
      | some e => some { s with status := s.status.set i (.finished (some e)) }
      | none => some { s with
          site := setSite s.site j.key (f (s.site j.key))
          view := viewAfter (place env.mode env.jobs j) (f (s.site j.key)) s.view
          status := s.status.set i (.running (k + 1)) }
  | _, _ => none

/-- Who makes a step. -/
inductive Actor where
  | main
  | worker (i : Nat)
  deriving DecidableEq

def step (env : Env I E) (s : State I E) : Actor → Option (State I E)
  | .main => stepMain env s
  | .worker i => stepWorker env s i

/-- A schedule; steps that are not possible are skipped. -/
def run (env : Env I E) : List Actor → State I E → State I E
  | [], s => s
  | a :: as, s => run env as ((step env s a).getD s)

end PlanRun
end Pkm
