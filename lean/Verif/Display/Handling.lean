import Verif.Tags.Model
import Verif.Parser
/-
Model of the message about the packages that are being installed, updated or removed (pkm-cli/src/pkm_cli/cli_monitors.py 18-52,
"cm"; the spinner is pkm-cli/src/pkm_cli/display/spinner.py, "sp").

Many operations run at a time; each is a generator that is started when its operation begins and resumed, or given the exception,
when it ends (C95), in any thread. One step is one statement of a generator; the last statement of each part includes the release of
the lock. Left out: what `Display.show` does with other pieces (C101), exceptions of the display, times.
-/
namespace Pkm
namespace Handling

/-- `PackageDescriptor`: compared by name and version (cm 43). -/
structure Pack where
  name : Text
  version : Text
  deriving DecidableEq, Repr

/-- `','.join(...)` (cm 29). -/
def commas : List Text → Text
  | [] => []
  | [t] => t
  | t :: u :: ts => t ++ ',' :: commas (u :: ts)

/-- `update_description` (cm 28-32). -/
def description (ps : List Pack) : Text :=
  let d := t!"Handling Packages: " ++ commas ((ps.take 3).map (fun p => p.name ++ ' ' :: p.version))
  if ps.length > 3 then d ++ (t!" and " ++ (showNat (ps.length - 3) ++ t!" more...")) else d

/-- Where a generator is. -/
inductive At where
  /-- before cm 34 -/
  | idle
  /-- holds the lock, cm 35-37 -/
  | showing
  /-- cm 38 -/
  | adding
  /-- cm 40 -/
  | describing
  /-- has released the lock: at `yield`, cm 43 -/
  | body
  /-- holds the lock, cm 46 -/
  | removing
  /-- cm 48-51 -/
  | finishing
  | done
  /-- `ValueError` of `list.remove` (cm 46) -/
  | failed
  deriving DecidableEq, Repr

/-- A line that is printed if the terminal is poor (sp 27-31). -/
inductive Line where
  | start (text : Text)
  | stop (text : Text)
  deriving DecidableEq, Repr

/-- What happened to the operations, in order: not part of the program. -/
inductive Ev where
  | began (i : Nat)
  | ended (i : Nat)
  deriving DecidableEq, Repr

structure State where
  lock : Option Nat
  at_ : Nat → At
  /-- `_packages_being_installed` -/
  handled : List Pack
  /-- how often the spinner is on the display -/
  shown : Nat
  /-- its description -/
  desc : Text
  out : List Line
  log : List Ev

/-- `Spinner("")` (cm 19): nothing runs. -/
def initial : State := ⟨none, fun _ => .idle, [], 0, [], [], []⟩

def State.go (s : State) (i : Nat) (a : At) : State := { s with at_ := fun j => if j = i then a else s.at_ j }

/-- `with _packages_being_installed_spinner_lock` (cm 34, 45): waits while another thread is in it. -/
def State.acquire (s : State) (i : Nat) (a : At) : State :=
  match s.lock with
  | none => { s.go i a with lock := some i }
  | some _ => s

/-- The next step of the operation `i` (cm 34-51). -/
def step (pkg : Nat → Pack) (i : Nat) (s : State) : State :=
  match s.at_ i with
  | .idle => s.acquire i .showing
  | .showing =>
    if s.handled = [] then { s.go i .adding with shown := s.shown + 1, out := s.out ++ [.start s.desc] }
    else s.go i .adding
  | .adding => { s.go i .describing with handled := s.handled ++ [pkg i], log := s.log ++ [.began i] }
  | .describing => { s.go i .body with desc := description s.handled, lock := none }
  | .body => s.acquire i .removing
  | .removing =>
    if pkg i ∈ s.handled then
      { s.go i .finishing with handled := s.handled.erase (pkg i), log := s.log ++ [.ended i] }
    else { s.go i .failed with lock := none }
  | .finishing =>
    if s.handled = [] then
      { s.go i .done with shown := s.shown - 1, out := s.out ++ [.stop s.desc], lock := none }
    else { s.go i .done with desc := description s.handled, lock := none }
  | .done => s
  | .failed => s

/-- The threads run in some order: the operation that makes the next step, again and again. -/
def run (pkg : Nat → Pack) : List Nat → State → State
  | [], s => s
  | i :: is, s => run pkg is (step pkg i s)

/-- What the spinner says, if it is on the display. -/
def State.visible (s : State) : Option Text := if s.shown = 0 then none else some s.desc

end Handling
end Pkm
