/-
Model of the live display of the command line (pkm-cli/src/pkm_cli/display/display.py 37-80, "ds"): threads that show pieces of information for some
time, and the thread that draws them again and again.

One step is one access to what threads share: the list of pieces (which is replaced, never changed), the lock of the condition `_requires_render`, the
condition. A piece is the number of the thread that shows it: each call of `show` makes a new object (progress.py 30-33, spinner.py 37), pieces are
compared with `is` (ds 80). Not modelled: what a piece looks like, the lock of the console, exceptions of the drawing, the time between two drawings.
-/
namespace Pkm
namespace Live

/-- Where a thread in `show` is (ds 70-80). -/
inductive At where
  /-- before ds 72 -/
  | idle
  /-- holds the lock, ds 73 -/
  | locked
  /-- has read the list, ds 73 -/
  | adding (read : List Nat)
  /-- has replaced the list, ds 74 -/
  | added
  /-- has released the lock: in the body of `with Display.show(..)`, ds 78 -/
  | shown
  /-- has read the list, ds 80 -/
  | removing (read : List Nat)
  | gone
  deriving DecidableEq

/-- Where the thread that draws is (`_refresh_loop`, ds 50-64). -/
inductive Ref where
  /-- ds 53 -/
  | top
  /-- ds 55-56 -/
  | draw
  /-- ds 58 -/
  | note
  /-- ds 61 -/
  | enter
  /-- holds the lock, ds 62 -/
  | check
  /-- ds 63 -/
  | waiting
  /-- has been notified, and needs the lock to go on -/
  | woken
  deriving DecidableEq

inductive Holder where
  | user (i : Nat)
  | refresher
  deriving DecidableEq

structure State where
  /-- `_live_components` -/
  comps : List Nat
  lock : Option Holder
  users : List At
  ref : Ref
  /-- `empty_rendered` -/
  empty : Bool
  /-- what is on the screen -/
  drawn : List Nat
  deriving DecidableEq

/-- `_LiveOutput` when it is made (ds 37-48), with threads that will use it. -/
def start (n : Nat) : State := ⟨[], none, List.replicate n .idle, .top, false, []⟩

/-- `notify_all` (ds 75). -/
def notify (r : Ref) : Ref := if r = .waiting then .woken else r

/-- A step of the thread `i`; none if it has to wait for the lock. -/
def userStep (s : State) (i : Nat) : State :=
  match s.users[i]? with
  | none => s
  | some .idle => if s.lock = none then { s with lock := some (.user i), users := s.users.set i .locked } else s
  | some .locked => { s with users := s.users.set i (.adding s.comps) }
  | some (.adding xs) => { s with comps := i :: xs, users := s.users.set i .added }
  | some .added =>
    { s with ref := if s.comps.length = 1 then notify s.ref else s.ref, lock := none, users := s.users.set i .shown }
  | some .shown => { s with users := s.users.set i (.removing s.comps) }
  | some (.removing xs) => { s with comps := xs.filter (· ≠ i), users := s.users.set i .gone }
  | some .gone => s

/-- A step of the thread that draws. -/
def refStep (s : State) : State :=
  match s.ref with
  | .top => { s with ref := if s.comps ≠ [] ∨ s.empty = false then .draw else .enter }
  | .draw => { s with drawn := s.comps, ref := .note }
  | .note => { s with empty := s.comps.isEmpty, ref := .top }
  | .enter => if s.lock = none then { s with lock := some .refresher, ref := .check } else s
  | .check => { s with lock := none, ref := if s.comps = [] then .waiting else .top }
  | .waiting => s
  | .woken => if s.lock = none then { s with ref := .top } else s

/-- Who makes a step: a thread, or the one that draws. -/
inductive Event where
  | user (i : Nat)
  | refresh
  deriving DecidableEq

def happen (s : State) : Event → State
  | .user i => userStep s i
  | .refresh => refStep s

end Live
end Pkm
