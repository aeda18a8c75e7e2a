import Verif.Dict
/-
Model of pkm/src/pkm/utils/monitors.py ("mo"): listeners of operations and events. The programs are those
that use `with Operation():` and `operation.notify(event)`, as pkm does. Types, functions and exceptions are
numbers.
-/
namespace Pkm
namespace Mon

inductive Exc where
  /-- of the program or of a listener -/
  | app (n : Nat)
  /-- `None` is called -/
  | typeError
  /-- `StopIteration` -/
  | stop
deriving DecidableEq

/-- How a `with_` generator goes on when an exception is thrown into it. -/
inductive OnThrow where
  /-- the exception leaves it, as from `try: yield finally:` -/
  | reraise
  /-- it ends -/
  | swallow
  /-- it yields once more -/
  | again
deriving DecidableEq

/-- A `with_` generator (mo 68-96). `events` are the listeners that it registers on the operation while it
runs; `some none` is a type with a `leave_` or `failed_` listener only. -/
structure Gen where
  /-- it ends before its first `yield` -/
  ends : Bool
  events : Nat → Option (Option Nat)
  onThrow : OnThrow

/-- What is registered for the type of an operation (mo 12-17). -/
inductive Callback where
  | plain (enter leave fail : Option Nat)
  | gen (g : Gen)

/-- The listeners of `Monitor` for operations, and the exceptions that listeners raise. -/
structure Cfg where
  ops : Nat → Option Callback
  raises : Nat → Option Exc

/-- Programs. -/
inductive Prog where
  | skip
  | act (a : Nat)
  | raise (e : Nat)
  | seq (p q : Prog)
  /-- an event of the operation that the program is in -/
  | event (v : Nat)
  | op (t : Nat) (body : Prog)

/-- What happens. -/
inductive Item where
  | act (a : Nat)
  /-- a listener is called with an event -/
  | heard (h v : Nat)
  /-- a plain listener of an operation is called -/
  | called (h : Nat)
  /-- a generator starts, ends, gets an exception -/
  | begin (t : Nat)
  | finish (t : Nat)
  | cleanup (t : Nat) (e : Exc)
deriving DecidableEq

/-- `cb and cb.method and cb.method(...)`. -/
def call (c : Cfg) : Option Nat → List Item × Option Exc
  | none => ([], none)
  | some h => ([.called h], c.raises h)

/-- `notify` (mo 114-115). -/
def notify (c : Cfg) (cur : Nat → Option (Option Nat)) (v : Nat) : List Item × Option Exc :=
  match cur v with
  | none => ([], none)
  | some none => ([], some .typeError)
  | some (some h) => ([.heard h v], c.raises h)

/-- `__exit__` with plain listeners (mo 140-146): the items and the exception that leaves the statement. -/
def plainExit (c : Cfg) (leave fail : Option Nat) (r : Option Exc) : List Item × Option Exc :=
  match r with
  | none => call c leave
  | some e =>
    match call c fail with
    | (i, some x) => (i, some x)
    | (i, none) =>
      match call c leave with
      | (j, some x) => (i ++ j, some x)
      | (j, none) => (i ++ j, some e)

/-- `__exit__` with a generator that has yielded (mo 81-90, 140-146): its end is caught when it is resumed,
but not when an exception is thrown into it. -/
def genExit (t : Nat) (g : Gen) (r : Option Exc) : List Item × Option Exc :=
  match r with
  | none => ([.finish t], none)
  | some e =>
    match g.onThrow with
    | .reraise => ([.cleanup t e], some e)
    | .swallow => ([.cleanup t e], some .stop)
    | .again => ([.cleanup t e], some e)

/-- The callback of `with_async` when the promise ends with the given outcome (mo 151-158): an exception of
the first `__exit__` comes to the same handler as one of the promise. -/
def asyncExit (c : Cfg) (leave fail : Option Nat) (r : Option Exc) : List Item × Option Exc :=
  match r with
  | some e => plainExit c leave fail (some e)
  | none =>
    match plainExit c leave fail none with
    | (i, none) => (i, none)
    | (i, some x) =>
      let y := plainExit c leave fail (some x)
      (i ++ y.1, y.2)

/-- A run of a program in an operation with the given listeners of events (mo 126-146). An operation has no
listeners of its own, unless a generator registers them. -/
def exec (c : Cfg) (cur : Nat → Option (Option Nat)) : Prog → List Item × Option Exc
  | .skip => ([], none)
  | .act a => ([.act a], none)
  | .raise e => ([], some (.app e))
  | .seq p q =>
    match exec c cur p with
    | (i, some e) => (i, some e)
    | (i, none) => (i ++ (exec c cur q).1, (exec c cur q).2)
  | .event v => notify c cur v
  | .op t body =>
    match c.ops t with
    | none => exec c (fun _ => none) body
    | some (.plain enter leave fail) =>
      match call c enter with
      | (i, some e) => (i, some e)
      | (i, none) =>
        let b := exec c (fun _ => none) body
        let x := plainExit c leave fail b.2
        (i ++ b.1 ++ x.1, x.2)
    | some (.gen g) =>
      if g.ends then exec c (fun _ => none) body
      else
        let b := exec c g.events body
        let x := genExit t g b.2
        (.begin t :: b.1 ++ x.1, x.2)

/-! ### The registry -/

/-- What `_callbacks` holds for a type: nothing, or a callback that remembers what it replaced (mo 12-17). -/
inductive Cb where
  | nil
  | mk (parent : Cb) (enter leave fail : Option Nat)

/-- The kinds of listeners, by the prefix of their name (mo 49, 62-67). -/
inductive Mode where
  | enter | leave | failed
deriving DecidableEq

/-- `self._callbacks.get(type)`. -/
def look (m : Dict Nat Cb) (t : Nat) : Cb := (Dict.get m t).getD .nil

/-- One listener more (mo 58-67). -/
def addOne (old : Dict Nat Cb) (m : Dict Nat Cb) (l : Nat × Mode × Nat) : Dict Nat Cb :=
  let base := match Dict.get m l.1 with
    | some c => c
    | none => .mk (look old l.1) none none none
  Dict.put m l.1 (match base with
    | .nil => .nil
    | .mk p e lv f => match l.2.1 with
      | .enter => .mk p (some l.2.2) lv f
      | .leave => .mk p e (some l.2.2) f
      | .failed => .mk p e lv (some l.2.2))

/-- `_create_callbacks` (mo 46-97), without `with_` listeners; methods that have no annotated first
argument are passed over by the caller of this. -/
def create (old : Dict Nat Cb) (ls : List (Nat × Mode × Nat)) : Dict Nat Cb := ls.foldl (addOne old) []

/-- `add_listeners` (mo 27-30), and the start of `listen` (mo 36-38). -/
def install (old : Dict Nat Cb) (ls : List (Nat × Mode × Nat)) : Dict Nat Cb :=
  (create old ls).foldl (fun m e => Dict.put m e.1 e.2) old

/-- `callback.parent`. -/
def Cb.parent : Cb → Cb
  | .nil => .nil
  | .mk p _ _ _ => p

/-- `listen` around a body that changes the registry (mo 33-44). -/
def listen (ls : List (Nat × Mode × Nat)) (body : Dict Nat Cb → Dict Nat Cb) (old : Dict Nat Cb) : Dict Nat Cb :=
  (create old ls).foldl (fun m e => Dict.put m e.1 e.2.parent) (body (install old ls))

end Mon
end Pkm
