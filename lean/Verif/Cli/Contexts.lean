import Verif.Tags.Model
import Verif.Dict
/-
Model of the context a command works on: pkm-cli/src/pkm_cli/utils/context.py ("cx"), `Command.parents`,
`Command.parent_by_path` and `Command.__getattr__` of pkm-cli/src/pkm_cli/api/dynamic_cli/command_parser.py ("cp"),
and the choice of the project whose attached tasks run, `main` of pkm-cli/src/pkm_cli/main.py ("ma").

A directory is the list of its components below the root; the disk says which files exist. Loading a project, a
group, an environment or a zoo that is there is taken to succeed. `Path.resolve` is the identity: no link leads from
one directory to another. What is printed is left out.
-/
namespace Pkm.Ctx

abbrev Dir := List Text

def pyproject : Text := t!"pyproject.toml"
def pygroup : Text := t!"pyproject-group.toml"
def pyvenv : Text := t!"pyvenv.cfg"
def zooFile : Text := t!"env-zoo.toml"

/-- What a handler is called with: the project, the group, the environment or the zoo of a directory, or the
environment attached to the project of a directory. -/
inductive Found where
  | project (d : Dir)
  | group (d : Dir)
  | env (d : Dir)
  | attached (d : Dir)
  | zoo (d : Dir)
  deriving DecidableEq, Repr

/-- The handlers given to `Context.run` (cx 105-113): which of them are not `None`. -/
structure Handlers where
  project : Bool := false
  group : Bool := false
  env : Bool := false
  zoo : Bool := false
  free : Bool := false
  missing : Bool := false
  deriving DecidableEq, Repr

/-- What `Context.run` ends in: a handler called, or `UnsupportedOperationException`. -/
inductive Outcome where
  | on (f : Found)
  | global (site : Text)
  | free
  | missing
  | unsupported
  deriving DecidableEq, Repr

/-- `_lookup_project_group`, `_lookup_project`, `_lookup_env`, `_lookup_env_zoo` (cx 22-41). -/
def lookupGroup (disk : Dir → Bool) (d : Dir) : Option Found :=
  if disk (d ++ [pygroup]) then some (.group d) else none

def lookupProject (disk : Dir → Bool) (d : Dir) : Option Found :=
  if disk (d ++ [pyproject]) then some (.project d) else none

def lookupEnv (disk : Dir → Bool) (d : Dir) : Option Found :=
  if disk (d ++ [pyvenv]) then some (.env d)
  else match lookupProject disk d with
    | some _ => some (.attached d)
    | none => none

def lookupZoo (disk : Dir → Bool) (d : Dir) : Option Found :=
  if disk (d ++ [zooFile]) then some (.zoo d) else none

/-- `on_x and (x := lookup(path))`. -/
def whenHandled (handled : Bool) (o : Option Found) : Option Found := if handled then o else none

/-- `a elif b`. -/
def orElse (a b : Option Found) : Option Found :=
  match a with
  | some f => some f
  | none => b

/-- `_ContextualCommand.execute` (cx 52-69): the handler called, if any. -/
def executeAt (h : Handlers) (disk : Dir → Bool) (d : Dir) : Option Found :=
  orElse (whenHandled h.project (lookupProject disk d))
    (orElse (whenHandled h.group (lookupGroup disk d))
      (orElse (whenHandled h.env (lookupEnv disk d)) (whenHandled h.zoo (lookupZoo disk d))))

/-- `Path.parents` of a directory given from its last component to its first. -/
def parentsRev : List Text → List (List Text)
  | [] => []
  | _ :: r => r :: parentsRev r

/-- `Path.parents`: from the nearest to the root. -/
def parents (d : Dir) : List Dir := (parentsRev d.reverse).map List.reverse

/-- `for parent in path.parents: if executed := cmd.execute(parent): break` (cx 141-144). -/
def firstOf (h : Handlers) (disk : Dir → Bool) : List Dir → Option Found
  | [] => none
  | d :: ds => orElse (executeAt h disk d) (firstOf h disk ds)

/-- `Context` (cx 83-87). -/
structure Context where
  path : Dir
  lookup : Bool
  useGlobal : Bool
  site : Option Text
  deriving DecidableEq, Repr

/-- `self._site or 'user'` (cx 123). -/
def siteOf : Option Text → Text
  | none => t!"user"
  | some [] => t!"user"
  | some (c :: cs) => c :: cs

/-- `Context.run` (cx 105-152). -/
def run (c : Context) (h : Handlers) (disk : Dir → Bool) : Outcome :=
  if c.useGlobal then
    if h.env then .global (siteOf c.site)
    else if h.missing then .missing
    else .unsupported
  else
    match orElse (executeAt h disk c.path) (if c.lookup then firstOf h disk (parents c.path) else none) with
    | some f => .on f
    | none => if h.free then .free else if h.missing then .missing else .unsupported

/-- `Context.lookup_project` (cx 89-92): the project, or `None`. -/
def lookupOfProject (c : Context) (disk : Dir → Bool) : Option Dir :=
  match run c { project := true, missing := true } disk with
  | .on (.project d) => some d
  | _ => none

/-! ## Commands and their parents -/

/-- The value of an argument: unset or false, or a text. -/
abbrev Args := List (Text × Option Text)

/-- A command (cp 31-36): its words and its arguments; `root` is the command without words every other command
descends from. -/
inductive Cmd where
  | root (args : Args)
  | sub (parent : Cmd) (word : Text) (args : Args)
  deriving Repr

def Cmd.args : Cmd → Args
  | .root a => a
  | .sub _ _ a => a

/-- `Command.path`. -/
def Cmd.path : Cmd → List Text
  | .root _ => []
  | .sub p w _ => p.path ++ [w]

/-- `Command.parents` (cp 48-51): from the root to the parent. -/
def Cmd.parents : Cmd → List Cmd
  | .root _ => []
  | .sub p _ _ => p.parents ++ [p]

/-- `Command.__getattr__` (cp 38-46): the argument of the command, or of the nearest parent that has it. -/
def Cmd.getattr (k : Text) : Cmd → Option (Option Text)
  | .root a => Dict.get a k
  | .sub p _ a => match Dict.get a k with
    | some v => some v
    | none => p.getattr k

inductive Err where
  | noSuchElement
  | indexError
  deriving DecidableEq, Repr

/-- `for part, parent in zip(path, parents[1:]): if part != parent.path[-1]` (cp 58-60). -/
def wordsAgree : List Text → List Cmd → Bool
  | w :: ws, p :: ps => (p.path.getLast? == some w) && wordsAgree ws ps
  | _, _ => true

/-- `Command.parent_by_path` (cp 53-62). -/
def Cmd.parentByPath (c : Cmd) (path : List Text) : Except Err Cmd :=
  let ps := c.parents
  if ps.length < path.length then .error .noSuchElement
  else if !wordsAgree path ps.tail then .error .noSuchElement
  else match ps[path.length]? with
    | some p => .ok p
    | none => .error .indexError

/-- `Context.of` (cx 153-169) of a command that has no context yet; `parsed` is `Path(context)`. -/
def contextOf (parsed : Text → Dir) (cwd : Dir) (c : Cmd) : Except Err Context :=
  match c.parentByPath [t!"pkm"] with
  | .error e => .error e
  | .ok p => match p.getattr t!"context" with
    | some (some (x :: xs)) => .ok { path := parsed (x :: xs), lookup := false, useGlobal := false, site := none }
    | _ => match p.getattr t!"global_context" with
      | some (some _) => .ok { path := cwd, lookup := false, useGlobal := true, site := (p.getattr t!"site").getD none }
      | _ => .ok { path := cwd, lookup := true, useGlobal := false, site := none }

/-- `context.run(on_project=with_tasks, on_missing=cmd.execute, silent=True)` (ma 219-225): the project whose
attached tasks run around the command. -/
def tasksProject (c : Context) (disk : Dir → Bool) : Option Dir := lookupOfProject c disk

end Pkm.Ctx
