import Verif.Tags.Model
import Verif.Cli.Model
/-
Model of the tasks attached to the commands of a project, and of the tasks run by name:
pkm-cli/src/pkm_cli/api/tasks/tasks_runner.py ("tr"), pkm-cli/src/pkm_cli/api/tasks/tasks_executor.py ("te") and
`pkm run` of pkm-cli/src/pkm_cli/main.py ("ma").

Modelled: which file is an attached task, which name it is given, what Python's import finds by this name, the order of
tasks and command, PYTHONPATH around a task, the way of the arguments. Left out: the content of tasks, the start of
processes other than its success or failure.
-/
namespace Pkm.Tasks

/-- `it.replace("-", "_")` (tr 156; `load_task`, tr 24). -/
def under (t : Text) : Text := t.map (fun c => if c = '-' then '_' else c)

/-- `'.'.join(...)`. -/
def dots : List Text → Text
  | [] => []
  | [t] => t
  | t :: u :: ts => t ++ '.' :: dots (u :: ts)

/-- `task_path`, below the project (tr 156-157): `command` starts with `pkm`. -/
def attachedFile (phase : Text) (command : List Text) : List Text :=
  [t!"tasks", t!"commands"] ++ (command.map under).tail ++ [phase ++ t!".py"]

/-- `_get_attached_name` (tr 155-160). -/
def attachedName (phase : Text) (command : List Text) (exists_ : List Text → Bool) : Option Text :=
  if exists_ (attachedFile phase command) then
    some (t!"commands." ++ (dots ((command.map under).tail) ++ '.' :: phase))
  else none

/-! ## What Python finds by a dotted name -/

/-- A directory that is searched for modules: where it is, its files and its directories, by their paths below it. -/
structure Entry where
  root : List Text
  file : List Text → Bool
  dir : List Text → Bool

def initFile : Text := t!"__init__.py"

/-- The directory `n` of such a directory. -/
def Entry.sub (e : Entry) (n : Text) : Entry := ⟨e.root ++ [n], fun p => e.file (n :: p), fun p => e.dir (n :: p)⟩

/-- What is found by one part of a name: a module, a package, or the directories of a namespace package. -/
inductive Hit where
  | module (file : List Text)
  | package (e : Entry)
  | portions (es : List Entry)

/-- One part of a name: the first directory with a package or a module of this name; if there is none, all directories
of this name together (`importlib`, `PathFinder` and `FileFinder`). -/
def look (n : Text) : List Entry → Hit
  | [] => .portions []
  | e :: es =>
    if e.file [n, initFile] then .package (e.sub n)
    else if e.file [n ++ t!".py"] then .module (e.root ++ [n ++ t!".py"])
    else match look n es with
      | .portions ps => .portions (if e.dir [n] then e.sub n :: ps else ps)
      | h => h

/-- What `importlib.util.find_spec` ends in. -/
inductive Origin where
  | file (f : List Text)
  /-- A namespace package: a specification without a file. -/
  | namespace_
  /-- `None`. -/
  | absent
  /-- `ModuleNotFoundError`: a part before the last is no package. -/
  | error
  deriving DecidableEq, Repr

/-- `importlib.util.find_spec(name)` for the parts of a name. -/
def find : List Entry → List Text → Origin
  | _, [] => .error
  | es, [n] => match look n es with
    | .module f => .file f
    | .package e => .file (e.root ++ [initFile])
    | .portions [] => .absent
    | .portions _ => .namespace_
  | es, n :: m :: rest => match look n es with
    | .module _ => .error
    | .package e => find [e] (m :: rest)
    | .portions [] => .error
    | .portions ps => find ps (m :: rest)

/-- `load_task` (tr 23-31, te 69-77): the file of the task. A namespace package has no `run`. -/
def loadTask (path : List Entry) (name : Text) : Option (List Text) :=
  match find path (splitOn '.' (under name)) with
  | .file f => some f
  | .absent => match find path (t!"pkm_tasks" :: splitOn '.' (under name)) with
    | .file f => some f
    | _ => none
  | _ => none

/-! ## Tasks around a command -/

inductive Ev where
  | task (name : Text)
  | command
  deriving DecidableEq, Repr

inductive Out where
  | ok
  /-- `CalledProcessError` of `check_returncode`. -/
  | process
  | commandFailed
  deriving DecidableEq, Repr

/-- The module that the first process of a task runs: two literals without a comma between them (tr 111-112). -/
def runnerModule : Text := t!"pkm_cli.tasks.execute_task_cli-p"

/-- `_Task.execute_attached` (tr 88-152): first a process that runs a module, which fails if there is no such module
among those of the environment; then the task. The status of the task is returned and not looked at. -/
def execTask (modules : Text → Bool) (name : Text) : List Ev × Out :=
  if modules runnerModule then ([.task name], .ok) else ([], .process)

/-- The attached task of a phase, if there is one. -/
def phase (modules : Text → Bool) (exists_ : List Text → Bool) (command : List Text) (ph : Text) : List Ev × Out :=
  match attachedName ph command exists_ with
  | some n => execTask modules n
  | none => ([], .ok)

/-- `with tasks.run_attached(cmd): cmd.execute()` (tr 68-77, ma 219-223): there is no `finally`. -/
def runAttached (modules : Text → Bool) (exists_ : List Text → Bool) (command : List Text) (fails : Bool) :
    List Ev × Out :=
  match phase modules exists_ command t!"before" with
  | (ev, .ok) =>
    if fails then (ev ++ [.command], .commandFailed)
    else match phase modules exists_ command t!"after" with
      | (ev', o) => (ev ++ [.command] ++ ev', o)
  | (ev, o) => (ev, o)

/-- PYTHONPATH of the process of a task (tr 137-141): `os.pathsep` is `:`. -/
def taskPythonPath (tasksDir : Text) (old : Option Text) : Text :=
  match old with
  | none => tasksDir
  | some [] => tasksDir
  | some (c :: cs) => tasksDir ++ ':' :: c :: cs

/-- PYTHONPATH of pkm itself after a task (tr 138, 152): `os.environ["PYTHONPATH"] = old_pythonpath`. -/
def pythonPathAfter (old : Option Text) : Option Text := some (old.getD [])

/-! ## Tasks by name -/

/-- A task that is being run: the project it sees. -/
structure Task where
  file : List Text
  project : Option (List Text)
  deriving DecidableEq, Repr

/-- `_load_task` of the process (te 69-89) with its global `project`. -/
def load (path : List Entry) (project : Option (List Text)) (name : Text) : Option Task :=
  (loadTask path name).map (fun f => ⟨f, project⟩)

/-- `next_.lstrip('@')` (te 148). -/
def lstripAt (t : Text) : Text := t.dropWhile (· == '@')

/-- The process of `pkm run @name` (te 52-56, 139-151, 163-174): parsing loads the task, then executing sets the global
`project`. The word `run` is followed by `@` and the word that was given (te 25, ma 104-106). The task, and the global
`project` when it runs. -/
def runByName (path : List Entry) (project : List Text) (word : Text) : Option (Task × Option (List Text)) :=
  (load path none (lstripAt ('@' :: word))).map (fun t => (t, some project))

/-- The arguments of `pkm run @task ...` (ma 104): `positional("task"), positional("args", n_values="*", default=[])`. -/
def taskCommand : Cli.Node Text :=
  .mk (some { options := [], positional := [
    { name := t!"task", conv := some },
    { name := t!"args", extra := none, default := some (.many []), conv := some }] }) []

/-- The arguments of `pkm run program ...` (ma 83): `positional("cmd-and-args", n_values="*")`. -/
def programCommand : Cli.Node Text :=
  .mk (some { options := [], positional := [{ name := t!"cmd_and_args", extra := none, conv := some }] }) []

end Pkm.Tasks
