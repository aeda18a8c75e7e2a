import Verif.Config.WheelFile
import Verif.Tags.Model
import Verif.Parser
import Verif.Dict
/-
Model of making virtual environments: pkm/src/pkm/api/environments/environment_builder.py ("eb") and
`Environment.is_venv_path` of pkm/src/pkm/api/environments/environment.py ("ev").

Simplifications:
* Paths are absolute and have no `..`; the directories above a path at which something is made are no symbolic links.
* The `init.tcl` of a Python that runs from its build directory (eb 91-96) is not copied.
* What an interpreter says about itself (eb 52-55) is a parameter; `none`: it does not answer, and `create` raises.
-/
namespace Pkm.EnvBuild

abbrev Path := List Text

/-- What is at a path. -/
inductive Node where
  | file (t : Text)
  | dir
  | link (to : Path)
  deriving DecidableEq, Repr

abbrev Disk := Dict Path Node

/-- Follow the names of `rest` from `cur`; `next` follows the target of a symbolic link. -/
def walkWith (f : Disk) (next : Path → Option Path) : Path → Path → Option Path
  | cur, [] => some cur
  | cur, x :: xs =>
    match f.get (cur ++ [x]) with
    | none => none
    | some .dir => walkWith f next (cur ++ [x]) xs
    | some (.file _) => if xs.isEmpty then some (cur ++ [x]) else none
    | some (.link to) => next (to ++ xs)

/-- The place a path leads to when at most `n` symbolic links are followed. -/
def walk (f : Disk) : Nat → Path → Option Path
  | 0, p => walkWith f (fun _ => none) [] p
  | n + 1, p => walkWith f (walk f n) [] p

/-- `path.exists()`: the system follows up to 40 symbolic links. -/
def present (f : Disk) (p : Path) : Bool := (walk f 40 p).isSome

/-- `Environment.is_venv_path` (ev 308-313, 348-349). -/
def isVenv (f : Disk) (d : Path) : Bool :=
  present f (d ++ [t!"pyvenv.cfg"]) &&
    (present f (d ++ [t!"bin", t!"python"]) || present f (d ++ [t!"Scripts", t!"python.exe"]))

/-- `path.mkdir(parents=True, exist_ok=True)`. -/
def mkdirs : Disk → Path → Path → Disk × Bool
  | f, _, [] => (f, true)
  | f, pre, x :: xs =>
    match f.get (pre ++ [x]) with
    | none => mkdirs (f.put (pre ++ [x]) .dir) (pre ++ [x]) xs
    | some .dir => mkdirs f (pre ++ [x]) xs
    | some _ => (f, false)

/-- Opening a file for writing, `symlink_to`: nothing may be there, and the parent has to be a directory. (A file that is
there is overwritten by the first; in a new environment there is none.) -/
def place (f : Disk) (p : Path) (n : Node) : Disk × Bool :=
  if f.get p = none ∧ f.get p.dropLast = some .dir then (f.put p n, true) else (f, false)

/-- The text of a file, following symbolic links. -/
def readFile (f : Disk) (p : Path) : Option Text :=
  match walk f 40 p with
  | none => none
  | some q => match f.get q with | some (.file t) => some t | _ => none

/-- One thing that `create` does. -/
inductive Step where
  | mkdir (p : Path)
  | put (p : Path) (n : Node)
  | linkNew (p to : Path)
  | copyFound (src dst : Path)

/-- Its effect; `false`: it raises. `linkNew`: eb 101-102; `copyFound`: eb 88-89 (copying a directory raises). -/
def Step.run (f : Disk) : Step → Disk × Bool
  | .mkdir p => mkdirs f [] p
  | .put p n => place f p n
  | .linkNew p to => if present f p then (f, true) else place f p (.link to)
  | .copyFound src dst =>
    if present f src then
      match readFile f src with
      | some t => place f dst (.file t)
      | none => (f, false)
    else (f, true)

/-- One after the other, until one raises. -/
def runSteps : Disk → List Step → Disk × Bool
  | f, [] => (f, true)
  | f, s :: ss => match s.run f with | (f, true) => runSteps f ss | (f, false) => (f, false)

/-- What an interpreter says about itself (eb 52-55, 80). -/
structure Interp where
  path : Path
  windows : Bool := false
  bits32 : Bool := false
  posix : Bool := true
  darwin : Bool := false
  major : Nat
  minor : Nat
  micro : Nat
  deriving DecidableEq, Repr

/-- The text of an absolute path. -/
def pathText (p : Path) : Text := p.flatMap (fun x => '/' :: x)

/-- `str(interpreter_path.parent)` (eb 62). -/
def homeText (i : Interp) : Text := if i.path.dropLast.isEmpty then t!"/" else pathText i.path.dropLast

/-- The text of `pyvenv.cfg` (eb 60-65, 115-121). -/
def cfgText (i : Interp) : Text :=
  Config.writeWheel [(t!"home", homeText i),
    (t!"version", showNat i.major ++ '.' :: (showNat i.minor ++ '.' :: showNat i.micro)),
    (t!"include-system-site-packages", t!"false")]

/-- `python`, `python3`, `python3.x` (eb 98-99). -/
def exeNames (i : Interp) : List Text :=
  [t!"python", t!"python" ++ showNat i.major, t!"python" ++ (showNat i.major ++ '.' :: showNat i.minor)]

/-- (eb 85). -/
def windowsFiles : List Text := [t!"python.exe", t!"python_d.exe", t!"pythonw.exe", t!"pythonw_d.exe"]

/-- The directories of an environment (eb 67-75). -/
def dirsOf (i : Interp) : List Path :=
  if i.windows then [[t!"Scripts"], [t!"Include"], [t!"Lib", t!"site-packages"]]
  else [[t!"bin"], [t!"include"], [t!"lib", t!"python" ++ (showNat i.major ++ '.' :: showNat i.minor), t!"site-packages"]]

/-- What `create` does once it knows the interpreter (eb 57-102). -/
def steps (d : Path) (i : Interp) : List Step :=
  [.mkdir d, .put (d ++ [t!"pyvenv.cfg"]) (.file (cfgText i))]
  ++ (dirsOf i).map (fun x => .mkdir (d ++ x))
  ++ (if !i.bits32 && i.posix && !i.darwin then [.put (d ++ [t!"lib64"]) (.link (d ++ [t!"lib"]))] else [])
  ++ (if i.windows then windowsFiles.map (fun n => .copyFound (i.path.dropLast ++ [n]) (d ++ [t!"Scripts", n]))
      else (exeNames i).map (fun n => .linkNew (d ++ [t!"bin", n]) i.path))

/-- `EnvironmentBuilder.create` (eb 39-104). -/
def create (f : Disk) (d : Path) (i : Option Interp) : Disk × Bool :=
  if present f d then (f, false)
  else match i with
    | none => (f, false)
    | some i => runSteps f (steps d i)

end Pkm.EnvBuild
