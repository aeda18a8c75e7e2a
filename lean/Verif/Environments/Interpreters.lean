import Verif.Specifier.Model
import Verif.VersionText.Model
import Verif.Environments.Builder
import Verif.Sort
/-
Model of how pkm finds the Python interpreters of a machine and chooses one of them:
pkm/src/pkm/api/environments/installed_pythons_locator.py ("ip") and `EnvironmentBuilder.create_matching` of
pkm/src/pkm/api/environments/environment_builder.py ("eb").

Simplifications:
* Running a program is a parameter: it gives the lines of its output, each without the white space around it (ip 43-44,
  55), fails, or cannot be done.
* `\d` is a decimal digit of ASCII, `lower` the one of ASCII.
* A Python set (ip 32-35) is iterated in an unknown order: the functions below take the list of its elements, and the
  theorems hold for each order.
-/
namespace Pkm.Pythons

abbrev Path := EnvBuild.Path

/-! ### the programs that are tried -/

/-- `[\d.]*` -/
def allDigits (t : Text) : Bool := t.all (fun c => isDigit c || c == '.')

/-- `[\d.]*(.exe)?`, where the dot before `exe` stands for any character but a line feed. -/
def tailOk (t : Text) : Bool :=
  allDigits t ||
    (match t.reverse with
     | 'e' :: 'x' :: 'e' :: c :: r => c != '\n' && allDigits r.reverse
     | _ => false)

/-- `-?` and the rest. -/
def dashOk : Text → Bool
  | '-' :: t => tailOk ('-' :: t) || tailOk t
  | t => tailOk t

/-- `_PYTHON_EXEC_RX.fullmatch(name)` (ip 87, 91). -/
def nameOk : Text → Bool
  | 'p' :: 'y' :: 't' :: 'h' :: 'o' :: 'n' :: t => dashOk t
  | _ => false

/-- A file of a directory; `target`: `file.resolve()`, which may raise. -/
structure Entry where
  name : Text
  isDir : Bool := false
  executable : Bool := true
  target : Option Path
  deriving DecidableEq, Repr

/-- `_as_python_executeable` (ip 90-96). -/
def asPython (e : Entry) : Option Path :=
  if !e.isDir && nameOk (lower e.name) && e.executable then e.target else none

/-- An element of `PATH`. -/
inductive Elem where
  | missing
  | file
  | dir (es : List Entry)

/-- `_lookup_in_env_path` (ip 107-114): `iterdir` of a file raises. -/
def lookupEnvPath : List Elem → Option (List Path)
  | [] => some []
  | .missing :: r => lookupEnvPath r
  | .file :: _ => none
  | .dir es :: r => (lookupEnvPath r).map (es.filterMap asPython ++ ·)

/-- `_lookup_in_path` (ip 99-104) for the files `es` at any depth below the directory. -/
def lookupBelow (es : List Entry) : List Path :=
  (es.filter (fun e => e.name == t!"python")).filterMap asPython

/-- The elements of the set that is iterated (ip 32-35): those of `PATH`, of the configured directories, and the
interpreter that runs pkm. -/
def candidates (path : List Elem) (search : List (List Entry)) (self : Path) : Option (List Path) :=
  (lookupEnvPath path).map (fun l => l ++ search.flatMap lookupBelow ++ [self])

/-! ### what they answer -/

/-- What comes of running a program (ip 38-43): the lines it prints, a status that is not zero, or an `OSError`. -/
inductive Run where
  | out (lines : List Text)
  | failed
  | unusable

structure World where
  env : UrlEnv
  run : Path → Run
  resolve : Text → Path

/-- `InstalledInterpreter` (ip 71-76). -/
structure Inst where
  exe : Path
  version : Ver
  deriving DecidableEq, Repr

/-- The loop (ip 36-62); `none`: an exception that it does not handle. -/
def scan (w : World) : List Path → List Inst → Option (List Inst)
  | [], acc => some acc
  | p :: ps, acc =>
    match w.run p with
    | .failed => scan w ps acc
    | .unusable => none
    | .out [v, e] =>
      if acc.any (fun i => i.exe == w.resolve e) then scan w ps acc
      else scan w ps (acc ++ [⟨w.resolve e, parseVersion w.env v⟩])
    | .out _ => none

/-- `sorted(.., key=version, reverse=True)` (ip 64). -/
def sortDown (l : List Inst) : List Inst := sortBy (fun a b => !(a.version.lt b.version)) l

/-- `all_installed` (ip 26-64). -/
def allInstalled (w : World) (cands : List Path) : Option (List Inst) := (scan w cands []).map sortDown

/-- `match` (ip 66-72) of a locator whose cached property holds `seen`; with the new value of the cache. -/
def matching (w : World) (cands : List Path) (spec : VSpec) (seen : Option (List Inst)) :
    Option (List Inst) × Option (List Inst) :=
  match (match seen with | some l => some l | none => allInstalled w cands) with
  | none => (none, none)
  | some l => (some (sortDown (l.filter (fun i => spec.allows i.version))), some l)

/-- The ways in which `create_matching` gives no interpreter: none matches, or the search raises. -/
inductive PErr where
  | noSuchElement
  | search
  deriving DecidableEq, Repr

/-- The interpreter with which `create_matching` makes the environment (eb 32-37). -/
def choose (w : World) (cands : List Path) (spec : VSpec) (seen : Option (List Inst)) : Except PErr Inst :=
  match (matching w cands spec seen).1 with
  | none => .error .search
  | some [] => .error .noSuchElement
  | some (i :: _) => .ok i

end Pkm.Pythons
