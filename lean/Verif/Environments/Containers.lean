import Verif.Dist.EntryPoints
import Verif.Names.Model
import Verif.Dict
/-
Model of the programs of package containers: pkm/src/pkm/api/environments/package_containers.py ("pc") 189-222, 285-340, and of
what the Python that is installed does with the files written there: `site.addsitedir` and the start of an interpreter ("site").

Simplifications:
* A directory is a text without `:`; `os.pathsep` is `:` and `/` separates names: not Windows.
* The files pc writes are Python programs. Their meaning is given here, not their text: the entry points module is a list of function
  definitions, of which the last one with a name counts, and which is rejected as a whole if one of them is not well formed.
* An import finds the module in the first directory of `sys.path` that has it (built-in modules and loaded modules aside).
* Directories that a `.pth` file names are those that exist, and are written in one way only.
-/
namespace Pkm.Containers
open Entry (EntryPoint Ref)

/-- A container that is installed: the name of its application, its directory `app_dir` (pc 148-149), the directories that the `.pth`
files in its site directory name, and its script entry points (pc 189-197). -/
structure Container where
  name : Text
  dir : Text
  links : List Text
  scripts : List EntryPoint
  deriving DecidableEq

/-- (pc 33). -/
def siteOf (c : Container) : Text := c.dir ++ t!"/__container__/site"
/-- (pc 34). -/
def binOf (c : Container) : Text := c.dir ++ t!"/__container__/bin"
/-- (pc 32). -/
def dataOf (c : Container) : Text := c.dir ++ t!"/__container__"

/-- What a Python process has of it: `sys.path`, the variables `PATH` and `PKM_PACKAGE_CONTAINER`, `sys.prefix`, and the containers
(their directories) whose flag `registered` is set. -/
structure Proc where
  sysPath : List Text
  path : Option Text
  marker : Option Text
  root : Text
  done : List Text
  deriving DecidableEq

/-- Append a directory that is not there (site). -/
def addNew (l : List Text) (d : Text) : List Text := if d ∈ l then l else l ++ [d]

/-- `site.addsitedir` (site): the directory, then what its `.pth` files name. -/
def addSiteDir (l : List Text) (site : Text) (links : List Text) : List Text := (site :: links).foldl addNew l

/-- `sys.path.insert(1, sys.path.pop())` (pc 322). -/
def lastToSecond (l : List Text) : List Text :=
  match l.getLast? with
  | none => l
  | some x => match l.dropLast with
    | [] => [x]
    | y :: r => y :: x :: r

/-- `a in b` for texts. -/
def hasSub (a : Text) : Text → Bool
  | [] => a.isEmpty
  | c :: cs => a.isPrefixOf (c :: cs) || hasSub a cs

/-- The new `PATH` (pc 324-328). -/
def pathWith (bin : Text) : Option Text → Text
  | none => bin
  | some old => if old.isEmpty then bin else if hasSub bin old then old else bin ++ ':' :: old

/-- `register` (pc 304-330). -/
def register (c : Container) (p : Proc) : Proc :=
  if c.dir ∈ p.done then p
  else {
    sysPath := lastToSecond (addSiteDir p.sysPath (siteOf c) c.links)
    path := some (pathWith (binOf c) p.path)
    marker := some c.name
    root := dataOf c
    done := c.dir :: p.done }

/-- The import of `register_container` by the `.pth` file in the environment's site directory (pc 219-222, 332-335, 339-340). -/
def hook (p : Proc) (c : Container) : Proc := if p.marker = some c.name then register c p else p

/-- A Python process of the environment with the containers `cs` starts: the `.pth` files are read, then the directory of the program
is put in front (site). -/
def start (cs : List Container) (programDir : Text) (p : Proc) : Proc :=
  let q := cs.foldl hook p
  { q with sysPath := programDir :: q.sysPath }

/-! ### the entry points module -/

/-- The name of the function for an entry point (pc 287, 211); `none`: a `ValueError` while installing. -/
def fnName (e : EntryPoint) : Option Text := srcPackageName e.name

/-- Reserved words. -/
def keywords : List Text :=
  [t!"False", t!"None", t!"True", t!"and", t!"as", t!"assert", t!"async", t!"await", t!"break", t!"class", t!"continue", t!"def",
   t!"del", t!"elif", t!"else", t!"except", t!"finally", t!"for", t!"from", t!"global", t!"if", t!"import", t!"in", t!"is",
   t!"lambda", t!"nonlocal", t!"not", t!"or", t!"pass", t!"raise", t!"return", t!"try", t!"while", t!"with", t!"yield"]

/-- An identifier (of ASCII characters) that is no reserved word. -/
def isIdent : Text → Bool
  | [] => false
  | c :: cs => !isDigit c && (c :: cs).all (fun x => isAlnum x || x == '_') && !keywords.contains (c :: cs)

/-- The definition of the function is well formed (pc 286-291): without an object it contains `.None()`. Modules and objects are taken
to be identifiers with dots. -/
def wellFormed (e : EntryPoint) : Bool := (match fnName e with | some f => isIdent f | none => false) && e.ref.object.isSome

/-- The definition of one function. -/
def define (d : Dict Text Ref) (e : EntryPoint) : Dict Text Ref :=
  match fnName e with
  | some f => d.put f e.ref
  | none => d

/-- The functions of the module. -/
def functions (es : List EntryPoint) : Dict Text Ref := es.foldl define []

/-- Why a program does not run. -/
inductive RunErr where
  /-- the name of a function cannot be made (at installation) -/
  | value
  /-- the module is not a Python program -/
  | syntaxError
  /-- `sys` is not the module -/
  | attribute
  | importError
  deriving DecidableEq, Repr

/-- What a program runs: an object of a module that was found in a directory, and the status the program ends with. -/
structure Ran where
  dir : Text
  module : Text
  object : Text
  status : Nat
  deriving DecidableEq, Repr

/-- The modules that a directory has, and what the object of a module in a directory returns. -/
structure Code where
  has : Text → Text → Bool
  returns : Text → Text → Text → Nat

/-- The executable of an entry point of a package that is not in a container (executables.py 63-75, entrypoints.py 43-51). -/
def runPlain (w : Code) (r : Ref) (p : Proc) : Except RunErr Ran :=
  match r.object with
  | none => .error .value
  | some o => match p.sysPath.find? (fun d => w.has d r.module) with
    | none => .error .importError
    | some d => .ok ⟨d, r.module, o, w.returns d r.module o⟩

/-- The executable of an entry point (pc 210-214, entrypoints.py 45-51): import the module of functions, which registers the container
(pc 293-299); call the function (pc 286-291), which returns nothing, so that `sys.exit` ends with status 0. -/
def runScript (w : Code) (c : Container) (e : EntryPoint) (p : Proc) : Proc × Except RunErr Ran :=
  match fnName e with
  | none => (p, .error .value)
  | some f =>
    if !c.scripts.all wellFormed then (p, .error .syntaxError)
    else
      let q := register c p
      match (functions c.scripts).get f with
      | none => (q, .error .attribute)
      | some r =>
        if (functions c.scripts).get t!"sys" ≠ none then (q, .error .attribute)
        else match q.sysPath.find? (fun d => w.has d r.module) with
          | none => (q, .error .importError)
          | some d => (q, .ok ⟨d, r.module, r.object.getD [], 0⟩)

/-- A program is started from its executable in the environment with the containers `cs`. -/
def launch (w : Code) (cs : List Container) (c : Container) (e : EntryPoint) (scripts : Text) (p : Proc) :
    Proc × Except RunErr Ran :=
  runScript w c e (start cs scripts p)

/-- A new process gets the variables of the one that starts it; the rest is that of the interpreter (`base`, `prefix`). -/
def child (base : List Text) (root : Text) (p : Proc) : Proc := ⟨base, p.path, p.marker, root, []⟩

/-- The script entry points of a container (pc 191-197): `installed` gives those of a package in it. -/
def collectScripts (installed : Text → Option (List EntryPoint)) (exposed : List Text) (app : Text) : List EntryPoint :=
  (exposed ++ [app]).flatMap (fun x => match installed x with | some es => es.filter EntryPoint.isScript | none => [])

end Pkm.Containers
