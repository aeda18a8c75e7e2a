import Verif.Environments.Builder
import Verif.Cli.Templates
/-
Model of a directory of environments: pkm/src/pkm/api/environments/environments_zoo.py ("ez").

Simplifications, besides those of `Environments/Builder`:
* The scripts of an environment are in its `bin`: not Windows. A script is asked for by a name without `/`.
* The configuration of the zoo is one text.
* `shutil.copy` onto a directory or a symbolic link in `.zoo/bin` is taken to raise.
* The files of a package (ez 109) are a parameter. Collecting what is no longer used of the shared packages is in
  `Environments/Shared`, `activate` in `Environments/Activate`.
-/
namespace Pkm.Zoo
open EnvBuild

/-- `self.path / name`; `..` is resolved. -/
def pathOf (z : Path) (n : Text) : Path := Templates.resolve z n

/-- `_bin_path` (ez 40-41). -/
def binPath (z : Path) : Path := z ++ [t!".zoo", t!"bin"]

/-- `load` (ez 114-125). -/
def openZoo (f : Disk) (z : Path) (cfg : Text) : Disk × Bool :=
  if present f (z ++ [t!"env-zoo.toml"]) then (f, true)
  else runSteps f [.mkdir z, .put (z ++ [t!"env-zoo.toml"]) (.file cfg), .mkdir (z ++ [t!".zoo", t!"bin"]),
    .mkdir (z ++ [t!".zoo", t!"shared"])]

/-- `create_environment` (ez 48-53) with the interpreter that matches, if there is one. -/
def create (f : Disk) (z : Path) (n : Text) (i : Option Interp) : Disk × Bool :=
  if present f (pathOf z n) then (f, false) else EnvBuild.create f (pathOf z n) i

/-- `shutil.rmtree`: only a directory can be removed so. -/
def rmtree (f : Disk) (p : Path) : Disk × Bool :=
  match f.get p with
  | some .dir => (f.filter (fun e => !p.isPrefixOf e.1), true)
  | _ => (f, false)

/-- `delete_environment` (ez 55-57). -/
def delete (f : Disk) (z : Path) (n : Text) : Disk × Bool := rmtree f (pathOf z n)

/-- `self.path.iterdir()`: the names in a directory. -/
def names (f : Disk) (z : Path) : List Text :=
  f.filterMap (fun e => if e.1.isEmpty then none else if e.1.dropLast = z then e.1.getLast? else none)

/-- `list` (ez 79-85): the names of the environments. -/
def list (f : Disk) (z : Path) : List Text := (names f z).filter (fun n => isVenv f (z ++ [n]))

/-- The errors of `load_environment`. -/
inductive ZErr where
  | noSuchElement
  | notAnEnvironment
  deriving DecidableEq, Repr

/-- `load_environment` (ez 87-94). -/
def load (f : Disk) (z : Path) (n : Text) : Except ZErr Path :=
  if !present f (pathOf z n) then .error .noSuchElement
  else if !isVenv f (pathOf z n) then .error .notAnEnvironment
  else .ok (pathOf z n)

/-- `shutil.copy`. -/
def copyFile (f : Disk) (src dst : Path) : Disk × Bool :=
  if walk f 40 src = some dst then (f, false)
  else match readFile f src with
    | none => (f, false)
    | some t => match f.get dst with
      | none => if f.get dst.dropLast = some .dir then (f.put dst (.file t), true) else (f, false)
      | some (.file _) => (f.put dst (.file t), true)
      | some _ => (f, false)

/-- The name of the script that is found (ez 98-100). -/
def scriptName (f : Disk) (d : Path) (s : Text) : Option Text :=
  if present f (d ++ [t!"bin", s]) then some s
  else if present f (d ++ [t!"bin", s ++ t!".exe"]) then some (s ++ t!".exe")
  else none

/-- `export_script` (ez 96-103). -/
def exportScript (f : Disk) (z : Path) (n s : Text) : Disk × Bool :=
  match load f z n with
  | .error _ => (f, false)
  | .ok d => match scriptName f d s with
    | none => (f, false)
    | some x => copyFile f (d ++ [t!"bin", x]) (binPath z ++ [x])

/-- `is_relative_to` (files.py 272-279) on absolute paths: a prefix test on texts. -/
def isBelow (p d : Path) : Bool := (pathText d).isPrefixOf (pathText p)

/-- The loop of `export_all_scripts` (ez 109-111). -/
def copyScripts (z d : Path) : Disk → List Path → Disk × Bool
  | f, [] => (f, true)
  | f, p :: ps =>
    if isBelow p (d ++ [t!"bin"]) then
      match copyFile f p (binPath z ++ [p.getLast?.getD []]) with
      | (f, true) => copyScripts z d f ps
      | (f, false) => (f, false)
    else copyScripts z d f ps

/-- `export_all_scripts` (ez 104-111) for a package with the files `ps`. -/
def exportAll (f : Disk) (z : Path) (n : Text) (ps : List Path) : Disk × Bool :=
  match load f z n with
  | .error _ => (f, false)
  | .ok d => copyScripts z d f ps

/-! ### histories -/

/-- What may happen to a zoo: its operations, and files that are added to an environment (by installing a package). -/
inductive Op where
  | create (n : Text) (i : Option Interp)
  | delete (n : Text)
  | exports (n s : Text)
  | add (n : Text) (r : Path) (x : Node)

def Op.run (z : Path) (f : Disk) : Op → Disk × Bool
  | .create n i => Zoo.create f z n i
  | .delete n => Zoo.delete f z n
  | .exports n s => exportScript f z n s
  | .add n r x => place f (pathOf z n ++ r) x

def runAll (z : Path) : Disk → List Op → Disk
  | f, [] => f
  | f, o :: os => runAll z (o.run z f).1 os

end Pkm.Zoo
