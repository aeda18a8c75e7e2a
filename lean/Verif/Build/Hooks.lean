import Verif.Build.Dists
import Verif.Config.Home
/-
Model of the build system hooks of pkm, which other tools call to build projects (PEP 517, PEP 660):
pkm/src/pkm/api/buildsys.py ("bs"), with `build_wheel` for `only_meta=True` and the places of what is built from
pkm/src/pkm/build/pkm_builders.py ("pb").

Projects that pkm builds itself are modelled, as in `Build/Dists`. A containerized application is modelled only as far as its build
touches the home directory of pkm. Left out: `config_settings` and `metadata_directory`, which the hooks do not look at, and
`get_requires_for_..` (always empty).
-/
namespace Pkm.Hooks
open Dists Home

variable {C S : Type}

/-- The project in the working directory (`Project.load(Path("."))`). -/
structure Prj (C : Type) where
  /-- The name in its configuration. -/
  name : Text
  /-- The name of its descriptor, which is normalized. -/
  descriptor : Text
  version : Text
  requires : VSpec
  /-- The files of its dist-info. -/
  info : Info C
  packages : List Rel
  tree : Dists.Tree C
  /-- `PKG-INFO` and `pyproject.toml` of its source distribution. -/
  pkgInfo : C
  pyproject : C
  /-- The contents of the path file of an editable wheel. -/
  links : List Rel → C

inductive Hook where
  /-- `build_wheel` (bs 35-37). -/
  | wheel
  /-- `build_sdist` (bs 41-43). -/
  | sdist
  /-- `prepare_metadata_for_build_wheel` (bs 52-54). -/
  | prepareWheel
  /-- `build_editable` (bs 63-64). -/
  | editable
  /-- `prepare_metadata_for_build_editable` (bs 73-75). -/
  | prepareEditable
  deriving DecidableEq, Repr

/-- What is made: a wheel, the files below the only directory of a source distribution, or a dist-info directory. -/
inductive Made (C S : Type) where
  | wheel (w : Wheel C S)
  | sdist (t : Dists.Tree C)
  | info (i : Dict Text C)

/-- The directory that a hook is given: what is in it by its name. -/
abbrev Target (C S : Type) := Dict Text (Made C S)

/-- The files that `build_dist_info` (pb 129-147) writes into a directory, over those that are there. -/
def writeInfo : Info C → Dict Text C → Dict Text C
  | [], d => d
  | (n, c) :: is, d => writeInfo is (Dict.put d n c)

/-- What is in a dist-info directory before it is written. -/
def oldInfo : Option (Made C S) → Dict Text C
  | some (.info i) => i
  | _ => []

def buildWheelFile (hash : C → S) (current : Nat) (p : Prj C) (editable : Option (Text × (List Rel → C))) (d : Target C S) :
    Except BErr (Text × Target C S) :=
  match buildWheel hash (distInfoName p.name p.version) p.info p.packages p.tree editable with
  | .error e => .error e
  | .ok w => match wheelStem current p.requires p.descriptor p.version with
    | .error e => .error e
    | .ok stem => .ok (stem ++ t!".whl", Dict.put d (stem ++ t!".whl") (.wheel w))

/-- What the hooks do within `buildsys_pkm` (pb 22-92): the name they return and the directory then. -/
def build (hash : C → S) (current : Nat) (p : Prj C) (d : Target C S) : Hook → Except BErr (Text × Target C S)
  | .wheel => buildWheelFile hash current p none d
  | .editable => buildWheelFile hash current p (some (filePrefix p.name p.version ++ t!".pth", p.links)) d
  | .sdist => match buildSdist p.pkgInfo p.pyproject p.packages p.tree with
    | .error e => .error e
    | .ok t => .ok (sdistName p.name p.version, Dict.put d (sdistName p.name p.version) (.sdist t))
  | .prepareWheel | .prepareEditable =>
    .ok (distInfoName p.name p.version,
      Dict.put d (distInfoName p.name p.version)
        (.info (writeInfo p.info (oldInfo (Dict.get d (distInfoName p.name p.version))))))

inductive HookErr where
  /-- `AttributeError`: `pkm_home.exists()` of a `str` (bs 20). -/
  | attribute
  | failed (e : BErr)
  deriving DecidableEq, Repr

/-- A hook (bs 35-75): all but `build_editable` ask first whether there is a home directory (bs 18-31). -/
def call (hash : C → S) (current : Nat) (hv : HomeVal) (p : Prj C) (h : Hook) (d : Target C S) :
    Except HookErr Text × Target C S :=
  match hv, decide (h = .editable) with
  | .text _, false => (.error .attribute, d)
  | _, _ => match build hash current p d h with
    | .error e => (.error (.failed e), d)
    | .ok (n, d) => (.ok n, d)

/-! ### the home directory -/

/-- `buildsys_pkm` (bs 18-31): the object that the code of the build sees as `pkm`. All modules have it from `pkm.api.pkm`, where
nothing is changed; a name is set in the package `pkm.api` only. -/
def seenBy (hv : HomeVal) (_temporary : Files.Path) : HomeVal := hv

/-- The disk after the hook `build_wheel` for a containerized application: its build (pkm_app_builders.py 38-42) installs the application,
for which the repositories are loaded. -/
def containerized (sh : Shipped C) (hv : HomeVal) (temporary : Files.Path) (fs : Files.FS C) : Files.FS C :=
  match hv with
  | .text _ => fs
  | .path h => if fs.ex h then (useLoader sh (Self.new hv, fs)).2.2
    else (useLoader sh (Self.new (seenBy hv temporary), fs)).2.2

end Pkm.Hooks
