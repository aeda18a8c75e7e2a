import Verif.VersionText.Model
import Verif.Tags.Model
import Verif.Dict
/-
Model of building, publishing and cleaning the distributions of a project and of its attached environment:
pkm/src/pkm/api/projects/project.py ("pj"), pkm/src/pkm/build/pkm_builders.py ("pb"),
`expected_wheel_file_name` of pkm/src/pkm/api/distributions/wheel_distribution.py ("wd"),
pkm-cli/src/pkm_cli/controllers/prj_controller.py ("pc"), pkm-cli/src/pkm_cli/main2.py ("m2"),
pkm/src/pkm/api/environments/environment_builder.py ("eb").

Simplifications:
* The version of the project is a standard version.
* The repository accepts every file; credentials are in Verif/Cli/Auth.lean.
* Which bytes a builder produces is a parameter (Verif/Build/Dists.lean is about it); a builder may fail.
* The directory of a version is made before its first distribution is built, as `build_sdist`, the first builder, does.
-/
namespace Pkm.Releases

/-- The builders (pj 291-296). -/
inductive Kind where
  | sdist | wheel | appSdist
  deriving DecidableEq, Repr

/-- The kind of distribution in the configuration, and whether the project is a containerized application. -/
structure DistCfg where
  none : Bool := false
  capp : Bool := false
  application : Bool := false
  deriving DecidableEq, Repr

/-- What `build` runs (pj 286-296). -/
def builders (c : DistCfg) : List Kind :=
  if c.none then []
  else if c.application then [.sdist]
  else if c.capp then [.appSdist]
  else [.sdist, .wheel]

/-- The builders: the texts around the version in the file names, and what is made from the sources for a version;
`none`: the builder raises. -/
structure Maker (S C : Type) where
  sdistPrefix : Text
  wheelPrefix : Text
  wheelTag : Text
  make : Kind → SV → S → Option C

variable {S C : Type}

/-- `sdist_file_name` (pb 123-124). -/
def Maker.sdistName (m : Maker S C) (v : SV) : Text := m.sdistPrefix ++ '-' :: (v.show ++ t!".tar.gz")

/-- `expected_wheel_file_name` (wd 72-82). -/
def Maker.wheelName (m : Maker S C) (v : SV) : Text := m.wheelPrefix ++ '-' :: (v.show ++ '-' :: (m.wheelTag ++ t!".whl"))

/-- An entry of the directory `dist`: a file, or a directory with its files and its subdirectories (`none`). -/
inductive Entry (C : Type) where
  | file
  | dir (files : Dict Text (Option C))

/-- A project object and its files. `conf` is the version in the configuration, `loaded` the version of the descriptor,
which is read when the object is made (pj 40, package.py 138-140). -/
structure Prj (S C : Type) where
  source : S
  conf : SV
  loaded : SV
  dist : Dict Text (Entry C)

/-- The name of the distribution file: source distributions are named after the configuration (pb 117-118), wheels after
the descriptor (wd 82). -/
def fileName (m : Maker S C) (p : Prj S C) : Kind → Text
  | .wheel => m.wheelName p.loaded
  | _ => m.sdistName p.conf

/-- `dist / str(self.version)` (pb 34, 69). -/
def target (p : Prj S C) : Text := p.loaded.show

/-- What is in a directory. -/
def filesOf : Option (Entry C) → Dict Text (Option C)
  | some (.dir fs) => fs
  | _ => []

/-- Is the name taken by a file? -/
def blocked : Option (Entry C) → Bool
  | some .file => true
  | _ => false

/-- The directory of the version with the given files. -/
def Prj.withFiles (p : Prj S C) (fs : Dict Text (Option C)) : Prj S C := { p with dist := p.dist.put (target p) (.dir fs) }

/-- One builder (pb 22-53, 56-92); the flag tells whether it succeeded. -/
def buildOne (m : Maker S C) (p : Prj S C) (k : Kind) : Prj S C × Bool :=
  if blocked (p.dist.get (target p)) then (p, false)
  else match m.make k p.conf p.source with
    | none => (p.withFiles (filesOf (p.dist.get (target p))), false)
    | some c => (p.withFiles ((filesOf (p.dist.get (target p))).put (fileName m p k) (some c)), true)

/-- `[build(target_dir) for build in builders]` (pj 298). -/
def buildAll (m : Maker S C) : List Kind → Prj S C → Prj S C × Bool
  | [], p => (p, true)
  | k :: ks, p => match buildOne m p k with
    | (p, true) => buildAll m ks p
    | (p, false) => (p, false)

/-- `Project.build()` (pj 279-298). -/
def build (m : Maker S C) (c : DistCfg) (p : Prj S C) : Prj S C × Bool := buildAll m (builders c) p

/-- An upload: the version in the metadata, the name and the contents of the file. -/
abbrev Sent (C : Type) := List (SV × Text × C)

/-- The files of a directory (pj 344-346). -/
def sent (v : SV) (fs : Dict Text (Option C)) : Sent C := fs.filterMap (fun f => f.2.map (fun c => (v, f.1, c)))

/-- `Project.publish` (pj 323-346) with the default directory; `none`: an exception. -/
def upload (p : Prj S C) : Option (Sent C) :=
  match p.dist.get (target p) with
  | some (.dir fs) => some (sent p.conf fs)
  | _ => none

/-- `PrjController.publish` (pc 89-109). -/
def publish (m : Maker S C) (c : DistCfg) (p : Prj S C) : Prj S C × Option (Sent C) :=
  if p.dist.has (target p) then (p, upload p)
  else match build m c p with
    | (p, true) => (p, upload p)
    | (p, false) => (p, none)

/-- Does `clean_dist` keep the entry (pj 374-377)? -/
def keeps (keep : List SV) : Text × Entry C → Bool
  | (n, .dir _) => (keep.map SV.show).contains n
  | (_, .file) => false

/-- `clean_dist` (pj 362-379). -/
def cleanDist (p : Prj S C) (keep : List SV) : Prj S C := { p with dist := p.dist.filter (keeps keep) }

/-- `bump_version` (pj 154-178) with saving, for the particles of a release or a pre-release; `none`: the exception. -/
def bumpVersion (p : Prj S C) (particle : Text) : Option (Prj S C) :=
  (p.conf.bump particle).map (fun v => { p with conf := v })

/-- `Project.load` (pj 348-353). -/
def load (p : Prj S C) : Prj S C := { p with loaded := p.conf }

/-! ### commands -/

/-- What happens to a project between two uses of it: the sources are edited, `pkm vbump`, `pkm build`, `pkm clean dist`
(with `--all`), `pkm publish`. -/
inductive Cmd (S : Type) where
  | edit (s : S)
  | vbump (particle : Text)
  | build
  | clean (all : Bool)
  | publish

/-- One command (m2 186-210, 326-345, 393-400); it loads the project first. What was sent, if anything, and whether the command
succeeded. -/
def step (m : Maker S C) (c : DistCfg) (p : Prj S C) : Cmd S → Prj S C × Bool × Option (Sent C)
  | .edit s => ({ p with source := s }, true, none)
  | .vbump x => match bumpVersion (load p) x with
    | some q => (q, true, none)
    | none => (load p, false, none)
  | .build => ((build m c (load p)).1, (build m c (load p)).2, none)
  | .clean all => (cleanDist (load p) (if all then [] else [(load p).loaded]), true, none)
  | .publish => ((publish m c (load p)).1, (publish m c (load p)).2.isSome, (publish m c (load p)).2)

/-- Commands one after the other. -/
def run (m : Maker S C) (c : DistCfg) : Prj S C → List (Cmd S) → Prj S C
  | p, [] => p
  | p, x :: xs => run m c (step m c p x).1 xs

/-! ### the attached environment -/

/-- A path, the outermost component first. -/
abbrev Path := List Text

/-- `AttachedEnvironmentConfig` (environments_config.py 10-14). -/
structure EnvCfg where
  path : Option Path := none
  zoo : Option Path := none
  deriving DecidableEq, Repr

/-- Where the environment is (pj 213-226). `group` is the configuration of the project group if there is one. -/
def envPath (project : Path) (name : Text) (own group : Option EnvCfg) : Path :=
  match (own.or group).getD {} with
  | ⟨some p, _⟩ => p
  | ⟨none, some z⟩ => z ++ [name]
  | ⟨none, none⟩ => project ++ [t!".venv"]

/-- The files on the disk, by their paths. -/
abbrev Disk (C : Type) := Dict Path C

def below (d p : Path) : Bool := d.isPrefixOf p

/-- `path.exists()`. -/
def existsAt (f : Disk C) (d : Path) : Bool := f.any (fun x => below d x.1)

/-- `Environment.is_venv_path` (environment.py 308-313, 348-349). -/
def isVenv (f : Disk C) (d : Path) : Bool :=
  existsAt f (d ++ [t!"pyvenv.cfg"]) &&
    (existsAt f (d ++ [t!"bin", t!"python"]) || existsAt f (d ++ [t!"Scripts", t!"python.exe"]))

/-- `shutil.rmtree`. -/
def rmtree (f : Disk C) (d : Path) : Disk C := f.filter (fun x => !below d x.1)

/-- What `EnvironmentBuilder.create` writes (eb 38-103): files below the path of the environment. -/
def created (d : Path) (fresh : List (Path × C)) : Disk C := fresh.map (fun x => (d ++ x.1, x.2))

/-- `attached_environment` (pj 207-234). `fresh`: the files of a new environment for the interpreter that is found; `none`: no
interpreter fits (eb 32-34). The flag tells whether there is an environment. A location that is a file makes `rmtree` raise. -/
def attach (f : Disk C) (d : Path) (fresh : Option (List (Path × C))) : Disk C × Bool :=
  if isVenv f d then (f, true)
  else if (f.map (·.1)).contains d then (f, false)
  else match fresh with
    | none => (rmtree f d, false)
    | some xs => (rmtree f d ++ created d xs, true)

end Pkm.Releases
