import Verif.Repos.Index
/-
Model of packages that come from distribution files and from directories:
pkm/src/pkm/api/packages/package.py ("pk"), pkm/src/pkm/api/distributions/distribution.py ("di"),
pkm/src/pkm/repositories/file_system_repository.py ("fs"), pkm/src/pkm/repositories/file_repository.py ("fr") and
`PyProjectConfiguration.load_effective` of pkm/src/pkm/api/projects/pyproject_configuration.py ("pp").

Simplifications:
* A directory is given by its name, the files in it in the order of `iterdir()`, the name and version of the
  `[project]` table of its pyproject.toml if there is one, and the projects of the group if it is a project group.
* Loading a project does nothing but this: no toml errors.
* The order of versions in `sort` as in Verif/Repos/Index.lean.
-/
namespace Pkm.DistFiles
open Index (endswithAny IErr)

inductive DErr where
  | index | name | attribute
  deriving DecidableEq, Repr

/-- `PackageDescriptor` (pk 21-24). -/
structure Desc where
  name : Text
  version : Ver
  deriving DecidableEq, Repr

/-- `PackageDescriptor(name, version)` (pk 41-44); `name`: the assertion or the `ValueError`. -/
def mkDesc (name : Text) (v : Ver) : Except DErr Desc :=
  match descriptorName name with
  | some n => .ok ⟨n, v⟩
  | none => .error .name

/-- `PackageDescriptor.from_dist_name` (pk 100-110). -/
def fromDistName (env : UrlEnv) (file : Text) : Except DErr Desc :=
  match splitOn '-' file with
  | a :: b :: _ => mkDesc a (parseVersion env b)
  | _ => .error .index

/-- A package: from a distribution file or from a project directory. -/
inductive FPkg where
  | wheel (d : Desc) (file : Text)
  | sdist (d : Desc) (file : Text)
  | project (d : Desc)
  deriving DecidableEq, Repr

/-- `descriptor` (di 75-77, project.py 97-99). -/
def FPkg.desc : FPkg → Desc
  | .wheel d _ => d
  | .sdist d _ => d
  | .project d => d

/-- `Distribution.package_from` (di 45-64). -/
def packageFrom (env : UrlEnv) (file : Text) (desc : Option Desc) : Except DErr FPkg :=
  match (match desc with
    | some d => Except.ok d
    | none => fromDistName env file) with
  | .error e => .error e
  | .ok d => if t!".whl".isSuffixOf file then .ok (.wheel d file) else .ok (.sdist d file)

/-- `published_metadata`: only projects have it; `_DistributionPackage` inherits `return None` (pk 121-128,
di 67-103). The argument stands for the dependencies that a project declares. -/
def publishedDeps {D : Type} (declared : Desc → List D) : FPkg → Option (List D)
  | .project d => some (declared d)
  | _ => none

/-- `dependencies` (di 86-89; project.py 101-111 without dynamic fields): `None.dependencies` is an
`AttributeError`. -/
def dependencies {D : Type} (declared : Desc → List D) (applicable : D → Bool) (p : FPkg) : Except DErr (List D) :=
  match publishedDeps declared p with
  | none => .error .attribute
  | some ds => .ok (ds.filter applicable)

/-! ### directories -/

/-- An entry of a directory. -/
structure Entry where
  name : Text
  isDir : Bool
  deriving DecidableEq, Repr

/-- What a path shows. -/
structure Dir where
  name : Text
  entries : List Entry
  project : Option (Text × Ver)
  group : Option (List (Text × Ver))

/-- `_is_distribution` (fs 62-63). -/
def isDistribution (e : Entry) : Bool := !e.isDir && (endswithAny e.name [t!".tar.gz", t!".whl"]).isSome

/-- The descriptor of a project (pp 282-287, 207-208): the name is normalised once more. -/
def projectDesc (name : Text) (v : Ver) : Except DErr Desc :=
  match normalizeName name with
  | none => .error .name
  | some n => mkDesc n v

/-- `Project.load(path)` (project.py 349-353, pp 268-288): without a `[project]` table the name of the directory and
the version `unknown_version`. -/
def loadProject (env : UrlEnv) (d : Dir) : Except DErr FPkg :=
  match (match d.project with
    | some (n, v) => projectDesc n v
    | none => projectDesc d.name (parseVersion env t!"unknown_version")) with
  | .error e => .error e
  | .ok desc => .ok (.project desc)

/-- The projects of a group (fs 41-43). -/
def groupPackages : List (Text × Ver) → Except DErr (List FPkg)
  | [] => .ok []
  | (n, v) :: ps => match projectDesc n v with
    | .error e => .error e
    | .ok d => match groupPackages ps with
      | .error e => .error e
      | .ok r => .ok (.project d :: r)

/-- The projects of a directory (fs 40-49). `MalformedPackageException` is not raised by loading. -/
def dirProjects (env : UrlEnv) (d : Dir) : Except DErr (List FPkg) :=
  match d.group with
  | some ps => groupPackages ps
  | none => match loadProject env d with
    | .error e => .error e
    | .ok p => .ok [p]

/-- The distributions of a directory (fs 51-54). -/
def dirDists (env : UrlEnv) : List Entry → Except DErr (List FPkg)
  | [] => .ok []
  | e :: es =>
    if isDistribution e then
      match packageFrom env e.name none with
      | .error x => .error x
      | .ok p => match dirDists env es with
        | .error x => .error x
        | .ok r => .ok (p :: r)
    else dirDists env es

/-- All packages in the order in which they are appended (fs 38-57). -/
def allPackages (env : UrlEnv) (d : Dir) : Except DErr (List FPkg) :=
  match dirProjects env d with
  | .error e => .error e
  | .ok ps => match dirDists env d.entries with
    | .error e => .error e
    | .ok ds => .ok (ps ++ ds)

/-- `FileSystemRepositoryBuilder.build` (fs 35-59) for a directory: packages by the name of the descriptor. -/
def build (env : UrlEnv) (d : Dir) : Except DErr (Dict Text (List FPkg)) :=
  match allPackages env d with
  | .error e => .error e
  | .ok ps => .ok (Coll.groupby ps (fun p => p.desc.name))

/-- `PackagesDictRepository._do_match` (fs 24-26). -/
def dictMatch (repo : Dict Text (List FPkg)) (dep : Text) (spec : VSpec) : List FPkg :=
  sortBy (fun a b => !(a.desc.version.lt b.desc.version))
    (((Dict.get repo dep).getD []).filter (fun p => spec.allows p.desc.version))

/-! ### file urls -/

/-- What is at a location. -/
inductive Location where
  | dir (d : Dir)
  | file (name : Text)

/-- `load_package_from_filesystem` (fr 28-34) as used by `FileRepository._do_match` (fr 17-22) for a requirement with
a url: the name of the requirement is not looked at. -/
def fileMatch (env : UrlEnv) (dep : Text) (url : Option Location) : Except DErr (List FPkg) :=
  match url with
  | none => .ok []
  | some (.dir d) => match loadProject env d with
    | .error e => .error e
    | .ok p => .ok [p]
  | some (.file f) =>
    if (endswithAny f [t!".tar.gz", t!".whl"]).isSome then
      match packageFrom env f none with
      | .error e => .error e
      | .ok p => .ok [p]
    else .ok []

end Pkm.DistFiles
