import Verif.Repos.DistFiles
import Verif.Repos.Model
import Verif.Tags.Model
/-
Model of the conda repository: /repo/repositories/conda-pkm-repo/src/conda_pkm_repo/conda_channel_subdir.py (`cs`
below) and conda_repo.py (`cr`), with `OperatingPlatform` of /repo/pkm/src/pkm/api/environments/environment.py
353-368 (`en`).

Simplifications:
* What the server answers for `repodata.json.bz2` of a subdirectory is an input and stays the same; that it is read
  only once (cr 43-48) makes no difference then. A failing request and entries of the file without one of the used
  fields are not modelled.
* An exception is the value `error`, of a class that tells where it comes from.
* Dependencies of conda packages have no markers, so `is_applicable_for` is true of all of them (cs 164-167).
-/
namespace Pkm.Conda
open Tags

inductive CErr where
  /-- `UnsupportedOperationException` -/
  | unsupported
  /-- `IndexError` -/
  | index
  /-- what `VersionSpecifier.parse` raises -/
  | parse
  /-- `AssertionError` -/
  | assertion
  /-- the name of a package is refused by `PackageDescriptor` -/
  | name
  /-- `KeyError` -/
  | key
  /-- `AttributeError` -/
  | attribute
  /-- `ValueError` of unpacking -/
  | value
  deriving DecidableEq, Repr

/-! ### platforms -/

/-- `OperatingPlatform` (en 353-359): the used fields. -/
structure Platform where
  os : Text
  /-- `python_interpreter_bits` -/
  bits : Nat
  machine : Text

/-- `has_x86_cpu` (en 364-365). -/
def Platform.x86 (p : Platform) : Bool := [t!"i386", t!"amd64", t!"x86", t!"x86_64"].contains p.machine

/-- `has_arm_cpu` (en 367-368). -/
def Platform.arm (p : Platform) : Bool := contains t!"armv71" p.machine || contains t!"aarch64" p.machine

/-- `_SUBDIR_BY_PLATFORM` (cs 26-35). -/
def subdirTable : List (Text × Text) :=
  [(t!"linux-64-x86", t!"linux-64"), (t!"linux-32-x86", t!"linux-32"), (t!"linux-64-arm", t!"linux-aarch64"),
   (t!"darwin-64-arm", t!"osx-arm64"), (t!"darwin-64-x86", t!"osx-64"), (t!"windows-64-x86", t!"win-64"),
   (t!"windows-32-x86", t!"win-32"), (t!"any", t!"noarch")]

/-- `_SUBDIR_TO_OS_CTAG` (cs 37-46). -/
def tagTable : List (Text × Text) :=
  [(t!"linux-64", t!"linux_x86_64"), (t!"linux-32", t!"linux_i386"), (t!"linux-aarch64", t!"manylinux2014_aarch64"),
   (t!"osx-arm64", t!"macosx_11_0_arm64"), (t!"osx-64", t!"macosx_10_14_x86_64"), (t!"win-64", t!"win_amd64"),
   (t!"win-32", t!"win32"), (t!"any", t!"any")]

/-- `cpu` of `subdir_of` (cs 53-60). -/
def cpuOf (p : Platform) : Except CErr Text :=
  if p.x86 then .ok t!"x86" else if p.arm then .ok t!"arm" else .error .unsupported

/-- `subdir_of` (cs 51-67). -/
def subdirOf (p : Platform) : Except CErr Text :=
  match cpuOf p with
  | .error e => .error e
  | .ok cpu => match subdirTable.lookup (p.os ++ '-' :: (showNat p.bits ++ '-' :: cpu)) with
    | some s => .ok s
    | none => .error .unsupported

/-! ### the contents of a subdirectory -/

/-- An entry of `repodata["packages"]`: the used fields. -/
structure Info where
  name : Text
  version : Text
  build : Text
  buildNumber : Nat
  depends : List Text
  deriving DecidableEq

/-- `repodata["packages"]`: by artifact name. -/
abbrev Repodata := Dict Text Info

/-- An artifact: name and entry (cs 125-129). -/
abbrev Art := Text × Info

/-- `CondaChannelSubdir` (cs 70-86). -/
structure Subdir where
  channel : Text
  name : Text
  data : Repodata

/-- `CondaSubdirPackage` (cs 196-201). -/
structure Pkg where
  name : Text
  ver : Text
  artifacts : List Art
  deriving DecidableEq

/-- The packages of a subdirectory: one for each name and version (cs 76-85). -/
def packages (sd : Subdir) : List Pkg :=
  (Coll.groupby sd.data (fun e => (e.2.name, e.2.version))).map (fun g => ⟨g.1.1, g.1.2, g.2⟩)

/-- `general_package`, and `self.packages.get(package) or []` (cs 98, 104-105). -/
def general (sd : Subdir) (name : Text) : List Pkg :=
  match Dict.get (Coll.groupby (packages sd) (·.name)) name with
  | some ps => ps
  | none => []

/-- `p.version`: by way of the descriptor, which refuses some names (cs 216-218; package.py 41-44). -/
def Pkg.version (env : UrlEnv) (p : Pkg) : Except CErr Ver :=
  match descriptorName p.name with
  | some _ => .ok (parseVersion env p.ver)
  | none => .error .name

/-- `[p for p in packages if spec.allows_version(p.version)]` (cs 100; cr 40-41), with the versions. -/
def allowed (env : UrlEnv) (spec : VSpec) : List Pkg → Except CErr (List (Ver × Pkg))
  | [] => .ok []
  | p :: ps => match p.version env with
    | .error e => .error e
    | .ok v => match allowed env spec ps with
      | .error e => .error e
      | .ok r => .ok (if spec.allows v then (v, p) :: r else r)

/-- What `.*` can leave of a text: its ends, up to the first newline. -/
def skips : Text → List Text
  | [] => [[]]
  | c :: t => (c :: t) :: (if c = '\n' then [] else skips t)

/-- `re.compile(re.escape(build).replace("\\*", ".*")).match(t)` (cs 97, 101-102): some beginning of `t` matches. -/
def buildMatches : Text → Text → Bool
  | [], _ => true
  | c :: b, t =>
    if c = '*' then (skips t).any (buildMatches b)
    else match t with
      | [] => false
      | d :: t' => decide (c = d) && buildMatches b t'

/-- What `VersionSpecifier.parse` gives or raises. -/
def readSpec (env : UrlEnv) (t : Text) : Except CErr VSpec :=
  match parseSpecifier env t with
  | .ok s => .ok s
  | .error _ => .error .parse

/-- `match_artifacts_by_build` (cs 94-102). -/
def matchArtifacts (env : UrlEnv) (sd : Subdir) (package version build : Text) : Except CErr (List Art) :=
  if build.isEmpty then .error .assertion
  else match (if version = t!"*" then .ok .all else readSpec env (t!"==" ++ version)) with
    | .error e => .error e
    | .ok spec => match allowed env spec (general sd package) with
      | .error e => .error e
      | .ok ps => .ok (ps.flatMap (fun p => p.2.artifacts.filter (fun a => buildMatches build a.2.build)))

/-- `single_artifact_package` (cs 107-112). -/
def single (sd : Subdir) (artifact : Text) : Option Pkg :=
  match Dict.get sd.data artifact with
  | some i => some ⟨i.name, i.version, [(artifact, i)]⟩
  | none => none

/-! ### dependencies -/

/-- `_parse_specifier` (cs 115-122). -/
def parseSpec (env : UrlEnv) (spec : Text) : Except CErr VSpec :=
  match spec with
  | [] => .error .index
  | c :: _ =>
    if t!"><=!~".contains c then readSpec env spec
    else if spec = t!"*" then .ok .all
    else if t!".*".isSuffixOf spec then readSpec env (t!"~=" ++ spec.take (spec.length - 2) ++ t!".0")
    else .ok (.vmatch (parseVersion env spec) true)

/-- The alternatives of a requirement (cs 144). -/
def parseSpecs (env : UrlEnv) : List Text → Except CErr (List VSpec)
  | [] => .ok []
  | t :: ts => match parseSpec env t with
    | .error e => .error e
    | .ok s => match parseSpecs env ts with
      | .error e => .error e
      | .ok r => .ok (s :: r)

/-- `VersionsUnion(..)`. -/
def union (l : List VSpec) : Except CErr VSpec :=
  match VSpec.mkUnion l with
  | .ok s => .ok s
  | .error _ => .error .assertion

/-- `Dependency`: name and specifier. -/
structure Dep where
  name : Text
  spec : VSpec

/-- `UrlVersion.parse(..)` of an artifact (cs 150-152); where it raises `ValueError` is not modelled as an error but
gives a named version. -/
def urlOf (env : UrlEnv) (sd : Subdir) (artifact : Text) : Ver :=
  let t := t!"conda+" ++ sd.channel ++ '/' :: (sd.name ++ '/' :: artifact)
  match parseUrlVersion env t with
  | some v => v
  | none => .named t

/-- `_parse_dependency` (cs 139-162). -/
def parseDep (env : UrlEnv) (sd : Subdir) (d : Text) : Except CErr Dep :=
  match splitOn ' ' d with
  | [] => .error .index
  | [n] => .ok ⟨n, .all⟩
  | [n, v] => match parseSpecs env (splitOn '|' v) with
    | .error e => .error e
    | .ok [s] => .ok ⟨n, s⟩
    | .ok ss => match union ss with
      | .error e => .error e
      | .ok s => .ok ⟨n, s⟩
  | n :: v :: b :: _ => match matchArtifacts env sd n v b with
    | .error e => .error e
    | .ok as => match as.map (fun a => VSpec.vmatch (urlOf env sd a.1) true) with
      | [] => .ok ⟨n, .none⟩
      | [s] => .ok ⟨n, s⟩
      | ss => match union ss with
        | .error e => .error e
        | .ok s => .ok ⟨n, s⟩

/-- `_all_dependencies` (cs 134-137). -/
def allDeps (env : UrlEnv) (sd : Subdir) : List Text → Except CErr (List Dep)
  | [] => .ok []
  | d :: ds => match parseDep env sd d with
    | .error e => .error e
    | .ok x => match allDeps env sd ds with
      | .error e => .error e
      | .ok r => .ok (x :: r)

/-- `dependencies` (cs 164-167) of what `_all_dependencies` is. -/
def depsOf (all : List Dep) : List Dep := all.filter (fun d => d.name != t!"python")

/-- `required_python` (cs 169-174) of what `_all_dependencies` is. -/
def requiredPython (all : List Dep) : VSpec :=
  match all.find? (fun d => d.name == t!"python") with
  | some d => d.spec
  | none => .all

/-- The interpreter part of `compatibility_tag` (cs 179-188). -/
def pyTag : VSpec → Except CErr Text
  | .all => .ok t!"py2.py3"
  | .range (some m) _ imin _ =>
    let r := if imin then m.release else incLast m.release
    .ok (t!"py" ++ (r.take 2).flatMap showNat)
  | .range none _ _ _ => .error .attribute
  | _ => .error .unsupported

/-- `compatibility_tag` (cs 176-190). -/
def compatTag (sd : Subdir) (all : List Dep) : Except CErr Text :=
  match pyTag (requiredPython all) with
  | .error e => .error e
  | .ok t => match tagTable.lookup sd.name with
    | none => .error .key
    | some p => .ok (t ++ t!"-none-" ++ p)

/-! ### the best artifact -/

/-- `d.version_spec is not RestrictAllVersions`. -/
def possible (d : Dep) : Bool := !d.spec.isNone

/-- `scored_artifacts` (cs 204-209): the artifacts with their scores. -/
def scored (env : UrlEnv) (sys : Sys) (sd : Subdir) : List Art → Except CErr (List (Art × Score × Nat))
  | [] => .ok []
  | a :: as => match allDeps env sd a.2.depends with
    | .error e => .error e
    | .ok all => match compatTag sd all with
      | .error e => .error e
      | .ok tag => match scored env sys sd as with
        | .error e => .error e
        | .ok r => match compatibilityScore sys tag with
          | none => .ok r
          | some s => .ok (if (depsOf all).all possible then (a, s, a.2.buildNumber) :: r else r)

/-- `x < y` of the pairs of score and build number. -/
def keyLt (x y : Score × Nat) : Bool :=
  if scoreLt x.1 y.1 then true else if scoreLt y.1 x.1 then false else decide (x.2 < y.2)

/-- `max(.., key=..)` (cs 214): the first one that no other exceeds. -/
def maxFrom (b : Art × Score × Nat) : List (Art × Score × Nat) → Art × Score × Nat
  | [] => b
  | x :: xs => maxFrom (if keyLt b.2 x.2 then x else b) xs

/-- `_best_artifact_for` (cs 203-214). -/
def best (env : UrlEnv) (sys : Sys) (sd : Subdir) (p : Pkg) : Except CErr (Option Art) :=
  match scored env sys sd p.artifacts with
  | .error e => .error e
  | .ok [] => .ok none
  | .ok (x :: xs) => .ok (some (maxFrom x xs).1)

/-! ### the repository -/

/-- `_normalize_channel` (cr 54-55). -/
def normalizeChannel (c : Text) : Text := lower (c.reverse.dropWhile (· == '/')).reverse

/-- `CondaRepository` (cr 18-23) and what the server has for each subdirectory. -/
structure Repo where
  channel : Text
  serve : Text → Repodata

/-- `subdir_by_name` (cr 43-48). -/
def Repo.subdir (r : Repo) (name : Text) : Subdir := ⟨r.channel, name, r.serve name⟩

/-- `_sorted_by_version` (repository.py 91-93): descending and stable. -/
def sortDown (l : List (Ver × Pkg)) : List (Ver × Pkg) := sortBy (fun a b => !(a.1.lt b.1)) l

/-- `_do_match` for a general request (cr 36-41). -/
def matchGeneral (env : UrlEnv) (r : Repo) (pl : Platform) (d : Dep) : Except CErr (List (Subdir × Ver × Pkg)) :=
  match subdirOf pl with
  | .error e => .error e
  | .ok s => match allowed env d.spec (general (r.subdir s) d.name) with
    | .error e => .error e
    | .ok ps => .ok ((sortDown ps).map (fun p => (r.subdir s, p)))

/-- `_do_match` for a URL (cr 26-34). -/
def matchUrl (env : UrlEnv) (r : Repo) (url protocol : Text) : Except CErr (List (Subdir × Ver × Pkg)) :=
  if protocol ≠ t!"conda" then .error .assertion
  else if (r.channel ++ ['/']).isPrefixOf (lower url) then
    match splitOn '/' (url.drop (r.channel.length + 1)) with
    | [s, a] => match single (r.subdir s) a with
      | none => .ok []
      | some p => match p.version env with
        | .error e => .error e
        | .ok v => .ok [(r.subdir s, v, p)]
    | _ => .error .value
  else .ok []

/-- `CondaRepository._do_match` (cr 25-41). The packages come with their subdirectory and version; the version of a
package that was found by URL is computed here and not when it is first asked for. -/
def doMatch (env : UrlEnv) (r : Repo) (pl : Platform) (d : Dep) : Except CErr (List (Subdir × Ver × Pkg)) :=
  match d.spec with
  | .vmatch (.url u p s) true => matchUrl env r u (urlProtocol p s)
  | _ => matchGeneral env r pl d

/-- `[d for d in .. if d.is_compatible_with(env)]` (repository.py 77; cs 227-228). -/
def compatible (env : UrlEnv) (sys : Sys) : List (Subdir × Ver × Pkg) → Except CErr (List (Subdir × Ver × Pkg))
  | [] => .ok []
  | p :: ps => match best env sys p.1 p.2.2 with
    | .error e => .error e
    | .ok b => match compatible env sys ps with
      | .error e => .error e
      | .ok r => .ok (if b.isSome then p :: r else r)

/-- `CondaRepository.match` (repository.py 73-78). -/
def find (env : UrlEnv) (sys : Sys) (r : Repo) (pl : Platform) (d : Dep) : Except CErr (List (Subdir × Ver × Pkg)) :=
  match doMatch env r pl d with
  | .error e => .error e
  | .ok l => match compatible env sys l with
    | .error e => .error e
    | .ok l => .ok (Repos.filterPre (fun p => p.2.1.isPreOrDev) l d.spec.allowsPre)

end Pkm.Conda
