import Verif.Collections.Model
import Verif.Names.Model
import Verif.Specifier.Model
import Verif.VersionText.Model
import Verif.Sort
/-
Model of pkm/src/pkm/resolution/packages_lock.py ("lk").

An environment is represented by its `markers_hash` (a text) and the descriptors of its installed
packages.
-/
namespace Pkm

/-- `PackageDescriptor` (package.py 21-24). `name` is the stored, already normalised name; use
`Desc.make` for the constructor. -/
structure Desc where
  name : Text
  version : Ver
  deriving DecidableEq, Repr

namespace Desc

/-- The constructor `PackageDescriptor(name, version)` (package.py 41-44); `none` is an exception. A
version object is always truthy. -/
def make (name : Text) (version : Ver) : Option Desc :=
  (descriptorName name).map (fun n => ⟨n, version⟩)

/-- `write` (package.py 60-64): the values of the keys `name` and `version`. -/
def write (d : Desc) : Text × Text := (d.name, d.version.show)

/-- `read` (package.py 66-68). -/
def read (env : UrlEnv) (data : Text × Text) : Option Desc := make data.1 (parseVersion env data.2)

end Desc

/-- `_LockedVersion` (lk 17-21). -/
structure Locked where
  envHash : Text
  package : Desc
  deriving DecidableEq, Repr

/-- `PackagesLock._locked_packages` (lk 40-41). -/
abbrev Lock := Dict Text (List Locked)

namespace Lock

/-- `[lp for lst in self._locked_packages.values() for lp in lst]` (lk 62, 73, 98-99, 118). -/
def flat (l : Lock) : List Locked := (Dict.values l).flatten

/-- `PackagesLock.__init__` (lk 38-42). -/
def ofList (ls : List Locked) : Lock := Coll.groupby ls (fun it => it.package.name)

/-- `unlock_packages` (lk 44-54). -/
def unlock (l : Lock) (names : List Text) : Lock := names.foldl Dict.del l

/-- `env_specific_locks` (lk 56-63). -/
def envSpecific (l : Lock) (env : Text) : List Desc :=
  (l.flat.filter (fun lp => lp.envHash == env)).map (·.package)

/-- `locked_versions` (lk 65-88). -/
def lockedVersions (l : Lock) (env : Text) (package : Text) : List Desc :=
  let relevant := if package.isEmpty then l.flat else (Dict.get l package).getD []
  if relevant.isEmpty then []
  else
    let result := (relevant.filter (fun lk => lk.envHash != env)).map (·.package)
    if result.length != relevant.length then
      match relevant.find? (fun lk => lk.envHash == env) with
      | some lk => lk.package :: result
      | none => result
    else result

/-- `update_lock` (lk 90-106). -/
def update (l : Lock) (env : Text) (installed : List Desc) : Lock :=
  ofList (l.flat.filter (fun lk => lk.envHash != env) ++ installed.map (fun d => ⟨env, d⟩))

/-- One entry of the `lock` list of the lock file: markers hash, name, version text. -/
abbrev FileEntry := Text × (Text × Text)

/-- `save` (lk 108-119): the entries written to the lock file. The TOML layer is not part of this
model (see C34, C47). -/
def save (l : Lock) : List FileEntry := l.flat.map (fun lp => (lp.envHash, lp.package.write))

/-- `load` (lk 128-137); `none` is an exception of `PackageDescriptor`. -/
def load (env : UrlEnv) (file : List FileEntry) : Option Lock :=
  (file.mapM (fun e => (Desc.read env e.2).map (fun d => (⟨e.1, d⟩ : Locked)))).map ofList

/-- A candidate package of a repository: only its descriptor matters here. -/
def sortByPreference (l : Lock) (env : Text) (packages : List Desc) : List Desc :=
  -- lk 121-126
  match packages with
  | [] => packages
  | p :: _ =>
    let locked := VSpec.unionSet [] ((l.lockedVersions env p.name).map (·.version))
    let key := fun (it : Desc) => if VSpec.memSet it.version locked then 0 else 1
    sortBy (fun a b => decide (key a ≤ key b)) packages

end Lock
end Pkm
