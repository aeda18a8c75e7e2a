import Verif.Requirements.Model
import Verif.Lock.Model
import Verif.Dict
/-
Model of adding and removing dependencies of a project: pkm-cli/src/pkm_cli/controllers/prj_controller.py ("pc") and
`PackageDescriptor.to_dependency` of pkm/src/pkm/api/packages/package.py ("pk").

What the environment does is a parameter (`World`): the outcome of the installation and what is installed afterwards, and
whether writing the two files succeeds. A file that cannot be written is left as it is (simplification).
-/
namespace Pkm.Projects
open Reqs

/-- `to_dependency(generalize=True)` (pk 46-58): the range from the installed version, included, to the next major number,
excluded; other kinds of versions are required exactly. A release has at least one number. -/
def generalized (v : Ver) : VSpec :=
  match v with
  | .std s => .range (some s) (some { s with release := [s.release.headD 0 + 1] }) true false
  | v => .vmatch v true

/-- `installed.descriptor.to_dependency(generalize=True)` (pc 75). -/
def toDependency (d : Desc) : Dep := { name := d.name, spec := generalized d.version }

/-- `package_name_key` of a dependency (dependency.py 32-34). -/
def key (d : Dep) : Option Text := packageNameKey d.name

/-- The dependencies in the configuration: `dependencies` and `optional_dependencies`. -/
structure Config where
  deps : List Dep
  optional : Dict Text (List Dep)

/-- A project: the configuration in memory and in pyproject.toml. -/
structure Prj where
  mem : Config
  file : Config

/-- What happens outside: the installation of the project with the configuration in memory (`none` is an exception, otherwise
the package installed under each name key), the writing of pyproject.toml and of the lock. -/
structure World where
  install : Config → Option (Option Text → Option Desc)
  save : Bool
  lock : Bool

/-- `combined_deps` (pc 47-50). -/
def combined (old new : List Dep) : List Dep :=
  old.filter (fun d => !(new.map key).contains (key d)) ++ new

/-- `configured_dependencies` (pc 54-56): the list that is changed. -/
def Config.list (c : Config) : Option Text → List Dep
  | none => c.deps
  | some g => (c.optional.get g).getD []

/-- The list is changed in place (pc 59-60, 81-82); a missing group is created (pc 56). -/
def Config.withList (c : Config) (group : Option Text) (l : List Dep) : Config :=
  match group with
  | none => { c with deps := l }
  | some g => { c with optional := c.optional.put g l }

/-- `configured_dependencies[dependency_index] = ...` at the first match (pc 73-75); `none` is `NoSuchElementException`. -/
def replaceFirst (k : Option Text) (d : Dep) : List Dep → Option (List Dep)
  | [] => none
  | x :: xs => if key x = k then some (d :: xs) else (replaceFirst k d xs).map (x :: ·)

/-- `dependency.version_spec is AllowAllVersions` (pc 70). -/
def unconstrained : VSpec → Bool
  | .all => true
  | _ => false

/-- The loop over the new dependencies (pc 69-75); `none` is an exception. -/
def pinAll (inst : Option Text → Option Desc) : List Dep → List Dep → Option (List Dep)
  | [], l => some l
  | d :: ds, l =>
    if unconstrained d.spec then
      match inst (key d) with
      | none => none
      | some p => match replaceFirst (key d) (toDependency p) l with
        | none => none
        | some l' => pinAll inst ds l'
    else pinAll inst ds l

/-- `install_dependencies` (pc 43-83). The flag tells whether it returned without an exception. `some []` and `None` as names of
groups: an empty name counts as no group. -/
def installDependencies (w : World) (p : Prj) (new : List Dep) (group : Option Text) : Bool × Prj :=
  let prev := p.mem.list group
  let l := combined prev new
  let undone : Prj → Bool × Prj := fun q => (false, { q with mem := p.mem.withList group prev })
  match w.install (p.mem.withList group l) with
  | none => undone p
  | some inst => match pinAll inst new l with
    | none => undone p
    | some l' =>
      let c := p.mem.withList group l'
      if w.save then
        if w.lock then (true, ⟨c, c⟩) else undone ⟨c, c⟩
      else undone p

/-- `filter_dep` (pc 27-28). -/
def without (names : List (Option Text)) (l : List Dep) : List Dep :=
  l.filter (fun d => !names.contains (key d))

/-- The configuration without the packages (pc 30-31). -/
def Config.without (names : List (Option Text)) (c : Config) : Config :=
  ⟨Projects.without names c.deps, c.optional.map (fun g => (g.1, Projects.without names g.2))⟩

/-- `uninstall_dependencies` (pc 21-41). The update of the project in its environment and the removal of the packages are one
step here. -/
def uninstallDependencies (w : World) (p : Prj) (packages : List Text) : Bool × Prj :=
  let c := p.mem.without (packages.map packageNameKey)
  match w.install c with
  | none => (false, { p with mem := c })
  | some _ => if w.save then (w.lock, ⟨c, c⟩) else (false, { p with mem := c })

end Pkm.Projects
