import Verif.Names.Model
import Verif.Tags.Model
import Verif.Dict
/-
Model of finding and installing package containers: pkm/src/pkm/api/environments/package_containers.py ("pc") 39-120, 146-172, 250-283.

Simplifications:
* A site directory is a map from the keys of package names to the packages; versions and what a dependency allows are parameters. A name
  without a key (a `ValueError`) is treated like one that is not installed.
* What the installation in the container arrives at (pc 152-158) is a parameter: from the packages that are in the container, if there
  is one, to those that are there afterwards. The files are in `Files`, the programs in `Environments/Containers`.
* Only dependencies are installed: a project becomes the dependency on its own version (pc 253-255), or a wrapper like the one here.
-/
namespace Pkm.Containers

/-- A package inside a container. -/
structure Inner (V : Type) where
  name : Text
  version : V
  requested : Bool
  deriving DecidableEq

/-- A package of the environment; `box`: the packages in it if it is a container. -/
structure Inst (V : Type) where
  name : Text
  version : V
  box : Option (Dict Text (Inner V))
  deriving DecidableEq

abbrev Site (V : Type) := Dict Text (Inst V)

/-- `installed_package` (site_packages.py 92-93). -/
def installed {α : Type} (site : Dict Text α) (n : Text) : Option α := (packageNameKey n).bind (fun k => site.get k)

/-- (pc 28). -/
def suffix : Text := t!"_containerized"

/-- `container_of` (pc 106-118). -/
def containerOf {V : Type} (site : Site V) (n : Text) : Option (Inst V) :=
  match installed site n with
  | some i => if i.box.isSome then some i else none
  | none => match installed site (n ++ suffix) with
    | some i => if i.box.isSome then some i else none
    | none => none

/-- `containers` (pc 86-94). -/
def containers {V : Type} (site : Site V) : List (Inst V) := (site.map (·.2)).filter (fun i => i.box.isSome)

/-- `s[:-len(suffix)]` (pc 52). -/
def dropSuffix (n : Text) : Text := n.take (n.length - suffix.length)

/-- `containerized_package` (pc 44-54). -/
def mainOf {V : Type} (name : Text) (box : Dict Text (Inner V)) : Option (Inner V) :=
  match (match packageNameKey name with
    | some k => if suffix.isSuffixOf k then installed box (dropSuffix name) else none
    | none => none) with
  | some i => some i
  | none => installed box name

/-- `list_installed_plugins` (pc 69-77); `none`: there is no main package, and an `AttributeError`. -/
def plugins {V : Type} (name : Text) (box : Dict Text (Inner V)) : Option (List (Inner V)) :=
  match mainOf name box with
  | none => none
  | some m => some ((box.map (·.2)).filter (fun i => i.requested && i.name != m.name && i.name != name))

/-- A dependency: the name of a package and the versions it allows. -/
structure Dep (V : Type) where
  name : Text
  allows : V → Bool

/-- The name of the installed wrapper (pc 137-138, package.py 44). -/
def wrapperName {V : Type} (d : Dep V) : Option Text := descriptorName (d.name ++ suffix)

/-- `install` with `update` for a dependency (pc 281-283, 146-248): a wrapper for it is installed; `none`: an exception. `wv` is the
version of wrappers (pc 29). -/
def installNew {V : Type} (wv : V) (resolve : Dep V → Option (Dict Text (Inner V)) → Option (Dict Text (Inner V))) (site : Site V)
    (d : Dep V) : Option (Site V) :=
  match wrapperName d with
  | none => none
  | some n => match packageNameKey n with
    | none => none
    | some k =>
      match resolve d ((site.get k).bind (·.box)) with
      | none => none
      | some inner => some (site.put k ⟨n, wv, some (inner.put k ⟨n, wv, true⟩)⟩)

/-- `install` (pc 263-283) for a dependency: the new site, and whether something was installed. -/
def install {V : Type} (wv : V) (resolve : Dep V → Option (Dict Text (Inner V)) → Option (Dict Text (Inner V))) (site : Site V)
    (d : Dep V) (update : Bool) : Option (Site V × Bool) :=
  if update then (installNew wv resolve site d).map (·, true)
  else match containerOf site d.name with
    | none => (installNew wv resolve site d).map (·, true)
    | some c => match mainOf c.name (c.box.getD []) with
      | none => none
      | some m => if d.allows m.version then some (site, false) else (installNew wv resolve site d).map (·, true)

end Pkm.Containers
