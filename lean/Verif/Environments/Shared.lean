import Verif.Text
/-
Model of `SharedPackagesRepository.remove_unused_packages`
(repositories/shared_pacakges_repo.py 31-57, cited "sp"). The workspace has three levels of directories:
package, version, shared artifact; what is in an artifact is of any type `C`. Symbolic links are not
modelled.
-/
namespace Pkm.Shared

/-- A directory entry. -/
inductive Entry (α : Type) where
  | file
  | dir (content : α)
  deriving DecidableEq, Repr

/-- Directories as listed by `iterdir`. -/
abbrev Dir (α : Type) := List (Text × Entry α)

abbrev Workspace (C : Type) := Dir (Dir (Dir C))

variable {C : Type}

/-- An installed package of an environment: the text of its `SHARED` file, if it has one. -/
abbrev Marker := Option Text

/-- `used_packages` (sp 32-36); an environment is the list of its installed packages. -/
def usedPaths (envs : List (List Marker)) : List Text := envs.flatten.filterMap id

/-- `str((workspace / package / version / artifact).absolute())` for an absolute workspace path. -/
def pathText (ws p v s : Text) : Text := ws ++ '/' :: (p ++ '/' :: (v ++ '/' :: s))

/-- The innermost loop (sp 46-51). -/
def cleanVersion (used : List Text) (ws p v : Text) (d : Dir C) : Dir C :=
  d.filter (fun e => match e.2 with
    | .file => true
    | .dir _ => used.contains (pathText ws p v e.1))

/-- The middle loop (sp 42-54): version directories that are empty now are removed. -/
def cleanPackage (used : List Text) (ws p : Text) (d : Dir (Dir C)) : Dir (Dir C) :=
  d.filterMap (fun e => match e.2 with
    | .file => some e
    | .dir c =>
      if (cleanVersion used ws p e.1 c).isEmpty then none
      else some (e.1, .dir (cleanVersion used ws p e.1 c)))

/-- The outer loop (sp 38-57). -/
def clean (used : List Text) (ws : Text) (d : Workspace C) : Workspace C :=
  d.filterMap (fun e => match e.2 with
    | .file => some e
    | .dir c =>
      if (cleanPackage used ws e.1 c).isEmpty then none
      else some (e.1, .dir (cleanPackage used ws e.1 c)))

/-- `remove_unused_packages` (sp 31-57). -/
def removeUnused (envs : List (List Marker)) (ws : Text) (d : Workspace C) : Workspace C :=
  clean (usedPaths envs) ws d

end Pkm.Shared
