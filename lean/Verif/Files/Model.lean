import Verif.Dict
import Verif.Text
/-
File system, paths, and uninstallation: pkm/src/pkm/utils/files.py ("fl"),
pkm/src/pkm/api/packages/site_packages.py ("st"), pkm/src/pkm/api/distributions/distinfo.py ("di").

A file system is a finite map from absolute paths to files (with a content of an arbitrary type) and
directories. Not modelled: links, permissions, devices, other processes that change the file system
meanwhile. Without links `Path.resolve` only removes `.` and `..`.
-/
namespace Pkm
namespace Files

/-- An absolute path: its components, the innermost first; `[]` is `/`. -/
abbrev Path := List Text

/-- `path.parent`; the parent of `/` is `/`. -/
def parent : Path → Path
  | [] => []
  | _ :: p => p

inductive Node (C : Type) where
  | file (content : C)
  | dir
  deriving DecidableEq, Repr

abbrev FS (C : Type) := Dict Path (Node C)

variable {C : Type}

namespace FS

/-- `path.exists()`. -/
def ex (fs : FS C) (p : Path) : Bool := (Dict.get fs p).isSome

/-- `path.is_dir()`. -/
def isDir (fs : FS C) (p : Path) : Bool :=
  match Dict.get fs p with
  | some .dir => true
  | _ => false

/-- Is `q` a child of the directory `d`? -/
def childOf (d : Path) : Path → Bool
  | [] => false
  | _ :: q => q == d

/-- `is_empty_directory` (fl 13-20). -/
def isEmptyDir (fs : FS C) (d : Path) : Bool :=
  isDir fs d && !fs.any (fun e => childOf d e.1)

/-- `path.unlink(missing_ok=True)`; `none`: an exception (the path is a directory). -/
def unlink (fs : FS C) (p : Path) : Option (FS C) :=
  match Dict.get fs p with
  | some .dir => none
  | some (.file _) => some (Dict.del fs p)
  | none => some fs

/-- Everything at and below `d` removed. -/
def dropTree (fs : FS C) (d : Path) : FS C := fs.filter (fun e => !d.isSuffixOf e.1)

/-- `shutil.rmtree(path, ignore_errors=True)`: nothing happens if it is not a directory. -/
def rmtreeQuiet (fs : FS C) (d : Path) : FS C := if isDir fs d then dropTree fs d else fs

/-- `shutil.rmtree(path)`. -/
def rmtree (fs : FS C) (d : Path) : Option (FS C) := if isDir fs d then some (dropTree fs d) else none

end FS

/-! ### paths as text -/

/-- `str(path)`. -/
def showPath : Path → Text
  | [] => ['/']
  | p => p.reverse.flatMap (fun c => '/' :: c)

/-- `is_relative_to` (fl 272-279): a prefix test on texts. -/
def isRelativeTo (path root : Path) : Bool := (showPath root).isPrefixOf (showPath path)

/-- One component of a path given as text. -/
def stepPath (p : Path) (c : Text) : Path :=
  if c = [] ∨ c = ['.'] then p else if c = ['.', '.'] then parent p else c :: p

/-- Where `Path(root, text)` starts: an absolute text replaces the root. -/
def startOf (root : Path) (t : Text) : Path := if t.head? = some '/' then [] else root

/-- `Path(root, text).resolve()`. -/
def resolveFrom (root : Path) (t : Text) : Path := (splitOn '/' t).foldl stepPath (startOf root t)

/-- `str(Path(*components))` for relative components, the outermost first. -/
def joinSlash : List Text → Text
  | [] => []
  | [c] => c
  | c :: cs => c ++ '/' :: joinSlash cs

/-- The loop of `path_to` (fl 54-59): `destination.parents` are the proper ancestors. The result: how
many steps back and the components of `destination.relative_to(p)`; `none`: out of fuel. -/
def pathToLoop (destination : Path) : Nat → Path → Nat → Option (Nat × List Text)
  | 0, _, _ => none
  | fuel + 1, p, back =>
    if destination ≠ p ∧ p.isSuffixOf destination then
      some (back, (destination.take (destination.length - p.length)).reverse)
    else pathToLoop destination fuel (parent p) (back + 1)

/-- `path_to` (fl 44-60) for absolute paths. `none`: out of fuel. -/
def pathTo (fuel : Nat) (source destination : Path) : Option Text :=
  (pathToLoop destination fuel source 0).map
    (fun r => (List.replicate r.1 ['.', '.', '/']).flatten ++ joinSlash r.2)

/-! ### uninstallation -/

/-- `DistInfo.installed_files` (di 198-207): the recorded files, relative to the site, and RECORD. -/
def installedFiles (distInfo : Path) (records : List Text) : List Path :=
  records.map (resolveFrom (parent distInfo)) ++ ["RECORD".toList :: distInfo]

/-- The first loop of `uninstall` (st 213-216). `parents_to_check` is a set. -/
def unlinkAll : List Path → FS C → List Path → Option (FS C × List Path)
  | [], fs, parents => some (fs, parents)
  | f :: files, fs, parents =>
    match fs.unlink f with
    | none => none
    | some fs => unlinkAll files fs (if parent f ∈ parents then parents else parents ++ [parent f])

def pycache : Text := "__pycache__".toList

/-- The second loop of `uninstall` (st 218-231). `pick` chooses the element that `set.pop` takes. Out of
fuel is `none`. -/
def cleanParents (pick : List Path → Nat) (site : Path) : Nat → FS C → List Path → Option (FS C)
  | 0, _, _ => none
  | _ + 1, fs, [] => some fs
  | fuel + 1, fs, p0 :: ps =>
    let p := (p0 :: ps).getD (pick (p0 :: ps)) p0
    let rest := (p0 :: ps).erase p
    if p = site ∨ isRelativeTo p site = false then cleanParents pick site fuel fs rest
    else
      let fs := if fs.ex (pycache :: p) then fs.rmtreeQuiet (pycache :: p) else fs
      if fs.isEmptyDir p then
        cleanParents pick site fuel (Dict.del fs p) (if parent p ∈ rest then rest else rest ++ [parent p])
      else cleanParents pick site fuel fs rest

/-- `InstalledPackage.uninstall` (st 208-236) for the package with the given dist-info directory and
RECORD entries; `none`: an exception. -/
def uninstall (pick : List Path → Nat) (distInfo : Path) (records : List Text) (fs : FS C) : Option (FS C) :=
  match unlinkAll (installedFiles distInfo records) fs [] with
  | none => none
  | some (fs, parents) =>
    match cleanParents pick (parent distInfo) (parents.length + fs.length + 1) fs parents with
    | none => none
    | some fs => if fs.ex distInfo then fs.rmtree distInfo else some fs

end Files
end Pkm
