import Verif.Files.Wheel
import Verif.Repos.DistFiles
import Verif.Specifier.Model
import Verif.Collections.Model
/-
Model of the building of source distributions and wheels by pkm itself: pkm/src/pkm/build/pkm_builders.py ("pb"),
`ProjectDirectories` of pkm/src/pkm/api/projects/project.py ("pj"), `expected_wheel_file_name` of
pkm/src/pkm/api/distributions/wheel_distribution.py ("wd").

Simplifications:
* A directory is the list of the files below it with their contents. A directory without files does not count.
* A configured package is a relative path of plain names (no `.` and no `..`), given by its components.
* What METADATA, LICENSE, WHEEL and entry_points.txt contain is given (C51, C67 are about it).
* Files are met in the order of the list; the lengths in RECORD are left out.
-/
namespace Pkm.Dists
open Files (Rec joinSlash)

inductive BErr where
  | notFound | notADirectory | exists_ | attribute | name
  deriving DecidableEq, Repr

/-- A path below a directory, the outermost component first. -/
abbrev Rel := List Text

/-- The files below a directory. -/
abbrev Tree (C : Type) := List (Rel × C)

variable {C S : Type}

def pycache : Text := t!"__pycache__"
def src : Text := t!"src"

/-- The files below `d`. -/
def under (t : Tree C) (d : Rel) : Tree C :=
  t.filterMap (fun f => if d.isPrefixOf f.1 && decide (d.length < f.1.length) then some (f.1.drop d.length, f.2) else none)

/-- `path.is_dir()`. -/
def isDir (t : Tree C) (d : Rel) : Bool := !(under t d).isEmpty

/-- `path.exists()`. -/
def ex (t : Tree C) (d : Rel) : Bool := isDir t d || t.any (fun f => f.1 == d)

/-- The first component of a path with more than one. -/
def topDir : Rel → Option Text
  | a :: _ :: _ => some a
  | _ => none

/-- `[p for p in src_dir.iterdir() if p.is_dir()]` (pj 390). -/
def topDirs (t : Tree C) : List Text := Coll.distinctLoop id [] (t.filterMap (fun f => topDir f.1))

/-- `ProjectDirectories.create(..).src_packages` (pj 381-390). -/
def srcPackages (packages : List Rel) (t : Tree C) : List Rel :=
  if packages.isEmpty then
    if isDir t [src] then (topDirs (under t [src])).map (fun d => [src, d])
    else (topDirs t).map (fun d => [d])
  else packages

/-- `shutil.copytree(.., ignore=ignore_patterns('__pycache__'))` (pb 163) into the directory `name`. -/
def copied (t : Tree C) (p : Rel) (name : Text) : Tree C :=
  ((under t p).filter (fun f => !(f.1.contains pycache))).map (fun f => (name :: f.1, f.2))

/-- `package_dir.name`. -/
def lastName (p : Rel) : Text := p.getLast?.getD []

/-- The loop of `copy_sources` (pb 160-166); `taken`: what is already in the destination. -/
def copySources (t : Tree C) : List Rel → List Text → Except BErr (Tree C)
  | [], _ => .ok []
  | p :: ps, taken =>
    if !ex t p then .error .notFound
    else if !isDir t p then .error .notADirectory
    else if taken.contains (lastName p) then .error .exists_
    else match copySources t ps (lastName p :: taken) with
      | .error e => .error e
      | .ok r => .ok (copied t p (lastName p) ++ r)

/-- The links of an editable wheel (pb 153-158): `distinct(p.absolute().parent for p in dirs.src_packages)`, relative to
the project. -/
def editableLinks (packages : List Rel) (t : Tree C) : List Rel :=
  Coll.distinctLoop id [] ((srcPackages packages t).map List.dropLast)

/-- What `build_dist_info` writes (pb 129-147): names and contents. -/
abbrev Info (C : Type) := List (Text × C)

/-- The records of files (distinfo.py 281-324). -/
def signAll (hash : C → S) (files : Tree C) : List (Rec S) := files.map (fun f => ⟨joinSlash f.1, some (hash f.2)⟩)

/-- A built wheel: the files without RECORD, and RECORD. -/
structure Wheel (C S : Type) where
  files : Tree C
  records : List (Rec S)

/-- `build_wheel` (pb 77-92) for `only_meta=False`; `pth`: the name and the contents of the path file of an editable
wheel. -/
def buildWheel (hash : C → S) (distInfo : Text) (info : Info C) (packages : List Rel) (t : Tree C)
    (editable : Option (Text × (List Rel → C))) : Except BErr (Wheel C S) :=
  let info_ := info.map (fun x => ([distInfo, x.1], x.2))
  match editable with
  | some (pth, enc) =>
    let files := info_ ++ [([pth], enc (editableLinks packages t))]
    .ok ⟨files, signAll hash files⟩
  | none =>
    match copySources t (srcPackages packages t) [distInfo] with
    | .error e => .error e
    | .ok sources => .ok ⟨info_ ++ sources, signAll hash (info_ ++ sources)⟩

/-- `build_sdist` (pb 33-53): the files below the only directory of the archive. -/
def buildSdist (pkgInfo pyproject : C) (packages : List Rel) (t : Tree C) : Except BErr (Tree C) :=
  let info_ : Tree C := [([t!"PKG-INFO"], pkgInfo), ([t!"pyproject.toml"], pyproject)]
  if packages.isEmpty then
    match copySources t (srcPackages packages t) [] with
    | .error e => .error e
    | .ok sources => .ok (info_ ++ sources.map (fun f => (src :: f.1, f.2)))
  else
    match copySources t (srcPackages packages t) [t!"PKG-INFO", t!"pyproject.toml"] with
    | .error e => .error e
    | .ok sources => .ok (info_ ++ sources)

/-! ### names -/

/-- `_project_and_version_file_prefix` (pb 117-118) with the name of `_build_context` (pb 101). -/
def filePrefix (name : Text) (version : Text) : Text := replaceChar '-' '_' name ++ '-' :: version

/-- `sdist_file_name` (pb 123-124). -/
def sdistName (name version : Text) : Text := filePrefix name version ++ t!".tar.gz"

/-- `dist_info_dir_name` (pb 126-127). -/
def distInfoName (name version : Text) : Text := filePrefix name version ++ t!".dist-info"

/-- The release of the oldest interpreter (wd 77-79): `req.min` of a range, and otherwise the major version of the
interpreter that runs pkm. -/
def minInterpreter (current : Nat) (requires : VSpec) : Except BErr (List Nat) :=
  match requires with
  | .range (some v) _ _ _ => .ok v.release
  | .range none _ _ _ => .error .attribute
  | _ => .ok [current]

/-- `'py' + ''.join(str(it) for it in min_interpreter.release[:2])` (wd 81). -/
def pyTag (release : List Nat) : Text := t!"py" ++ (release.take 2).flatMap showNat

/-- `expected_wheel_file_name` (wd 72-82) without the extension. `name` is the name of the descriptor. -/
def wheelStem (current : Nat) (requires : VSpec) (name version : Text) : Except BErr Text :=
  match minInterpreter current requires with
  | .error e => .error e
  | .ok release => match srcPackageName name with
    | none => .error .name
    | some n => .ok (n ++ '-' :: (version ++ '-' :: (pyTag release ++ t!"-none-any")))

end Pkm.Dists
