import Verif.Files.Props
import Verif.Files.Wheel
import Verif.Files.Copy
import Verif.Conda.Install
import Verif.Tags.Model
/-
Packages that the environments of a zoo share: moving an installed package to the shared directory and
linking it from an environment
(pkm/src/pkm/repositories/shared_pacakges_repo.py 82-257, "sp").

`fs` is the state that the installation of the package by the base repository leaves. What files say is
read by given functions. `iterdir` and `glob` list in the order of the file system. `parent` directories
that a failing `mkdir` would leave are not modelled, nor are modes of files.
-/
namespace Pkm
namespace SharedPkg
open Files Files.FS Tags

variable {C S : Type}

inductive Fault where
  /-- `NoSuchElementException` (sp 178) -/
  | notInstalled
  /-- `AttributeError` -/
  | attribute
  /-- `FileExistsError` -/
  | fileExists
  /-- `ValueError` of `relative_to` -/
  | notBelow
  | io
  deriving DecidableEq, Repr

/-- What is known about the package and the target, and how files are read and written. -/
structure World (C S : Type) where
  purelib : Path
  platlib : Path
  scripts : Path
  /-- `package.expected_src_package_name` -/
  srcName : Text
  /-- `str(package.version)` -/
  version : Text
  /-- `shared_path`: the directory of the version in the workspace -/
  sharedPath : Path
  /-- the `compatibility_tag` that an INSTALLATION_MODE file gives -/
  tagOf : C → Text
  /-- the lines of a RECORD file -/
  recordsOf : C → List (Rec S)
  recordText : List (Rec S) → C
  /-- the script entry points of an entry_points.txt file: names, and what is written as executable -/
  entriesOf : C → List (Text × C)
  /-- a `.pth` file with one link -/
  pthText : Path → C
  /-- `patch_shabang_for_interpreter` -/
  patched : C → C
  /-- what the SHARED file says -/
  marker : Path → C
  hash : C → S
  /-- an empty file -/
  empty : C
  /-- the iteration order of the set of copied files in a rollback -/
  order : List Path → List Path
  /-- the element that `set.pop` takes in `uninstall` -/
  pick : List Path → Nat

/-- The names in a directory, in the order of `iterdir`. -/
def children (fs : FS C) (d : Path) : List Text :=
  fs.filterMap (fun e => match e.1 with
    | [] => none
    | x :: p => if p = d then some x else none)

/-- `path.stem` of a path with the given name. -/
def stemOf (name : Text) : Text :=
  let i := (name.reverse.takeWhile (fun c => decide (c ≠ '.'))).length
  if i < name.length ∧ i ≠ 0 ∧ i + 1 < name.length then name.take (name.length - (i + 1)) else name

/-- `path.stem`. -/
def stemPath : Path → Text
  | [] => []
  | n :: _ => stemOf n

/-- `path.relative_to(root)`; `none`: `ValueError`. -/
def relTo (p root : Path) : Option Path :=
  if root.isSuffixOf p then some (p.take (p.length - root.length)) else none

/-- The content of a file, `none` if there is none. -/
def readFile (fs : FS C) (p : Path) : Option C :=
  match Dict.get fs p with
  | some (.file c) => some c
  | _ => none

/-- The body of the loop of `_copy_records` (sp 157-161), `node` being what is at the record. A file that
would be copied onto a directory is an exception here (`shutil.copy` copies into it); below the new
directory there is none at the path of a file. -/
def copyOne (fs : FS C) (target : Path) (node : Option (Node C)) : Option (FS C) :=
  match node with
  | some .dir => Conda.plainMkdir fs target
  | some (.file c) =>
    match Conda.plainMkdir fs (parent target) with
    | some fs => if fs.isDir target then none else some (Dict.put fs target (.file c))
    | none => none
  | none => some fs

/-- The loop of `_copy_records` (sp 153-164): the file system, and the records left or the exception. -/
def copyLoop (root shared : Path) : List Path → FS C → FS C × Except Fault (List Path)
  | [], fs => (fs, .ok [])
  | r :: rs, fs =>
    if isRelativeTo r root then
      match relTo r root with
      | none => (fs, .error .notBelow)
      | some rel =>
        match copyOne fs (rel ++ shared) (Dict.get fs r) with
        | none => (fs, .error .io)
        | some fs => copyLoop root shared rs fs
    else
      match copyLoop root shared rs fs with
      | (fs, .ok left) => (fs, .ok (r :: left))
      | (fs, .error e) => (fs, .error e)

/-- `_copy_records` (sp 151-164). -/
def copyRecords (root shared : Path) (records : List Path) (fs : FS C) : FS C × Except Fault (List Path) :=
  if fs.ex shared then (fs, .error .fileExists)
  else
    match Conda.plainMkdir fs shared with
    | none => (fs, .error .io)
    | some fs => copyLoop root shared records fs

/-- `shutil.copytree(src, dst)` (sp 210). -/
def copyDir (fs : FS C) (src dst : Path) : FS C × Except Fault Unit :=
  if fs.isDir src then
    if fs.ex dst then (fs, .error .fileExists)
    else
      match Conda.plainMkdir fs dst with
      | none => (fs, .error .io)
      | some fs1 => (fs1.graft dst (fs.subtree src), .ok ())
  else (fs, .error .io)

/-- The first of the children with a name that ends in `.dist-info` and whose lower case starts with the
name of the package (sp 172-173). -/
def findIn (fs : FS C) (psname : Text) (site : Path) : Option Text :=
  (children fs site).find? (fun n => (t!".dist-info").isSuffixOf n && psname.isPrefixOf (lower n))

/-- The search for the dist-info directory (sp 169-178): the name of the site, the site and the name of
the directory. -/
def findDistInfo (w : World C S) (fs : FS C) : Option (Text × Path × Text) :=
  let psname := lower (w.srcName ++ ['-'])
  match findIn fs psname w.purelib with
  | some n => some (t!"purelib", w.purelib, n)
  | none =>
    match findIn fs psname w.platlib with
    | some n => some (t!"platlib", w.platlib, n)
    | none => none

/-- The lines of RECORD in a dist-info directory; a missing file has none (`ConfigIO.load`). -/
def recordsAt (w : World C S) (fs : FS C) (distInfo : Path) : List (Rec S) :=
  match readFile fs ("RECORD".toList :: distInfo) with
  | some c => w.recordsOf c
  | none => []

/-- The script entry points in a dist-info directory. -/
def entriesAt (w : World C S) (fs : FS C) (distInfo : Path) : List (Text × C) :=
  match readFile fs (t!"entry_points.txt" :: distInfo) with
  | some c => w.entriesOf c
  | none => []

/-- `_move_to_shared` after the compatibility tag is known (sp 185-219). -/
def moveTo (w : World C S) (siteName : Text) (site : Path) (distInfo target : Path) (fs : FS C) :
    FS C × Except Fault (Option Path) :=
  let lines := (recordsAt w fs distInfo).map (·.file)
  let records := (installedFiles distInfo lines).filter (fun r => !isRelativeTo r distInfo)
  match copyRecords site (siteName :: target) records fs with
  | (fs, .error e) => (fs, .error e)
  | (fs, .ok left) =>
    let names := (entriesAt w fs distInfo).map (·.1)
    let records := left.filter (fun r => !isRelativeTo r w.scripts || !names.contains (stemPath r))
    match copyRecords w.scripts (t!"bin" :: target) records fs with
    | (fs, .error e) => (fs, .error e)
    | (fs, .ok _) =>
      match copyDir fs distInfo (t!"dist-info" :: target) with
      | (fs, .error e) => (fs, .error e)
      | (fs, .ok _) =>
        match uninstall w.pick distInfo lines fs with
        | none => (fs, .error .io)
        | some fs => (fs, .ok (some target))

/-- `_move_to_shared` (sp 167-219): the directory of the artifact, or none if the package cannot be
shared. Without INSTALLATION_MODE file, `load_installation_info` gives None, which has no
`compatibility_tag`. -/
def moveToShared (w : World C S) (fs : FS C) : FS C × Except Fault (Option Path) :=
  match findDistInfo w fs with
  | none => (fs, .error .notInstalled)
  | some (siteName, site, n) =>
    match readFile fs (t!"INSTALLATION_MODE" :: n :: site) with
    | none => (fs, .error .attribute)
    | some c =>
      if w.tagOf c = [] then (fs, .ok none)
      else moveTo w siteName site (n :: site) (w.tagOf c :: w.sharedPath) fs

/-- `copy_tree(shared_distinfo.path, distinfo_path, lambda it: it.name != "RECORD")` (sp 250; fl 132-159)
as the steps that it performs; here in the order of the file system. -/
def copyInfo (fs : FS C) (src dst : Path) : List (Call C) :=
  .mkdir dst :: fs.filterMap (fun e =>
    match relTo e.1 src with
    | some rel =>
      if rel = [] ∨ "RECORD".toList ∈ rel then none
      else
        match e.2 with
        | .dir => some (.mkdir (rel ++ dst))
        | .file c => some (.copy (.file c) (rel ++ dst))
    | none => none)

/-- A file that is written, and then marked in the transaction. -/
def written (p : Path) (c : C) : List (Call C) := [.write p c, .touch p false]

/-- A script of the shared directory, patched for the environment (sp 243-246). Opening a directory is an
exception. -/
def linkScript (w : World C S) (fs : FS C) (shared : Path) (n : Text) : List (Call C) :=
  match Dict.get fs (n :: t!"bin" :: shared) with
  | some (.file c) => written (n :: w.scripts) (w.patched c)
  | _ => [.fail]

/-- `package_prefix` (sp 225). -/
def packagePrefix (w : World C S) : Text := w.srcName ++ '-' :: w.version

/-- `site_name` (sp 227). -/
def siteNameOf (fs : FS C) (shared : Path) : Text :=
  if fs.ex (t!"purelib" :: shared) then t!"purelib" else t!"platlib"

/-- `site_path` (sp 228). -/
def sitePath (w : World C S) (fs : FS C) (shared : Path) : Path :=
  if fs.ex (t!"purelib" :: shared) then w.purelib else w.platlib

/-- `distinfo_path` (sp 249). -/
def linkInfo (w : World C S) (fs : FS C) (shared : Path) : Path :=
  (packagePrefix w ++ t!".dist-info") :: sitePath w fs shared

/-- The `.pth` file (sp 231). -/
def linkPth (w : World C S) (fs : FS C) (shared : Path) : Path :=
  (packagePrefix w ++ t!".pth") :: sitePath w fs shared

/-- `_link_shared` up to the SHARED file (sp 230-253). The directory of scripts exists already. -/
def linkCalls (w : World C S) (fs : FS C) (shared : Path) : List (Call C) :=
  written (linkPth w fs shared) (w.pthText (siteNameOf fs shared :: shared)) ++
  (entriesAt w fs (t!"dist-info" :: shared)).flatMap (fun e => written (e.1 :: w.scripts) e.2) ++
  (children fs (t!"bin" :: shared)).flatMap (linkScript w fs shared) ++
  copyInfo fs (t!"dist-info" :: shared) (linkInfo w fs shared) ++
  written (t!"SHARED" :: linkInfo w fs shared) (w.marker shared)

/-- `_link_shared` (sp 222-257): the file system, and whether it ended without exception. -/
def linkShared (w : World C S) (shared : Path) (fs : FS C) : FS C × Bool :=
  match Txn.run w.empty (linkCalls w fs shared) ⟨fs, [], []⟩ with
  | .raised t => ((t.rollback w.order).1, false)
  | .ok t =>
    let record := "RECORD".toList :: linkInfo w fs shared
    if t.fs.isDir record then ((t.rollback w.order).1, false)
    else
      let old := recordsAt w t.fs (linkInfo w fs shared)
      let new := signFiles [] w.hash t.fs (sitePath w fs shared) t.copied
      (Dict.put t.fs record (.file (w.recordText (old ++ new))), true)

/-- `_shared_artifact_for` (sp 116-124). The loop reads `compatibility_tag`, a field that artifacts do not
have (sp 83-86): `AttributeError` at the first artifact. -/
def sharedArtifactFor (artifacts : List Text) : Except Fault (Option Text) :=
  match artifacts with
  | [] => .ok none
  | _ :: _ => .error .attribute

/-- `_SharedPackage.dependencies` (sp 126-135); `base` are those of the package itself. -/
def dependencies {D : Type} (applicable : D → Bool) (ofMetadata : Text → List D) (base : List D) (artifacts : List Text) :
    Except Fault (List D) :=
  match sharedArtifactFor artifacts with
  | .error e => .error e
  | .ok (some a) => .ok ((ofMetadata a).filter applicable)
  | .ok none => .ok (base.filter applicable)

/-- The artifacts that a version directory holds (sp 98-104). -/
def artifactsOf (w : World C S) (fs : FS C) : List Text :=
  if fs.ex w.sharedPath then children fs w.sharedPath else []

/-- `_SharedPackage.install_to` (sp 140-148); `base` is the installation by the base repository. The
artifacts are those found when the package was looked up. -/
def installTo (w : World C S) (artifacts : List Text) (base : FS C → FS C × Bool) (fs : FS C) :
    FS C × Except Fault Unit :=
  match sharedArtifactFor artifacts with
  | .error e => (fs, .error e)
  | .ok (some a) =>
    match linkShared w (a :: w.sharedPath) fs with
    | (fs, true) => (fs, .ok ())
    | (fs, false) => (fs, .error .io)
  | .ok none =>
    match base fs with
    | (fs, false) => (fs, .error .io)
    | (fs, true) =>
      match moveToShared w fs with
      | (fs, .error e) => (fs, .error e)
      | (fs, .ok none) => (fs, .ok ())
      | (fs, .ok (some shared)) =>
        match linkShared w shared fs with
        | (fs, true) => (fs, .ok ())
        | (fs, false) => (fs, .error .io)

end SharedPkg
end Pkm
