import Verif.Files.Wheel
import Verif.Tags.Model
/-
Model of the installation of conda artifacts:
/repo/repositories/conda-pkm-repo/src/conda_pkm_repo/conda_distribution.py (`cd` below) 58-158.

Simplifications:
* The extracted archive is a tree of files with relative paths; what its three files of information say (`paths.json`,
  `files`, `index.json`) is given beside it. Paths have no components `.` or `..`.
* The hash function is a parameter. The texts of the generated WHEEL, METADATA and RECORD are parameters.
* `relocated_files` (cd 110-118) has the files below the moved directory; it is a function here (`relocate`). Signed
  files exist, so that it makes no difference for them.
* The hooks (cd 91-103): the environment of the process has the build number, which is an integer, as a value, so
  that `Popen` raises `TypeError`; a hook is therefore only looked for and then raises. Not on Windows.
* The directory of the package's information and those above it are taken to be no files (cd 144-147). The `pop` of
  the hash of RECORD (cd 152) has no effect, as RECORD does not exist when the files are signed.
* Sizes of files and the temporary directory are not modelled.
-/
namespace Pkm.Conda
open Tags Files

variable {C S : Type}

/-- What the archive has. -/
structure Archive (C S : Type) where
  tree : FS C
  /-- `paths` of info/paths.json, if it exists (cd 71-75) -/
  paths : Option (List (Path × S))
  /-- can info/index.json be read (cd 89) -/
  index : Bool
  /-- the non-empty lines of info/files, if it exists (cd 121-122) -/
  files : Option (List Path)

/-- Where it is installed (cd 106-108), and how generated files look. -/
structure Place (C S : Type) where
  data : Path
  purelib : Path
  /-- `DistInfo.expected_dir_name` -/
  distInfo : Text
  wheel : C
  metadata : C
  record : List (Rec S) → C

inductive IErr where
  /-- `InstallationException`: no info directory -/
  | noInfo
  /-- `InstallationException`: no paths.json -/
  | unsigned
  /-- `InstallationException`: signed but not found -/
  | missing (p : Path)
  /-- `InstallationException`: incorrect signature -/
  | badHash (p : Path)
  /-- `FileNotFoundError`, `IsADirectoryError` and the like -/
  | io
  /-- `TypeError` of starting a hook -/
  | hook
  /-- `ValueError` of `relative_to` -/
  | value
  deriving DecidableEq, Repr

/-- The loop over paths.json (cd 76-87): the signatures by path. -/
def verify [DecidableEq S] (hash : C → S) (tree : FS C) : List (Path × S) → Dict Path S → Except IErr (Dict Path S)
  | [], sigs => .ok sigs
  | (p, s) :: rest, sigs =>
    match Dict.get tree p with
    | none => .error (.missing p)
    | some .dir => .error .io
    | some (.file c) => if hash c = s then verify hash tree rest (Dict.put sigs p s) else .error (.badHash p)

/-- `exec_installation_script` (cd 91-103): does it raise. -/
def hookRaises (a : Archive C S) (name : Text) : Bool := a.tree.ex [name ++ t!".sh", t!"bin", t!"info"]

/-- Does `\d+` match a beginning of the text, and what can be left of it: here it is enough to know what follows all the
digits, as `.` is not one. -/
def afterDigits (t : Text) : Option Text :=
  match t with
  | c :: r => if isDigit c then some (r.dropWhile isDigit) else none
  | [] => none

/-- `_PURELIB_UNIX_RX.match(name)` (cd 26, 113). -/
def isPythonDir (name : Text) : Bool :=
  if t!"python".isPrefixOf name then
    match afterDigits (name.drop 6) with
    | some ('.' :: r) => (afterDigits r).isSome
    | _ => false
  else false

/-- The names in `lib`, in the order of `iterdir` (cd 113). -/
def libNames (tree : FS C) : List Text :=
  tree.filterMap (fun e => match e.1 with
    | [n, l] => if l = t!"lib" then some n else none
    | _ => none)

/-- The directory of the modules in the archive (cd 112-113). -/
def packagePython (tree : FS C) : Option Text := (libNames tree).find? isPythonDir

/-- The name `python_lib_path.name` (cd 108, 116). -/
def pythonDir (pl : Place C S) : Option Text := (parent pl.purelib).head?

/-- `relocated_files.get(path, path)` (cd 117-118, 132). -/
def relocate (old new : Text) (p : Path) : Path :=
  if [old, t!"lib"].isSuffixOf p ∧ p ≠ [old, t!"lib"] then p.take (p.length - 2) ++ [new, t!"lib"] else p

/-- Everything at and below `a`, at and below `b` instead. -/
def rename (tree : FS C) (a b : Path) : FS C :=
  tree.map (fun e => if a.isSuffixOf e.1 then (e.1.take (e.1.length - a.length) ++ b, e.2) else e)

/-- `shutil.move` of `lib/old` to `lib/new` (cd 119): into it if it is another directory. -/
def moveLib (tree : FS C) (old new : Text) : Option (FS C) :=
  if old = new then some tree
  else if tree.isDir [new, t!"lib"] then
    if tree.ex [old, new, t!"lib"] then none else some (rename tree [old, t!"lib"] [old, new, t!"lib"])
  else if tree.ex [new, t!"lib"] then none
  else some (rename tree [old, t!"lib"] [new, t!"lib"])

/-- The relocation (cd 110-119): the tree afterwards and where its files went. The name of `lib` itself is compared
(cd 115). -/
def relocation (a : Archive C S) (pl : Place C S) : Option (FS C × (Path → Path)) :=
  if a.tree.ex [t!"lib"] then
    match packagePython a.tree, pythonDir pl with
    | some old, some new =>
      if new = t!"lib" then some (a.tree, id)
      else match moveLib a.tree old new with
        | some tree => some (tree, relocate old new)
        | none => none
    | _, _ => some (a.tree, id)
  else some (a.tree, id)

/-- The missing directories of a path. -/
def addDirs (fs : FS C) : Path → FS C
  | [] => fs
  | x :: p =>
    let fs := addDirs fs p
    if fs.ex (x :: p) then fs else Dict.put fs (x :: p) .dir

/-- Is the path or one above it a file. -/
def throughFile (fs : FS C) : Path → Bool
  | [] => false
  | x :: p => (fs.ex (x :: p) && !fs.isDir (x :: p)) || throughFile fs p

/-- `path.mkdir(exist_ok=True, parents=True)`, not told to the transaction; `none`: an exception. -/
def plainMkdir (fs : FS C) (p : Path) : Option (FS C) :=
  if throughFile fs p then none else some (addDirs fs p)

/-- The source of a copy. -/
def sourceOf (tree : FS C) (p : Path) : Txn.Src C :=
  match Dict.get tree p with
  | some (.file c) => .file c
  | some .dir => .dir
  | none => .missing

/-- What the loop works on: the transaction, `created_parents` and `precomputed_record_hashes`. -/
structure LoopState (C S : Type) where
  t : Txn C
  parents : List Path
  hashes : Dict Text S

/-- One round of the loop over the files (cd 127-142). -/
def linkFile (sigs : Dict Path S) (tree : FS C) (move : Path → Path) (data libPath : Path) (st : LoopState C S) (file : Path) :
    Out (LoopState C S) :=
  match Dict.get sigs file with
  | none => .raised st
  | some s =>
    let p := move file
    let st := { st with hashes := match pathIn libPath p with
      | some t => Dict.put st.hashes t s
      | none => st.hashes }
    let target := p ++ data
    match (if st.parents.contains (parent target) then some st.t.fs else plainMkdir st.t.fs (parent target)) with
    | none => .raised st
    | some fs =>
      let st := { st with t := { st.t with fs := fs }, parents := parent target :: st.parents }
      match st.t.copy (sourceOf tree p) target with
      | .ok t => .ok { st with t := t }
      | .raised t => .raised { st with t := t }

/-- The loop over the files. -/
def linkFiles (sigs : Dict Path S) (tree : FS C) (move : Path → Path) (data libPath : Path) : LoopState C S → List Path →
    Out (LoopState C S)
  | st, [] => .ok st
  | st, f :: fs => match linkFile sigs tree move data libPath st f with
    | .ok st => linkFiles sigs tree move data libPath st fs
    | .raised st => .raised st

/-- `purelib_path.relative_to(data_path)` (cd 126). -/
def libIn (pl : Place C S) : Option Path :=
  if pl.data.isSuffixOf pl.purelib then some (pl.purelib.take (pl.purelib.length - pl.data.length)) else none

/-- The rest of the transaction (cd 144-156): the generated files, RECORD and the hook; the file system then, and whether
it raised. -/
def distInfoPart (hash : C → S) (a : Archive C S) (pl : Place C S) (st : LoopState C S) : FS C × Option IErr :=
  let di := pl.distInfo :: pl.purelib
  let fs := if st.t.fs.ex di then st.t.fs
    else Dict.put (Dict.put (addDirs st.t.fs di) (t!"WHEEL" :: di) (.file pl.wheel)) (t!"METADATA" :: di) (.file pl.metadata)
  let fs := Dict.del fs (t!"RECORD" :: di)
  let recs := signFiles st.hashes hash fs pl.purelib st.t.copied
  let fs := Dict.put fs (t!"RECORD" :: di) (.file (pl.record recs))
  (fs, if hookRaises a t!"post-link" then some .hook else none)

/-- `install_to` (cd 58-158): the file system afterwards, and the exception. `order` is the iteration order of a set (see
`Txn.rollback`); a second exception, of the rollback, is not told apart. -/
def install [DecidableEq S] (hash : C → S) (order : List Path → List Path) (a : Archive C S) (pl : Place C S) (fs : FS C) :
    FS C × Option IErr :=
  if !a.tree.isDir [t!"info"] then (fs, some .noInfo)
  else match a.paths with
  | none => (fs, some .unsigned)
  | some ps => match verify hash a.tree ps [] with
    | .error e => (fs, some e)
    | .ok sigs =>
      if !a.index then (fs, some .io)
      else if hookRaises a t!"pre-link" then (fs, some .hook)
      else match relocation a pl with
      | none => (fs, some .io)
      | some (tree, move) => match a.files with
        | none => (fs, some .io)
        | some files => match libIn pl with
          | none => (fs, some .value)
          | some lib => match linkFiles sigs tree move pl.data lib ⟨⟨fs, [], []⟩, [], []⟩ files with
            | .raised st => ((st.t.rollback order).1, some .io)
            | .ok st => match distInfoPart hash a pl st with
              | (fs, none) => (fs, none)
              | (fs, some e) => (({ st.t with fs := fs }.rollback order).1, some e)

end Pkm.Conda
