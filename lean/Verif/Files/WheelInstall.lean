import Verif.Conda.InstallLemmas
/-
Model of the installation of wheels: /repo/pkm/src/pkm/api/distributions/wheel_distribution.py ("wd") 84-220, with
`DistInfo` and the files of information in /repo/pkm/src/pkm/api/distributions/distinfo.py ("di").

Simplifications:
* The extracted wheel is a tree (`Sources`), with the entries of directories in the order of `iterdir`. No links.
* What the files WHEEL, entry_points.txt and RECORD say is given by the functions of `Formats`; a file that is missing is
  read as an empty configuration (pkm/src/pkm/config/configclass.py 242-244).
* Hash functions, the patching of scripts (see Verif/Environments/Launchers.lean) and the compiler are parameters. Modes of
  files and sizes are not modelled. Not on Windows.
* Names of entry points are names of files: not empty, not `.` or `..`, without a slash. Launchers are then written
  directly into the directory of scripts.
* Kinds of data do not begin with two underscores: Python gives any object some attributes of that form.
* `skip_record_verification` is never given in the repository; it is not modelled.
-/
namespace Pkm
namespace WheelInstall
open Tags Files

variable {C S : Type}

/-- The directories of a `PackageInstallationTarget` (pkm/src/pkm/api/packages/package_installation.py 36-45). -/
structure Target where
  stdlib : Path
  platstdlib : Path
  platinclude : Path
  purelib : Path
  platlib : Path
  incl : Path
  data : Path
  scripts : Path

/-- `getattr(target, k.name)` as a path (wd 112); `none`: an `AttributeError`, or a `TypeError` as the attribute is no
text. The alternative `Path(target.data, k.name)` is for empty texts only. -/
def schemeOf (tg : Target) (kind : Text) : Option Path :=
  if kind = t!"stdlib" then some tg.stdlib
  else if kind = t!"platstdlib" then some tg.platstdlib
  else if kind = t!"platinclude" then some tg.platinclude
  else if kind = t!"purelib" then some tg.purelib
  else if kind = t!"platlib" then some tg.platlib
  else if kind = t!"include" then some tg.incl
  else if kind = t!"data" then some tg.data
  else if kind = t!"scripts" then some tg.scripts
  else none

/-- An entry point (pkm/src/pkm/utils/entrypoints.py 64-88): its name, whether it is a script, and the content of its
launcher; `none`: it names no object (43-47). -/
structure Entry (C : Type) where
  name : Text
  isScript : Bool
  script : Option C

/-- What WHEEL says (di 233-239): the version, `none` if it is no standard version, and `root_is_purelib`. -/
structure WheelCfg where
  release : Option (List Nat)
  purelib : Bool

/-- How files of information are read and written; `none`: reading raises. -/
structure Formats (C S : Type) where
  wheel : C → Option WheelCfg
  entries : C → Option (List (Entry C))
  readRecord : C → Option (List (Rec S))
  writeRecord : List (Rec S) → C
  installer : C

/-- What surrounds an installation. -/
structure Tools (C S : Type) where
  hash : C → S
  valid : S → C → Option Bool
  patch : C → C
  /-- the compiled form of a module; `none`: it does not compile -/
  comp : Path → C → Option C
  /-- `sys.implementation.cache_tag` -/
  tag : Text
  /-- the order in which the set of copied files is iterated -/
  order : List Path → List Path
  empty : C

inductive WErr where
  /-- `InstallationException`: no dist-info, or several -/
  | noDistInfo
  | manyDistInfo
  /-- `ValueError` of `DistInfo.load` -/
  | badDistInfo
  /-- a file of information cannot be read -/
  | read
  /-- `UnsupportedOperationException`: the version of the wheel -/
  | version
  /-- `IndexError`: the version of the wheel has one number -/
  | index
  | verify (e : VerifyError)
  /-- any exception in the transaction -/
  | inside
  deriving DecidableEq

/-- The entry of a directory. -/
def lookup (name : Text) : Sources C → Option (Source C)
  | .nil => none
  | .cons n s rest => if n = name then some s else lookup name rest

def distInfoExt : Text := ".dist-info".toList

/-- `unpacked_wheel.glob("*.dist-info")` (wd 183). -/
def distInfos : Sources C → List (Text × Source C)
  | .nil => []
  | .cons n s rest => if endsWith distInfoExt n then (n, s) :: distInfos rest else distInfos rest

/-- `_find_dist_info` (wd 182-189) and `DistInfo.load` (di 170-176). -/
def findDistInfo (tree : Sources C) : Except WErr (Text × Sources C) :=
  match distInfos tree with
  | [] => .error .noDistInfo
  | [(n, .dir es)] => if n = distInfoExt then .error .badDistInfo else .ok (n, es)
  | [(_, .file _)] => .error .badDistInfo
  | _ => .error .manyDistInfo

/-- `ConfigFile.load` of a file of a directory; `dflt` is what a missing file is read as. -/
def loadCfg {A : Type} (read : C → Option A) (dflt : A) (name : Text) (es : Sources C) : Except WErr A :=
  match lookup name es with
  | none => .ok dflt
  | some (.dir _) => .error .read
  | some (.file c) => match read c with
    | some a => .ok a
    | none => .error .read

/-- `validate_supported_version` (di 241-248). -/
def validateVersion (w : WheelCfg) : Except WErr Unit :=
  match w.release with
  | none => .error .version
  | some (a :: rest) =>
    if a ≠ 1 then .error .version
    else if rest = [] then .error .index else .ok ()
  | some [] => .error .index

/-- `_remove_empty_directories` (wd 192-195): the directories that are empty at first. -/
def prune : Sources C → Sources C
  | .nil => .nil
  | .cons n (.file c) rest => .cons n (.file c) (prune rest)
  | .cons _ (.dir .nil) rest => prune rest
  | .cons n (.dir (.cons m s r)) rest => .cons n (.dir (prune (.cons m s r))) (prune rest)

/-- `content.rglob("*")` without directories (wd 205-207). -/
def filesOf (dir : Path) : Sources C → List (Path × C)
  | .nil => []
  | .cons n (.file c) rest => (n :: dir, c) :: filesOf dir rest
  | .cons n (.dir es) rest => filesOf (n :: dir) es ++ filesOf dir rest

/-- What the installation knows before it begins to copy. -/
structure Checked (C S : Type) where
  distInfo : Text
  purelib : Bool
  entries : List (Entry C)
  tree : Sources C
  records : List (Rec S)

/-- The beginning of `install_extracted_wheel` (wd 90-103). `content` is the directory of the extracted wheel. -/
def check (fm : Formats C S) (tl : Tools C S) (content : Path) (tree : Sources C) : Except WErr (Checked C S) :=
  match findDistInfo tree with
  | .error e => .error e
  | .ok (di, es) =>
    match loadCfg fm.wheel ⟨some [1, 0], true⟩ t!"WHEEL" es with
    | .error e => .error e
    | .ok w => match validateVersion w with
      | .error e => .error e
      | .ok _ => match loadCfg fm.entries [] t!"entry_points.txt" es with
        | .error e => .error e
        | .ok eps => match loadCfg fm.readRecord [] "RECORD".toList (prune es) with
          | .error e => .error e
          | .ok recs =>
            match verifyRecords tl.valid content (di :: content) (lookup "RECORD".toList (prune es)).isSome recs
                (filesOf content (prune tree)) with
            | .error e => .error (.verify e)
            | .ok _ => .ok ⟨di, w.purelib, eps, prune tree, recs⟩

/-- `dist_info.path.with_suffix(".data")` (wd 105): the name. -/
def dataName (di : Text) : Text := di.take (di.length - distInfoExt.length) ++ t!".data"

/-- The loop over the kinds of data (wd 111-119). -/
def dataCalls (tg : Target) (patch : C → C) (dir : Path) : Sources C → List (Call C)
  | .nil => []
  | .cons k s rest =>
    match schemeOf tg k with
    | none => [.fail]
    | some p => match s with
      | .file _ => [.mkdir p, .fail]
      | .dir es => copyTree (fun _ => true) (if k = t!"scripts" then some patch else none) (k :: dir) p es
          ++ dataCalls tg patch dir rest

/-- The loop over the content (wd 108-123). -/
def contentCalls (tg : Target) (patch : C → C) (content site : Path) (di : Text) : Sources C → List (Call C)
  | .nil => []
  | .cons n (.file c) rest => .copy (.file c) (n :: site) :: contentCalls tg patch content site di rest
  | .cons n (.dir es) rest =>
    (if n = dataName di then dataCalls tg patch (n :: content) es
     else copyTree (fun p => p ≠ "RECORD".toList :: di :: content) none (n :: content) (n :: site) es)
      ++ contentCalls tg patch content site di rest

/-- The loop over the entry points (wd 126-129), with `Executables.generate` (pkm/src/pkm/launchers/executables.py 50-61):
neither the directory nor the file is written by the transaction. -/
def launchers (scripts : Path) : List (Entry C) → Txn C → Out (Txn C)
  | [], t => .ok t
  | e :: es, t =>
    if e.isScript then
      match e.script with
      | none => .raised t
      | some c => match Conda.plainMkdir t.fs scripts with
        | none => .raised t
        | some fs => match Txn.write { t with fs := fs } (e.name :: scripts) c with
          | .raised t => .raised t
          | .ok t => launchers scripts es { t with copied := addPath (e.name :: scripts) t.copied }
    else launchers scripts es t

/-- `cc.suffix == '.py'` (wd 136). -/
def isPy : Path → Bool
  | [] => false
  | n :: _ => endsWith t!".py" n && decide (3 < n.length)

/-- `importlib.util.cache_from_source` (wd 138). -/
def pycOf (tag : Text) : Path → Path
  | [] => []
  | n :: p => (n.take (n.length - 3) ++ '.' :: tag ++ t!".pyc") :: pycache :: p

/-- `compileall.compile_file(cc, force=True, quiet=2)` (wd 137): it raises nothing. -/
def compileOne (tl : Tools C S) (fs : FS C) (p : Path) : FS C :=
  match Dict.get fs p with
  | some (.file c) => match tl.comp p c with
    | none => fs
    | some b => match Dict.get fs (pycache :: parent p) with
      | some (.file _) => fs
      | some .dir => if fs.isDir (pycOf tl.tag p) then fs else Dict.put fs (pycOf tl.tag p) (.file b)
      | none => Dict.put (Dict.put fs (pycache :: parent p) .dir) (pycOf tl.tag p) (.file b)
  | _ => fs

/-- The compilation (wd 132-142). -/
def compileAll (tl : Tools C S) (t : Txn C) : Txn C :=
  let ps := (tl.order t.copied).filter isPy
  { t with fs := ps.foldl (compileOne tl) t.fs, copied := ps.foldl (fun s p => addPath (pycOf tl.tag p) s) t.copied }

/-- `load_record_cfg` of the new RECORD (wd 145-146); `none`: an exception. -/
def oldRecords (fm : Formats C S) (fs : FS C) (di : Path) : Option (List (Rec S)) :=
  match Dict.get fs di with
  | some (.file _) => none
  | _ => match Dict.get fs ("RECORD".toList :: di) with
    | none => some []
    | some .dir => none
    | some (.file c) => fm.readRecord c

/-- The end of the transaction (wd 144-160). `request` and `info` are the contents of REQUESTED, if the package was
requested, and of INSTALLATION_MODE. -/
def finish (fm : Formats C S) (tl : Tools C S) (site : Path) (ch : Checked C S) (request : Option C) (info : C) (t : Txn C) :
    Out (Txn C) :=
  let di := ch.distInfo :: site
  match oldRecords fm t.fs di with
  | none => .raised t
  | some old =>
    let recs := old ++ signFiles (precomputedOf ch.records) tl.hash t.fs site (tl.order t.copied)
    Txn.run tl.empty
      (.write ("RECORD".toList :: di) (fm.writeRecord recs) :: .write (t!"INSTALLER" :: di) fm.installer ::
        (match request with
          | some r => [.write (t!"REQUESTED" :: di) r]
          | none => []) ++ [.write (t!"INSTALLATION_MODE" :: di) info]) t

/-- The body of the transaction (wd 108-160). -/
def body (fm : Formats C S) (tl : Tools C S) (tg : Target) (content : Path) (ch : Checked C S) (request : Option C) (info : C)
    (fs : FS C) : Out (Txn C) :=
  let site := if ch.purelib then tg.purelib else tg.platlib
  match Txn.run tl.empty (contentCalls tg tl.patch content site ch.distInfo ch.tree) ⟨fs, [], []⟩ with
  | .raised t => .raised t
  | .ok t => match launchers tg.scripts (ch.entries) t with
    | .raised t => .raised t
    | .ok t => finish fm tl site ch request info (compileAll tl t)

/-- `install_to` (wd 162-179) on the extracted wheel: the file system afterwards, and the exception. -/
def install (fm : Formats C S) (tl : Tools C S) (tg : Target) (content : Path) (tree : Sources C) (request : Option C) (info : C)
    (fs : FS C) : FS C × Option WErr :=
  match check fm tl content tree with
  | .error e => (fs, some e)
  | .ok ch => match body fm tl tg content ch request info fs with
    | .ok t => (t.fs, none)
    | .raised t => ((t.rollback tl.order).1, some .inside)

end WheelInstall
end Pkm
