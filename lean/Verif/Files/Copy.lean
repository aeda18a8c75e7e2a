import Verif.Files.Model
import Verif.Parser
/-
`CopyTransaction` (pkm/src/pkm/utils/files.py 119-269, "fl") on the file system model.

The temporary directory of a transaction is a separate store: paths handled by a transaction do not lie
in it. The sources of copies lie outside of the targets: a source is given by its content. An exception
keeps the state that it finds (`Out.raised`), as `__exit__` then works on that state.
-/
namespace Pkm
namespace Files

variable {C : Type}

/-- The state of a transaction (fl 127-130). -/
structure Txn (C : Type) where
  fs : FS C
  /-- `_copied_files`, a set -/
  copied : List Path
  /-- `_overwritten_files` together with what was moved to the temporary directory: the tree at and
  below the path, with relative paths -/
  saved : List (Path × FS C)

inductive Out (A : Type) where
  | ok (a : A)
  | raised (a : A)
  deriving DecidableEq, Repr

/-- `set.add`. -/
def addPath (p : Path) (s : List Path) : List Path := if p ∈ s then s else s ++ [p]

namespace FS
/-- What is at and below `p`, with relative paths. -/
def subtree (fs : FS C) (p : Path) : FS C :=
  (fs.filter (fun e => p.isSuffixOf e.1)).map (fun e => (e.1.take (e.1.length - p.length), e.2))

/-- Put a tree to the place `p`. -/
def graft (fs : FS C) (p : Path) (tree : FS C) : FS C :=
  tree.foldl (fun fs e => Dict.put fs (e.1 ++ p) e.2) fs
end FS

namespace Txn

/-- `mkdir` (fl 161-173). -/
def mkdir (t : Txn C) : Path → Out (Txn C)
  | [] => .ok t
  | x :: p =>
    if t.fs.ex (x :: p) then .ok t
    else
      match (if t.fs.ex p then Out.ok t else mkdir t p) with
      | .raised t => .raised t
      | .ok t =>
        if t.fs.isDir p then .ok { t with fs := Dict.put t.fs (x :: p) .dir, copied := addPath (x :: p) t.copied }
        else .raised t

/-- `rm` (fl 230-238). -/
def rm (t : Txn C) (p : Path) : Out (Txn C) :=
  if p ≠ [] ∧ t.fs.ex p = true then
    .ok { t with fs := t.fs.dropTree p, saved := t.saved ++ [(p, t.fs.subtree p)] }
  else .raised t

/-- The source of a copy. -/
inductive Src (C : Type) where
  | file (c : C)
  | dir
  | missing
  deriving DecidableEq, Repr

/-- `shutil.copy` to a path at which nothing is: `none` is `FileNotFoundError` (the source or the parent
directory is missing), `some none` any other error. -/
def shutilCopy (fs : FS C) (src : Src C) (target : Path) : Option (Option (FS C)) :=
  match src with
  | .file c =>
    if fs.isDir (parent target) then some (some (Dict.put fs target (.file c)))
    else if fs.ex (parent target) then some none
    else none
  | .dir => some none
  | .missing => none

/-- `copy` (fl 175-196) after the target has been moved away (fl 187-196). -/
def copyNew (t : Txn C) (src : Src C) (target : Path) : Out (Txn C) :=
  match shutilCopy t.fs src target with
  | some (some fs) => .ok { t with fs := fs, copied := addPath target t.copied }
  | some none => .raised t
  | none =>
    match t.mkdir (parent target) with
    | .raised t => .raised t
    | .ok t =>
      match shutilCopy t.fs src target with
      | some (some fs) => .ok { t with fs := fs, copied := addPath target t.copied }
      | _ => .raised t

/-- `copy` (fl 175-196). -/
def copy (t : Txn C) (src : Src C) (target : Path) : Out (Txn C) :=
  match src with
  | .dir => .raised t
  | src =>
    if t.fs.ex target then
      match t.rm target with
      | .raised t => .raised t
      | .ok t => t.copyNew src target
    else t.copyNew src target

/-- `path.touch(exist_ok=True)`. -/
def fsTouch (empty : C) (fs : FS C) (p : Path) : Option (FS C) :=
  if fs.ex p then some fs
  else if fs.isDir (parent p) then some (Dict.put fs p (.file empty)) else none

/-- `touch` (fl 212-220). -/
def touch (empty : C) (t : Txn C) (p : Path) (really : Bool) : Out (Txn C) :=
  let t := { t with copied := addPath p t.copied }
  if really then
    match fsTouch empty t.fs p with
    | some fs => .ok { t with fs := fs }
    | none => .raised t
  else .ok t

/-- What the body of a transaction writes to a file by itself, without telling the transaction. -/
def write (t : Txn C) (p : Path) (c : C) : Out (Txn C) :=
  if t.fs.isDir p then .raised t
  else if t.fs.isDir (parent p) ∧ p ≠ [] then .ok { t with fs := Dict.put t.fs p (.file c) }
  else .raised t

end Txn

/-- The steps of the body of a transaction. -/
inductive Call (C : Type) where
  | mkdir (target : Path)
  | copy (src : Txn.Src C) (target : Path)
  | rm (path : Path)
  | touch (path : Path) (really : Bool)
  | write (path : Path) (c : C)
  /-- an exception that has nothing to do with the transaction -/
  | fail
  deriving DecidableEq, Repr

/-- One step. -/
def Txn.step (empty : C) (t : Txn C) : Call C → Out (Txn C)
  | .mkdir p => t.mkdir p
  | .copy s p => t.copy s p
  | .rm p => t.rm p
  | .touch p r => t.touch empty p r
  | .write p c => t.write p c
  | .fail => .raised t

/-- The body: its steps until the first exception. -/
def Txn.run (empty : C) : List (Call C) → Txn C → Out (Txn C)
  | [], t => .ok t
  | c :: cs, t =>
    match t.step empty c with
    | .ok t => run empty cs t
    | .raised t => .raised t

/-- The first loop of `_rollback` (fl 257-259). -/
def unlinkFiles (files : List Path) (fs : FS C) : FS C :=
  files.foldl (fun fs p => if fs.isDir p then fs else Dict.del fs p) fs

/-- The second loop of `_rollback` (fl 261-263). -/
def removeEmpty (files : List Path) (fs : FS C) : FS C :=
  files.foldl (fun fs p => if fs.isEmptyDir p then Dict.del fs p else fs) fs

/-- `shutil.move(temp / str(i), path)` (fl 265-267): into `path` if that is a directory, otherwise to
`path`. `none`: an exception. -/
def moveBack (fs : FS C) (i : Nat) (path : Path) (tree : FS C) : Option (FS C) :=
  if fs.isDir path then
    if fs.ex (showNat i :: path) then none else some (fs.graft (showNat i :: path) tree)
  else if fs.isDir (parent path) ∧ path ≠ [] then
    if fs.ex path ∧ tree.isDir [] then none
    else some (FS.graft (Dict.del fs path) path tree)
  else none

/-- The third loop of `_rollback`: the file system, and whether it ended without exception. -/
def moveAllBack : Nat → List (Path × FS C) → FS C → FS C × Bool
  | _, [], fs => (fs, true)
  | i, (p, tree) :: rest, fs =>
    match moveBack fs i p tree with
    | some fs => moveAllBack (i + 1) rest fs
    | none => (fs, false)

/-- `_rollback` (fl 256-269). `order` is the iteration order of the set. -/
def Txn.rollback (order : List Path → List Path) (t : Txn C) : FS C × Bool :=
  moveAllBack 0 t.saved (removeEmpty (order t.copied) (unlinkFiles (order t.copied) t.fs))

/-- `with CopyTransaction() as ct: body` (fl 240-254): the file system afterwards, whether the body ended
without exception, and whether `__exit__` did. -/
def transaction (empty : C) (order : List Path → List Path) (body : List (Call C)) (fs : FS C) :
    FS C × Bool × Bool :=
  match Txn.run empty body ⟨fs, [], []⟩ with
  | .ok t => (t.fs, true, true)
  | .raised t => ((t.rollback order).1, false, (t.rollback order).2)

/-! ### copy_tree -/

/- The tree of a source directory, in the order of `iterdir`. -/
mutual
inductive Source (C : Type) where
  | file (c : C)
  | dir (entries : Sources C)
inductive Sources (C : Type) where
  | nil
  | cons (name : Text) (s : Source C) (rest : Sources C)
end

/-- The loop of `copy_tree` (fl 152-159) over the entries of a source directory, as the steps that it
performs; `sourcePath` is the path of the source, `fileCopy` the content that the given `file_copy`
writes for a file. The recursive call (fl 157) does not pass `file_copy` on. -/
def copyEntries (accept : Path → Bool) (fileCopy : Option (C → C)) (sourcePath : Path) (target : Path) :
    Sources C → List (Call C)
  | .nil => []
  | .cons name (.dir entries) rest =>
    (if accept (name :: sourcePath) then
      .mkdir (name :: target) :: copyEntries accept none (name :: sourcePath) (name :: target) entries
    else []) ++ copyEntries accept fileCopy sourcePath target rest
  | .cons name (.file c) rest =>
    (if accept (name :: sourcePath) then
      match fileCopy with
      | some f => [.write (name :: target) (f c), .touch (name :: target) false]
      | none => [.copy (.file c) (name :: target)]
    else []) ++ copyEntries accept fileCopy sourcePath target rest

/-- `copy_tree` (fl 132-159). -/
def copyTree (accept : Path → Bool) (fileCopy : Option (C → C)) (sourcePath : Path) (target : Path)
    (entries : Sources C) : List (Call C) :=
  .mkdir target :: copyEntries accept fileCopy sourcePath target entries

end Files
end Pkm
