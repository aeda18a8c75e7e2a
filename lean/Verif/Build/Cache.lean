/-
Model of the cache of built sources as files on the disk, with several users at once:
`SourceBuildCache._get_or_build` (pkm/src/pkm/build/source_build_cache.py 37-91, "sc"), and its two users
in pkm/src/pkm/api/distributions/source_distribution.py ("sd") 26-34; `Pkm.clean_cache` (pkm/src/pkm/api/pkm.py 119-122).

Users are threads or processes of pkm (an installation builds several packages at once, and two programs may run). Between
two accesses to the disk any other user may act, and a user may be killed. A file that is being written is seen
half written by others: `shutil.copy`, `Path.write_text` and `shutil.move` from the directory of temporary files, which may be on another disk,
open the file, which empties it, and then write it. Files have an identity, so that a writer whose file was
removed does not write to the one that came after it. Removing a tree is one step, as is reading a file. The name of the
wheel that is built from an archive is always the same. Not modelled: the build (see `Model`), errors of the disk other than
missing files.
-/
namespace Pkm
namespace BuildCache

variable {B H : Type} [DecidableEq B] [DecidableEq H]

/-- A directory of the cache (sc 38-47): `base` is that of the package, its version and the markers of the environment,
`hash` that of the archive. -/
structure Key (B H : Type) where
  base : B
  hash : H
  deriving DecidableEq

inductive Kind where
  | metadata | wheel
  deriving DecidableEq

/-- A file: its identity, the archive that what is in it was built from, and whether all of it was written. -/
structure File (H : Type) where
  id : Nat
  of : H
  whole : Bool
  deriving DecidableEq

/-- The disk: the directories, the METADATA and the wheel in them; `next` is the identity of the next
file there. -/
structure Disk (B H : Type) where
  bdir : B → Bool
  dir : Key B H → Bool
  md : Key B H → Option (File H)
  wheel : Key B H → Option (File H)
  next : Key B H → Nat

def empty : Disk B H := ⟨fun _ => false, fun _ => false, fun _ => none, fun _ => none, fun _ => 0⟩

def upd {V : Type} (f : Key B H → V) (k : Key B H) (v : V) : Key B H → V := fun k' => if k' = k then v else f k'

/-- `cache_dir.mkdir(parents=True, exist_ok=True)`. -/
def mkdirs (d : Disk B H) (k : Key B H) : Disk B H :=
  { d with bdir := fun b => if b = k.base then true else d.bdir b, dir := upd d.dir k true }

/-- `shutil.rmtree(base_cache_dir)`. -/
def rmtree (d : Disk B H) (b : B) : Disk B H :=
  ⟨fun b' => if b' = b then false else d.bdir b', fun k => if k.base = b then false else d.dir k,
    fun k => if k.base = b then none else d.md k, fun k => if k.base = b then none else d.wheel k, d.next⟩

/-- Opening a file for writing: an existing one keeps its identity. -/
def opened (k : Key B H) (cur : Option (File H)) (next : Nat) : File H × Nat :=
  match cur with
  | some f => (⟨f.id, k.hash, false⟩, next)
  | none => (⟨next, k.hash, false⟩, next + 1)

/-- Writing to the file opened as `id`: what is at the path changes only if it is still this file. -/
def written (id : Nat) (cur : Option (File H)) : Option (File H) :=
  cur.map (fun f => if f.id = id then { f with whole := true } else f)

/-- What is read from a file: the archive it comes from and whether all of it is there. -/
def read (f : File H) : H × Bool := (f.of, f.whole)

/-- How a user ends. -/
inductive Result (H : Type) where
  /-- METADATA with what was read; without a file, reading gives empty METADATA (package_metadata.py 56-57) -/
  | metadata (what : Option (H × Bool))
  /-- the wheel that was opened for installation -/
  | wheel (what : H × Bool)
  /-- a path, where METADATA was asked for -/
  | path
  /-- an exception -/
  | failed
  deriving DecidableEq

/-- Where a user is. -/
inductive At (H : Type) where
  /-- sc 49 -/
  | check
  /-- sc 51 -/
  | load
  /-- sc 52-53 -/
  | glob
  /-- sc 55 -/
  | clear
  /-- sc 56 -/
  | remove
  /-- sc 58-78 -/
  | build
  /-- sc 80 -/
  | mkMeta
  /-- sc 81, opening -/
  | openMeta
  /-- sc 81, writing, and 82 -/
  | writeMeta (id : Nat)
  /-- sc 84, and in 86 making the directory (configclass.py 45-47) -/
  | saveCheck
  /-- sc 86, opening -/
  | saveOpen
  /-- sc 86, writing -/
  | saveWrite (id : Nat)
  /-- sc 89 -/
  | mkWheel
  /-- sc 90, opening -/
  | moveOpen
  /-- sc 90, writing, and 91 -/
  | moveWrite (id : Nat)
  /-- sd 33-34: the wheel is opened -/
  | use
  | done (r : Result H)
  deriving DecidableEq

/-- A user: what is asked for, what its build would give, whether it has built, where it is. -/
structure User (B H : Type) where
  key : Key B H
  kind : Kind
  /-- what the build gives: `none`: an error; a wheel may come for METADATA (sc 69-73) -/
  gives : Option Kind
  built : Bool := false
  pos : At H := .check

/-- A step of a user. -/
def act (d : Disk B H) (u : User B H) : Disk B H × User B H :=
  match u.pos with
  | .check =>
    match d.md u.key with
    | some _ => (d, { u with pos := if u.kind = .metadata then .load else .glob })
    | none => (d, { u with pos := .clear })
  | .load => (d, { u with pos := .done (.metadata ((d.md u.key).map read)) })
  | .glob =>
    match d.wheel u.key with
    | some _ => (d, { u with pos := .use })
    | none => (d, { u with pos := .clear })
  | .clear => (d, { u with pos := if d.bdir u.key.base then .remove else .build })
  | .remove =>
    if d.bdir u.key.base then (rmtree d u.key.base, { u with pos := .build })
    else (d, { u with pos := .done .failed })
  | .build =>
    match u.gives with
    | none => (d, { u with built := true, pos := .done .failed })
    | some .metadata => (d, { u with built := true, pos := .mkMeta })
    | some .wheel => (d, { u with built := true, pos := .saveCheck })
  | .mkMeta => (mkdirs d u.key, { u with pos := .openMeta })
  | .openMeta =>
    if d.dir u.key then
      let o := opened u.key (d.md u.key) (d.next u.key)
      ({ d with md := upd d.md u.key (some o.1), next := upd d.next u.key o.2 }, { u with pos := .writeMeta o.1.id })
    else (d, { u with pos := .done .failed })
  | .writeMeta id =>
    ({ d with md := upd d.md u.key (written id (d.md u.key)) },
      { u with pos := .done (.metadata (some (u.key.hash, true))) })
  | .saveCheck =>
    match d.md u.key with
    | some _ => (d, { u with pos := .mkWheel })
    | none => (mkdirs d u.key, { u with pos := .saveOpen })
  | .saveOpen =>
    if d.dir u.key then
      let o := opened u.key (d.md u.key) (d.next u.key)
      ({ d with md := upd d.md u.key (some o.1), next := upd d.next u.key o.2 }, { u with pos := .saveWrite o.1.id })
    else (d, { u with pos := .done .failed })
  | .saveWrite id => ({ d with md := upd d.md u.key (written id (d.md u.key)) }, { u with pos := .mkWheel })
  | .mkWheel => (mkdirs d u.key, { u with pos := .moveOpen })
  | .moveOpen =>
    if d.dir u.key then
      let o := opened u.key (d.wheel u.key) (d.next u.key)
      ({ d with wheel := upd d.wheel u.key (some o.1), next := upd d.next u.key o.2 }, { u with pos := .moveWrite o.1.id })
    else (d, { u with pos := .done .failed })
  | .moveWrite id =>
    ({ d with wheel := upd d.wheel u.key (written id (d.wheel u.key)) },
      { u with pos := if u.kind = .metadata then .done .path else .use })
  | .use =>
    match d.wheel u.key with
    | some f => (d, { u with pos := .done (.wheel (read f)) })
    | none => (d, { u with pos := .done .failed })
  | .done _ => (d, u)

/-- One user alone, to the end. -/
def alone (d : Disk B H) (u : User B H) : Nat → Disk B H × User B H
  | 0 => (d, u)
  | n + 1 => match u.pos with
    | .done _ => (d, u)
    | _ => alone (act d u).1 (act d u).2 n

/-- The result of a user that has ended. -/
def User.result (u : User B H) : Option (Result H) :=
  match u.pos with
  | .done r => some r
  | _ => none

/-- A use of the cache with nobody else about: the disk after it, whether there was a build, and the result. The number of
steps is enough for it to end, see `cache_call`. -/
def call (d : Disk B H) (k : Key B H) (kind : Kind) (gives : Option Kind) : Disk B H × Bool × Option (Result H) :=
  ((alone d ⟨k, kind, gives, false, .check⟩ 16).1, (alone d ⟨k, kind, gives, false, .check⟩ 16).2.built,
    (alone d ⟨k, kind, gives, false, .check⟩ 16).2.result)

/-- Several users at once. -/
structure Many (B H : Type) where
  disk : Disk B H
  users : List (User B H)

/-- A user makes a step, or is killed, or the caches are cleaned (pkm.py 121). -/
inductive Event where
  | step (i : Nat)
  | kill (i : Nat)
  | clean
  deriving DecidableEq

def happen (s : Many B H) : Event → Many B H
  | .step i => match s.users[i]? with
    | some u => ⟨(act s.disk u).1, s.users.set i (act s.disk u).2⟩
    | none => s
  | .kill i => match s.users[i]? with
    | some u => match u.pos with
      | .done _ => s
      | _ => ⟨s.disk, s.users.set i { u with pos := .done .failed }⟩
    | none => s
  | .clean => ⟨⟨fun _ => false, fun _ => false, fun _ => none, fun _ => none, s.disk.next⟩, s.users⟩

end BuildCache
end Pkm
