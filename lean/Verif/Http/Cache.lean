import Verif.Text
import Verif.Dict
/-
Model of the stored resources of the HTTP client: `FetchedResource` of
pkm/src/pkm/utils/http/http_client.py 185-268 ("http" below), for the files of one URL.

A file is written step by step and a crash can happen between any two steps; file operations take effect in
their order (no reordering by the operating system at a power failure). The operations are not interleaved
with each other. Directories are not modelled (http 204-210, 246).
-/
namespace Pkm
namespace Http

abbrev Bytes := List Nat

/-- The parts of a response that are used (http 251-263). `received` is what `shutil.copyfileobj` reads, `body`
is what the server wanted to send. `now` is the formatted time of the call. -/
structure Resp where
  body : Bytes
  received : Bytes
  etag : Option Text
  lastModified : Option Text
  date : Option Text
  now : Text
  deriving DecidableEq, Repr

/-- `FetchInfoConfig` (http 185-191) without the unknown fields. -/
structure Info where
  etag : Option Text
  time : Option Text
  hash : Dict Text Text
  deriving DecidableEq, Repr

/-- `x or y` for texts. -/
def orText (x : Option Text) (y : Text) : Text :=
  match x with
  | some (c :: cs) => c :: cs
  | _ => y

/-- `rheaders.get('last-modified', rheaders.get('date')) or now` (http 255, 262). -/
def Resp.time (r : Resp) : Text :=
  orText (match r.lastModified with | some t => some t | none => r.date) r.now

/-- The new `fetch_info` in `save` (http 258-263). -/
def Resp.info (r : Resp) : Info := ⟨some (orText r.etag []), some r.time, []⟩

/-- The info is part of the other: fields are missing only. -/
def Info.within (a b : Info) : Bool :=
  (a.etag == none || a.etag == b.etag) && (a.time == none || a.time == b.time) &&
    a.hash.all (fun p => b.hash.get p.1 == some p.2)

/-- The files of a resource: the data, and the info as what reading it gives (`some none`: the file exists, but
reading it raises an exception). -/
structure Files where
  data : Option Bytes
  info : Option (Option Info)
  deriving DecidableEq, Repr

/-- `FetchedResource.exists` (http 214-215). -/
def Files.exist (f : Files) : Bool := f.data.isSome && f.info.isSome

/-- The files, and the cached property `fetch_info_data` of the `FetchedResource` objects (by number). -/
structure CacheState where
  files : Files
  mem : Nat → Option Info

/-- The single steps. -/
inductive CStep where
  | unlinkInfo
  | unlinkData
  | openData
  | appendData (b : Nat)
  /-- assign to the cached property or change its `hash` -/
  | remember (o : Nat) (i : Info)
  /-- `clear_cached_properties` -/
  | forget (o : Nat)
  /-- the info file is truncated, or written in part -/
  | openInfo (t : Option Info)
  | writeInfo (i : Info)
  deriving DecidableEq, Repr

def CacheState.apply (s : CacheState) : CStep → CacheState
  | .unlinkInfo => { s with files := { s.files with info := none } }
  | .unlinkData => { s with files := { s.files with data := none } }
  | .openData => { s with files := { s.files with data := some [] } }
  | .appendData b => { s with files := { s.files with data := s.files.data.map (· ++ [b]) } }
  | .remember o i => { s with mem := fun n => if n = o then some i else s.mem n }
  | .forget o => { s with mem := fun n => if n = o then none else s.mem n }
  | .openInfo t => { s with files := { s.files with info := some t } }
  | .writeInfo i => { s with files := { s.files with info := some (some i) } }

def CacheState.runSteps (s : CacheState) (steps : List CStep) : CacheState := steps.foldl CacheState.apply s

/-- The process ends, its objects are gone. -/
def CacheState.crash (s : CacheState) : CacheState := { s with mem := fun _ => none }

/-- `fetch_info.save()` (http 241, 265; configfiles.py 14-19): `write_text` truncates the file and writes it. `t`
is what reading the part gives that is written at first. -/
def writeInfoSteps (i : Info) (t : Option Info) : List CStep :=
  [.openInfo (match t with | some a => if a.within i then some a else none | none => none), .writeInfo i]

/-- `FetchedResource.delete` (http 200-212). -/
def deleteSteps (o : Nat) : List CStep := [.unlinkInfo, .unlinkData, .forget o]

/-- `FetchedResource.save` without an exception (http 245-265). -/
def saveSteps (o : Nat) (r : Resp) (t : Option Info) : List CStep :=
  [.unlinkInfo, .openData] ++ r.received.map .appendData ++ [.remember o r.info] ++ writeInfoSteps r.info t

/-- The cached property `fetch_info_data` (http 221-223); `none`: an exception. A missing file reads as no
fields. -/
def CacheState.infoOf (s : CacheState) (o : Nat) : Option Info :=
  match s.mem o with
  | some i => some i
  | none =>
    match s.files.info with
    | none => some ⟨none, none, []⟩
    | some i => i

/-- `is_hash_valid` (http 225-243): the hash value that is compared, and the steps. `none`: an exception. `H f d`
is the digest of `d` by the hash function `f`. -/
def CacheState.hashOf (H : Text → Bytes → Text) (s : CacheState) (o : Nat) (f : Text) (t : Option Info) :
    Option Text × List CStep :=
  match s.infoOf o with
  | none => (none, [])
  | some i =>
    match i.hash.get f with
    | some (c :: cs) => (some (c :: cs), [.remember o i])
    | _ =>
      match s.files.data with
      | none => (none, [.remember o i])
      | some d =>
        let i' := { i with hash := i.hash.put f (H f d) }
        -- `TomlConfigIO.write` reads the existing file first
        if s.files.info = some none then (none, [.remember o i, .remember o i'])
        else (some (H f d), [.remember o i, .remember o i'] ++ writeInfoSteps i' t)

end Http
end Pkm
