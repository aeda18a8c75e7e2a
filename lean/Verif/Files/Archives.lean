import Verif.Tags.Model
import Verif.Http.Url
/-
Model of unpacking archives: pkm/src/pkm/utils/archives.py ("ar" below), with the parts of the Python library it calls,
and the names of packages that are given by a URL, pkm/src/pkm/repositories/url_repository.py ("ur") and
`_resource_files_of` of pkm/src/pkm/utils/http/http_client.py ("http").

Modelled: `ZipFile.extractall` and `TarFile.extractall` for files, directories and symbolic links, for Python 3.8 to 3.13,
where no filter is applied to the members of a tar file. Simplifications: paths are those of a POSIX system; hard links,
devices, owners, modes and times are left out; data are read without errors; at most 40 links are followed.
-/
namespace Pkm
namespace Archives

abbrev Path := List Text

/-- What is at a path. The target of a link is a text that is split when it is followed. -/
inductive Node where
  | dir
  | file (data : Text)
  | link (to : Text)
  deriving DecidableEq, Repr

/-- The file system: what is at an absolute path. -/
abbrev Disk := Path → Option Node

/-- A change of one path. -/
def Disk.set (f : Disk) (p : Path) (n : Node) : Disk := fun q => if q = p then some n else f q

/-- The names of a path, without empty ones. -/
def names (t : Text) : List Text := (splitOn '/' t).filter (· ≠ [])

/-- Where a path starts: an absolute one at the root. -/
def start (cur : Path) : Text → Path
  | '/' :: _ => []
  | _ => cur

/-- The place that names lead to from a directory; `next` follows a link, given the directory of the link, its target and
the names after it. The last name need not exist. -/
def followWith (f : Disk) (next : Path → Text → List Text → Option Path) : Path → List Text → Option Path
  | cur, [] => some cur
  | cur, x :: xs =>
    if x = t!"." then followWith f next cur xs
    else if x = t!".." then followWith f next cur.dropLast xs
    else
      match f (cur ++ [x]) with
      | none => if xs.isEmpty then some (cur ++ [x]) else none
      | some .dir => followWith f next (cur ++ [x]) xs
      | some (.file _) => if xs.isEmpty then some (cur ++ [x]) else none
      | some (.link to) => next cur to xs

/-- The same, following at most `n` links. -/
def follow (f : Disk) : Nat → Path → List Text → Option Path
  | 0, cur, xs => followWith f (fun _ _ _ => none) cur xs
  | n + 1, cur, xs => followWith f (fun c to rest => follow f n (start c to) (names to ++ rest)) cur xs

/-- `os.makedirs` of the names from a directory unless it exists: the disk, and the directory unless this failed. -/
def walk : Disk → Path → List Text → Disk × Option Path
  | f, cur, [] => (f, some cur)
  | f, cur, x :: xs =>
    if x = t!"." then walk f cur xs
    else if x = t!".." then walk f cur.dropLast xs
    else
      match f (cur ++ [x]) with
      | none => walk (f.set (cur ++ [x]) .dir) (cur ++ [x]) xs
      | some .dir => walk f (cur ++ [x]) xs
      | some (.file _) => (f, none)
      | some (.link _) =>
        match follow f 40 cur [x] with
        | none => (f, none)
        | some p => if f p = some .dir then walk f p xs else (f, none)

/-- `open(path, "wb")` and copying the data, in a directory. -/
def writeFile (f : Disk) (cur : Path) (x : Text) (data : Text) : Disk × Bool :=
  if x = t!"." ∨ x = t!".." then (f, false)
  else
    match f (cur ++ [x]) with
    | some .dir => (f, false)
    | some (.link _) =>
      match follow f 40 cur [x] with
      | none => (f, false)
      | some p => if f p = some .dir then (f, false) else (f.set p (.file data), true)
    | _ => (f.set (cur ++ [x]) (.file data), true)

/-- What a member of an archive is. -/
inductive Body where
  | file (data : Text)
  | dir
  | link (to : Text)
  deriving DecidableEq, Repr

/-- A member of an archive. In a zip file a directory is a member whose name ends with a slash, and the data of a link are
its target. -/
structure Member where
  name : Text
  body : Body
  deriving DecidableEq, Repr

/-! ### Zip files -/

/-- The names of a member: empty ones, `.` and `..` are left out (`ZipFile._extract_member`). -/
def zipNames (t : Text) : List Text := (names t).filter (fun x => x ≠ t!"." ∧ x ≠ t!"..")

/-- `ZipInfo.is_dir`. -/
def zipIsDir (t : Text) : Bool := t.getLast? == some '/'

/-- The data of a member of a zip file. -/
def dataOf : Body → Text
  | .file d => d
  | .dir => []
  | .link to => to

/-- `if not os.path.isdir(path): os.mkdir(path)`. -/
def zipDir (f : Disk) (cur : Path) (x : Text) : Disk × Bool :=
  match f (cur ++ [x]) with
  | none => (f.set (cur ++ [x]) .dir, true)
  | some .dir => (f, true)
  | some (.file _) => (f, false)
  | some (.link _) => (f, match follow f 40 cur [x] with | some p => f p == some .dir | none => false)

/-- `ZipFile._extract_member`: the disk, and whether no exception was raised. -/
def zipMember (f : Disk) (target : Path) (m : Member) : Disk × Bool :=
  match (zipNames m.name).getLast? with
  | none => (f, zipIsDir m.name)
  | some x =>
    match walk f target (zipNames m.name).dropLast with
    | (f, none) => (f, false)
    | (f, some cur) => if zipIsDir m.name then zipDir f cur x else writeFile f cur x (dataOf m.body)

/-! ### Tar files -/

/-- `TarFile.makelink`: what is there is removed. -/
def makeLink (f : Disk) (cur : Path) (x to : Text) : Disk × Bool :=
  if x = t!"." ∨ x = t!".." then (f, false)
  else
    match f (cur ++ [x]) with
    | some .dir => (f, false)
    | _ => (f.set (cur ++ [x]) (.link to), true)

/-- `TarFile.makedir`: an existing path is left alone. -/
def tarDir (f : Disk) (cur : Path) (x : Text) : Disk × Bool :=
  if x = t!"." ∨ x = t!".." then (f, true)
  else
    match f (cur ++ [x]) with
    | none => (f.set (cur ++ [x]) .dir, true)
    | some _ => (f, true)

/-- `TarFile._extract_member` for `os.path.join(target, name)`. -/
def tarMember (f : Disk) (target : Path) (m : Member) : Disk × Bool :=
  match (names m.name).getLast? with
  | none => (f, m.body == .dir)
  | some x =>
    match walk f (start target m.name) (names m.name).dropLast with
    | (f, none) => (f, false)
    | (f, some cur) =>
      match m.body with
      | .file data => writeFile f cur x data
      | .dir => tarDir f cur x
      | .link to => makeLink f cur x to

/-! ### `extract_archive` -/

/-- The members one after the other, up to the first exception. -/
def extractAll (one : Disk → Member → Disk × Bool) : Disk → List Member → Disk × Bool
  | f, [] => (f, true)
  | f, m :: ms =>
    match one f m with
    | (f, true) => extractAll one f ms
    | (f, false) => (f, false)

/-- What an extraction ends with. -/
inductive Result where
  | done
  | failed
  | unsupported
  deriving DecidableEq, Repr

/-- Whether it failed. -/
def toResult : Disk × Bool → Disk × Result
  | (f, true) => (f, .done)
  | (f, false) => (f, .failed)

/-- `extract_archive` (ar 9-23), given the name of the file and the members in it. The kind of an archive is taken from its
name; reading an archive of another kind raises and is not modelled. -/
def extract (f : Disk) (fileName : Text) (members : List Member) (target : Path) : Disk × Result :=
  match walk f [] target with
  | (f, none) => (f, .failed)
  | (f, some _) =>
    if t!".zip".isSuffixOf fileName ∨ t!".whl".isSuffixOf fileName then
      toResult (extractAll (fun f m => zipMember f target m) f members)
    else if t!".tar.gz".isSuffixOf fileName then toResult (extractAll (fun f m => tarMember f target m) f members)
    else if t!".tar.bz2".isSuffixOf fileName then toResult (extractAll (fun f m => tarMember f target m) f members)
    else (f, .unsupported)

/-! ### Packages that are given by a URL -/

/-- `Path(t).name`: the last name that is not empty and not `.`. -/
def pathName (t : Text) : Text := (((names t).filter (· ≠ t!".")).getLast?).getD []

/-- The file name of the artifact of `UrlPackage` (ur 32-33). -/
def urlArtifact (url : Text) : Option Text := (Http.Url.parse url).map (fun u => pathName u.path)

/-- The name of the file in which the client keeps the data of a URL (http 304-316). -/
def urlData (url : Text) : Option Text := (Http.Url.parse url).map (fun u => pathName (u.path.dropWhile (· == '/')))

/-- `PackageArtifact.is_binary` (standard_package.py 27-28). -/
def isBinary (fileName : Text) : Bool := t!".whl".isSuffixOf fileName

end Archives
end Pkm
