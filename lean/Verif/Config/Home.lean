import Verif.Files.Model
import Verif.Tags.Model
/-
Model of the home directory of pkm and of what pkm keeps in it: pkm/src/pkm/api/pkm.py ("pk"), with `mkdir` of
pkm/src/pkm/utils/files.py and the constructors of the http client (http_client.py 294-296), of the build cache
(source_build_cache.py 24-26) and of the repository loader (repository_loader.py 27-78) as far as they touch the disk.

Simplifications: no links (see `Files/Model`), no Windows; `~name` is looked up in a given table; what a settings file says is not
looked into (`C`), only whether it can be loaded; a cached property asks for the home again, which is cached then too; the extensions that the repository loader imports are left out.
-/
namespace Pkm.Home
open Files (Path Node FS)

/-- What the process is started with. -/
structure Start where
  /-- `sys.platform`. -/
  system : Text
  vars : Dict Text Text
  /-- The home directory of the user. -/
  user : Path
  /-- The home directories of users by their names. -/
  others : Dict Text Path
  cwd : Path

inductive HErr where
  /-- `AttributeError`. -/
  | attribute
  /-- There is a file in the way, or a directory where a file is read. -/
  | blocked
  /-- The settings cannot be loaded. -/
  | malformed
  /-- `RuntimeError` of `expanduser`. -/
  | noUser
  deriving DecidableEq, Repr

/-- The directory for data (pk 145-153), as it is written. -/
def dataDir (s : Start) : Text :=
  if s.system = t!"darwin" then t!"~/Library/Application Support/"
  else (Dict.get s.vars t!"XDG_DATA_HOME").getD t!"~/.local/share"

/-- The components of `Path(text)`: empty ones and `.` are dropped. -/
def parts (t : Text) : List Text := (splitOn '/' t).filter (fun c => c ≠ [] ∧ c ≠ ['.'])

/-- `_default_home_directory` (pk 145-156): `(path / 'pkm').expanduser().resolve()`. -/
def defaultHome (s : Start) : Except HErr Path :=
  if (dataDir s).head? = some '/' then .ok ((parts (dataDir s) ++ [t!"pkm"]).foldl Files.stepPath [])
  else match parts (dataDir s) ++ [t!"pkm"] with
    | ('~' :: name) :: rest =>
      match if name = [] then some s.user else Dict.get s.others name with
      | none => .error .noUser
      | some h => .ok (rest.foldl Files.stepPath h)
    | cs => .ok (cs.foldl Files.stepPath s.cwd)

/-- What `pkm_home` is: a `str` if it comes from the environment, a `Path` otherwise. -/
inductive HomeVal where
  | text (t : Text)
  | path (p : Path)
  deriving DecidableEq, Repr

/-- `pkm_home` (pk 158). -/
def pkmHome (s : Start) : Except HErr HomeVal :=
  match Dict.get s.vars t!"PKM_HOME" with
  | some (c :: t) => .ok (.text (c :: t))
  | _ => (defaultHome s).map .path

/-! ### what is in it -/
variable {C : Type}

/-- `path.mkdir(parents=True, exist_ok=True)`; `none`: there is a file in the way, and nothing is made. -/
def mkdirs (fs : FS C) : Path → Option (FS C)
  | [] => if fs.isDir [] then some fs else none
  | c :: p => match mkdirs fs p with
    | none => none
    | some f => match Dict.get f (c :: p) with
      | some .dir => some f
      | some (.file _) => none
      | none => some (Dict.put f (c :: p) .dir)

/-- What is shipped with pkm, and which settings can be loaded. -/
structure Shipped (C : Type) where
  general : C
  repositories : C
  loadsGeneral : C → Bool
  loadsRepositories : C → Bool

/-- An object of the class `Pkm` (pk 54-61): where its home is, and its cached properties. -/
structure Self (C : Type) where
  raw : HomeVal
  home : Bool
  config : Option C
  http : Bool
  build : Bool
  loader : Option C

/-- `Pkm(home)` (pk 58-61). -/
def Self.new (raw : HomeVal) : Self C := ⟨raw, false, none, false, false, none⟩

abbrev St (C : Type) := Self C × FS C

def generalFile (h : Path) : Path := t!"general.toml" :: t!"pkm" :: t!"etc" :: h
def repositoriesFile (h : Path) : Path := t!"repositories.toml" :: t!"pkm" :: t!"etc" :: h
def httpDir (h : Path) : Path := t!"http" :: t!"resources" :: h
def buildDir (h : Path) : Path := t!"build-cache" :: h
def reposDir (h : Path) : Path := t!"repos" :: h

/-- `Pkm.home` (pk 78-80): `mkdir` of a `str` is an `AttributeError`. -/
def useHome (s : St C) : Except HErr Path × St C :=
  match s.1.raw with
  | .text _ => (.error .attribute, s)
  | .path p =>
    if s.1.home then (.ok p, s)
    else match mkdirs s.2 p with
      | none => (.error .blocked, s)
      | some f => (.ok p, ({ s.1 with home := true }, f))

/-- A settings file that is made from a shipped one if there is none (pk 65-70, 102-106), and is read then. -/
def settings (fs : FS C) (file : Path) (shipped : C) : Except HErr C × FS C :=
  match Dict.get fs file with
  | some (.file c) => (.ok c, fs)
  | some .dir => (.error .blocked, fs)
  | none => match mkdirs fs (Files.parent file) with
    | none => (.error .blocked, fs)
    | some f => (.ok shipped, Dict.put f file (.file shipped))

/-- `Pkm.config` (pk 63-71). -/
def useConfig (sh : Shipped C) (s : St C) : Except HErr C × St C :=
  match s.1.config with
  | some c => (.ok c, s)
  | none => match useHome s with
    | (.error e, s) => (.error e, s)
    | (.ok h, s) => match settings s.2 (generalFile h) sh.general with
      | (.error e, f) => (.error e, (s.1, f))
      | (.ok c, f) =>
        if sh.loadsGeneral c then (.ok c, ({ s.1 with config := some c }, f)) else (.error .malformed, (s.1, f))

/-- `Pkm.httpclient` (pk 82-84): its workspace. -/
def useHttp (s : St C) : Except HErr Path × St C :=
  match useHome s with
  | (.error e, s) => (.error e, s)
  | (.ok h, s) =>
    if s.1.http then (.ok (httpDir h), s)
    else match mkdirs s.2 (httpDir h) with
      | none => (.error .blocked, s)
      | some f => (.ok (httpDir h), ({ s.1 with http := true }, f))

/-- `Pkm.source_build_cache` (pk 91-94): its workspace. -/
def useBuild (s : St C) : Except HErr Path × St C :=
  match useHome s with
  | (.error e, s) => (.error e, s)
  | (.ok h, s) =>
    if s.1.build then (.ok (buildDir h), s)
    else match mkdirs s.2 (buildDir h) with
      | none => (.error .blocked, s)
      | some f => (.ok (buildDir h), ({ s.1 with build := true }, f))

/-- `Pkm.repository_loader` (pk 96-110): the settings it is made from, and its workspace, which is not made. -/
def useLoader (sh : Shipped C) (s : St C) : Except HErr (C × Path) × St C :=
  match useHome s with
  | (.error e, s) => (.error e, s)
  | (.ok h, s) => match s.1.loader with
    | some c => (.ok (c, reposDir h), s)
    | none => match settings s.2 (repositoriesFile h) sh.repositories with
      | (.error e, f) => (.error e, (s.1, f))
      | (.ok c, f) =>
        if sh.loadsRepositories c then (.ok (c, reposDir h), ({ s.1 with loader := some c }, f))
        else (.error .malformed, (s.1, f))

/-- `Pkm.clean_cache` (pk 119-124). -/
def clean (sh : Shipped C) (s : St C) : Except HErr Unit × St C :=
  match useLoader sh s with
  | (.error e, s) => (.error e, s)
  | (.ok (_, d), s) =>
    match useBuild (s.1, s.2.rmtreeQuiet d) with
    | (.error e, s) => (.error e, s)
    | (.ok d, s) =>
      match useHttp (s.1, s.2.rmtreeQuiet d) with
      | (.error e, s) => (.error e, s)
      | (.ok d, s) => (.ok (), (Self.new s.1.raw, s.2.rmtreeQuiet d))

/-- What can be done with the object. -/
inductive Use where
  | home | config | http | build | loader | clean
  deriving DecidableEq, Repr

/-- What it gives. -/
inductive Got (C : Type) where
  | dir (p : Path)
  | settings (c : C)
  | done

def use (sh : Shipped C) (u : Use) (s : St C) : Except HErr (Got C) × St C :=
  match u with
  | .home => let r := useHome s; (r.1.map .dir, r.2)
  | .config => let r := useConfig sh s; (r.1.map .settings, r.2)
  | .http => let r := useHttp s; (r.1.map .dir, r.2)
  | .build => let r := useBuild s; (r.1.map .dir, r.2)
  | .loader => let r := useLoader sh s; (r.1.map (fun x => .settings x.1), r.2)
  | .clean => let r := Home.clean sh s; (r.1.map (fun _ => .done), r.2)

/-- Several uses, whatever they give. -/
def useAll (sh : Shipped C) : List Use → St C → St C
  | [], s => s
  | u :: us, s => useAll sh us (use sh u s).2

end Pkm.Home
