import Verif.Http.Url
import Verif.Repos.Index
/-
Model of requirements with a git url: pkm/src/pkm/repositories/git_repository.py ("gr").

Simplifications:
* A remote is a function from addresses to commits; a commit shows the directories of its work tree, the text of
  `.git/HEAD` after its checkout and the names of its projects if it is a project group.
* A path is the list of its segments; symbolic links are left out, and `..` is resolved by name.
* Processes either do all of their work or fail.
-/
namespace Pkm.Git
open Http (Url)
open Index (lstripSlash)

inductive GErr where
  | value | process | notFound | attribute
  deriving DecidableEq, Repr

abbrev Path := List Text

/-- The parts of a path that pathlib keeps. -/
def isSeg (s : Text) : Bool := !(s == [] || s == ['.'])

def segs (t : Text) : Path := (splitOn '/' t).filter isSeg

/-- `path / text` of pathlib: an absolute text replaces the path. -/
def join (p : Path) (t : Text) : Path :=
  match t with
  | '/' :: _ => segs t
  | _ => p ++ segs t

/-- What the operating system makes of a path with `..`. -/
def resolve (p : Path) : Path := p.foldl (fun acc s => if s = ['.', '.'] then acc.dropLast else acc ++ [s]) []

structure Commit where
  id : Nat
  dirs : List Path
  head : Text
  group : Option (List Text)
  deriving DecidableEq, Repr

/-- A cloned directory: where it was cloned from, the commit in it and the names in its directory `.git/heads`. -/
structure Tree where
  url : Text
  commit : Commit
  heads : List Text
  deriving DecidableEq, Repr

/-- What the git command answers. -/
structure Remote where
  clone : Text → Option Commit
  checkout : Text → Text → Option Commit
  pull : Tree → Option Commit

/-- The workspace: the clones and the directories. A directory exists with all directories above it. -/
structure World where
  trees : Dict Path Tree
  dirs : List Path

/-- `path.exists()`. -/
def World.has (w : World) (p : Path) : Bool := w.dirs.any (fun d => p.isPrefixOf d)

/-- `_is_detached` (gr 34-40). -/
def isDetached (t : Tree) : Bool := !(t.heads.contains t.commit.head)

/-- A clone at a place: git keeps its branches in `.git/refs/heads` and does not make a `.git/heads`. -/
def World.place (w : World) (p : Path) (url : Text) (c : Commit) : World :=
  ⟨Dict.put w.trees p ⟨url, c, []⟩, p :: (c.dirs.map (fun d => p ++ d) ++ w.dirs)⟩

/-- `shutil.rmtree`; git has made the directories above. -/
def World.rmtree (w : World) (p : Path) : World :=
  ⟨w.trees.filter (fun x => !(p.isPrefixOf x.1)), p.dropLast :: w.dirs.filter (fun d => !(p.isPrefixOf d))⟩

/-- `_Git.update` (gr 42-47). -/
def update (rem : Remote) (w : World) (p : Path) : Except GErr Unit × World :=
  match Dict.get w.trees p with
  | none => (.error .notFound, w)
  | some t =>
    if isDetached t then (.ok (), w)
    else match rem.pull t with
      | none => (.error .process, w)
      | some c => (.ok (), ⟨Dict.put w.trees p { t with commit := c }, w.dirs⟩)

/-- `if branch` (gr 55, 93). -/
def given (branch : Option Text) : Option Text :=
  match branch with
  | some (c :: b) => some (c :: b)
  | _ => none

/-- The checkout of a branch in a clone (gr 55-58), with what is done if it fails (gr 59-61). -/
def checkout (rem : Remote) (w : World) (url : Text) (branch : Option Text) (p : Path) : Except GErr Unit × World :=
  match given branch with
  | none => (.ok (), w)
  | some b => match rem.checkout url b with
    | none => (.error .process, w.rmtree p)
    | some c => (.ok (), w.place p url c)

/-- `_Git.clone` (gr 49-61). -/
def clone (rem : Remote) (w : World) (url : Text) (branch : Option Text) (p : Path) : Except GErr Unit × World :=
  match rem.clone url with
  | none => (.error .process, w.rmtree p)
  | some c => checkout rem (w.place p url c) url branch p

/-- The address and the branch in the url (gr 83-90). -/
def splitUrl (url : Text) : Except GErr (Url × Option Text) :=
  match splitOn '@' url with
  | [a] => match Url.parse a with
    | some u => .ok (u, none)
    | none => .error .value
  | [a, b] => match Url.parse a with
    | some u => .ok (u, some b)
    | none => .error .value
  | _ => .error .value

/-- `target_dir` (gr 92-94). -/
def targetDir (ws : Path) (dep : Text) (u : Url) (branch : Option Text) : Path :=
  match given branch with
  | none => resolve (join (join (join ws dep) u.host) (lstripSlash u.path))
  | some b => resolve (join (join (join (join ws dep) u.host) (lstripSlash u.path)) b)

/-- The package of a clone (gr 101-110): in a project group `version.name` is asked for, which a url version
does not have. -/
def package (w : World) (dep : Text) (p : Path) : Except GErr Tree :=
  match Dict.get w.trees p with
  | none => .error .notFound
  | some t => match t.commit.group with
    | some ps => if (ps.filter (fun n => n == dep)).length = 1 then .error .attribute else .error .value
    | none => .ok t

/-- What is done with the target directory (gr 96-99). -/
def fetch (rem : Remote) (w : World) (u : Url) (branch : Option Text) (p : Path) : Except GErr Unit × World :=
  if w.has p then update rem w p else clone rem w u.str branch p

/-- `GitRepository._do_match` (gr 78-112) for a requirement with a git url. -/
def gitMatch (rem : Remote) (ws : Path) (w : World) (dep url : Text) : Except GErr Tree × World :=
  match splitUrl url with
  | .error e => (.error e, w)
  | .ok (u, branch) =>
    match fetch rem w u branch (targetDir ws dep u branch) with
    | (.error e, w') => (.error e, w')
    | (.ok _, w') => (package w' dep (targetDir ws dep u branch), w')

/-- Requests one after the other, each with what the remotes are at its time. -/
def serve (ws : Path) : World → List (Remote × Text × Text) → List (Except GErr Tree) × World
  | w, [] => ([], w)
  | w, (rem, dep, url) :: rs =>
    let r := gitMatch rem ws w dep url
    let q := serve ws r.2 rs
    (r.1 :: q.1, q.2)

end Pkm.Git
