import Verif.Tags.Model
import Verif.Dict
/-
Model of the rendering of templates: pkm-cli/src/pkm_cli/api/templates/template_runner.py ("tr").

Simplifications:
* `setup`, `post_render` and the jinja language are not modelled: rendering a name and rendering a text with the context that
  `setup` returned are functions, and they do not raise.
* There are no symbolic links; file modes and times are not modelled; files hold texts.
* The patterns of `.templateignore` are a predicate on relative paths.
* When a tree is copied its directories are made before its files.
-/
namespace Pkm.Templates

/-- A path, the outermost component first. -/
abbrev Path := List Text

/-- The children of a directory of a template, in the order of `iterdir`. -/
inductive Tree where
  | nil
  | file (name text : Text) (rest : Tree)
  | dir (name : Text) (children rest : Tree)
  deriving DecidableEq, Repr

/-- What is at a path. -/
inductive Item where
  | file (text : Text)
  | dir
  deriving DecidableEq, Repr

/-- The disk; the root directory is not listed. -/
abbrev Disk := Dict Path Item

/-- Rendering with a context (tr 140, 159) and the patterns of an ignore file (tr 123-126). -/
structure Jinja where
  name : Text → Text
  body : Text → Text
  glob : Text → Path → Bool

def isDir (f : Disk) (p : Path) : Bool := p.isEmpty || f.get p == some .dir

/-- `Path.mkdir(parents=True)` below a directory. -/
def mkdirs (f : Disk) (pre : Path) : Path → Disk × Bool
  | [] => (f, true)
  | x :: xs => match f.get (pre ++ [x]) with
    | some (.file _) => (f, false)
    | some .dir => mkdirs f (pre ++ [x]) xs
    | none => mkdirs (f.put (pre ++ [x]) .dir) (pre ++ [x]) xs

/-- `Path.mkdir(exist_ok=True)` (tr 155), where the parent exists. -/
def mkdir (f : Disk) (p : Path) : Disk × Bool :=
  if isDir f p then (f, true)
  else if isDir f p.dropLast && (f.get p).isNone then (f.put p .dir, true)
  else (f, false)

/-- Opening a file for writing and writing it (tr 158-159). -/
def write (f : Disk) (p : Path) (t : Text) : Disk × Bool :=
  if isDir f p || !isDir f p.dropLast then (f, false) else (f.put p (.file t), true)

/-- `shutil.copy` of a file called `src` (tr 161): into the target if that is a directory. -/
def copyTo (f : Disk) (src : Text) (p : Path) (t : Text) : Disk × Bool :=
  if isDir f p then write f (p ++ [src]) t else write f p t

/-- The components of a resolved path. -/
def resolveFrom (d : Path) : List Text → Path
  | [] => d
  | x :: xs =>
    if x.isEmpty || x = t!"." then resolveFrom d xs
    else if x = t!".." then resolveFrom d.dropLast xs
    else resolveFrom (d ++ [x]) xs

/-- `(target_dir / name).resolve()` (tr 145). -/
def resolve (d : Path) (name : Text) : Path :=
  if name.head? = some '/' then resolveFrom [] (splitOn '/' name) else resolveFrom d (splitOn '/' name)

/-- `suffix == ".tmpl"` (tr 157). -/
def isTmpl (n : Text) : Bool := (t!".tmpl").isSuffixOf n && n ≠ t!".tmpl"

/-- `with_suffix("")` of a name with this suffix (tr 158). -/
def stem (n : Text) : Text := n.take (n.length - 5)

/-- Make the parent directories if the parent does not exist (tr 147-148). -/
def parents (f : Disk) (p : Path) : Disk × Bool :=
  if p.dropLast.isEmpty || f.has p.dropLast then (f, true) else mkdirs f [] p.dropLast

/-- One file (tr 145-148, 157-161). -/
def placeAt (j : Jinja) (f : Disk) (n t : Text) (p : Path) : Disk × Bool :=
  if isTmpl (p.getLast?.getD []) then write f (p.dropLast ++ [stem (p.getLast?.getD [])]) (j.body t)
  else copyTo f n p t

def placeFile (j : Jinja) (f : Disk) (n t : Text) (d : Path) : Disk × Bool :=
  match parents f (resolve d (j.name n)) with
  | (f, false) => (f, false)
  | (f, true) => placeAt j f n t (resolve d (j.name n))

/-- Is there a child with the name? -/
def Tree.hasChild (x : Text) : Tree → Bool
  | .nil => false
  | .file n _ rest => n == x || rest.hasChild x
  | .dir n _ rest => n == x || rest.hasChild x

/-- The files of a directory as they are, for `shutil.copytree` (tr 152). -/
def copyRaw : Tree → Path → Disk → Disk
  | .nil, _, f => f
  | .file n t rest, d, f => copyRaw rest d (f.put (d ++ [n]) (.file t))
  | .dir n cs rest, d, f => copyRaw rest d (copyRaw cs (d ++ [n]) (f.put (d ++ [n]) .dir))

/-- `shutil.copytree` to a place where nothing may be yet (tr 152). -/
def copyNew (f : Disk) (cs : Tree) (p : Path) : Disk × Bool :=
  if p.isEmpty || f.has p then (f, false)
  else if isDir f p.dropLast then (copyRaw cs p (f.put p .dir), true) else (f, false)

/-- `_render` (tr 132-161). `ig`: is the template file ignored? `rel`: where the template directory is in the template. The flag
tells whether there was no exception. After a directory that is preserved the loop ends (tr 153). -/
def render (j : Jinja) (ig : Path → Bool) : Tree → Path → Path → Disk → Disk × Bool
  | .nil, _, _, f => (f, true)
  | .file n t rest, rel, d, f =>
    if ig (rel ++ [n]) || (j.name n).isEmpty then render j ig rest rel d f
    else match placeFile j f n t d with
      | (f, true) => render j ig rest rel d f
      | (f, false) => (f, false)
  | .dir n cs rest, rel, d, f =>
    if ig (rel ++ [n]) || (j.name n).isEmpty then render j ig rest rel d f
    else match parents f (resolve d (j.name n)) with
      | (f, false) => (f, false)
      | (f, true) =>
        if cs.hasChild t!".templatepreserve" then copyNew f cs (resolve d (j.name n))
        else match mkdir f (resolve d (j.name n)) with
          | (f, false) => (f, false)
          | (f, true) => match render j ig cs (rel ++ [n]) (resolve d (j.name n)) f with
            | (f, true) => render j ig rest rel d f
            | (f, false) => (f, false)

/-- The text of a file in the directory. -/
def Tree.textOf (x : Text) : Tree → Option Text
  | .nil => none
  | .file n t rest => if n = x then some t else rest.textOf x
  | .dir _ _ rest => rest.textOf x

/-- The files that are not rendered by default (tr 118). -/
def defaultIgnored : List Path := [[t!"render.py"], [t!"__pycache__"], [t!".templateignore"]]

/-- `_load_ignored_files` (tr 117-130): an ignore file replaces the default, and its patterns count from every directory. -/
def ignored (j : Jinja) (t : Tree) (p : Path) : Bool :=
  match t.textOf t!".templateignore" with
  | none => defaultIgnored.contains p
  | some lines => (List.range p.length).any (fun i => j.glob lines (p.drop i))

/-- Is the path in the directory? -/
def inside (d p : Path) : Bool := d.isPrefixOf p && p ≠ d

/-- What is in a directory: `rglob("*")`, with relative paths (tr 108-109). -/
def listing (f : Disk) (d : Path) : List (Path × Item) :=
  (f.filter (fun x => inside d x.1)).map (fun x => (x.1.drop d.length, x.2))

/-- The check before copying (tr 108-111). -/
def conflict (f : Disk) (target : Path) (l : List (Path × Item)) : Bool :=
  l.any (fun x => match f.get (target ++ x.1) with | some (.file _) => true | _ => false)

/-- The directories of a copied tree (tr 113). -/
def copyDirs (target : Path) : List (Path × Item) → Disk → Disk × Bool
  | [], f => (f, true)
  | (_, .file _) :: l, f => copyDirs target l f
  | (r, .dir) :: l, f => match mkdirs f [] (target ++ r) with
    | (f, true) => copyDirs target l f
    | (f, false) => (f, false)

/-- The files of a copied tree (tr 113). -/
def copyFiles (target : Path) : List (Path × Item) → Disk → Disk × Bool
  | [], f => (f, true)
  | (_, .dir) :: l, f => copyFiles target l f
  | (r, .file t) :: l, f => match copyTo f (r.getLast?.getD []) (target ++ r) t with
    | (f, true) => copyFiles target l f
    | (f, false) => (f, false)

/-- Removing the temporary directory. -/
def removeAll (f : Disk) (d : Path) : Disk := f.filter (fun x => !d.isPrefixOf x.1)

/-- `shutil.copytree(tdir, target_dir, dirs_exist_ok=True)` (tr 113), with what is in `tdir`. -/
def copyOver (f : Disk) (target : Path) (l : List (Path × Item)) : Disk × Bool :=
  match mkdirs f [] target with
  | (f, false) => (f, false)
  | (f, true) => match copyDirs target l f with
    | (f, false) => (f, false)
    | (f, true) => copyFiles target l f

/-- `Template.execute` (tr 97-115). `tmp` is the new temporary directory. -/
def execute (j : Jinja) (t : Tree) (f : Disk) (tmp target : Path) (overwrite : Bool) : Disk × Bool :=
  if overwrite then render j (ignored j t) t [] target f
  else match render j (ignored j t) t [] tmp (f.put tmp .dir) with
    | (g, false) => (removeAll g tmp, false)
    | (g, true) =>
      if conflict g target (listing g tmp) then (removeAll g tmp, false)
      else (removeAll (copyOver g target (listing g tmp)).1 tmp, (copyOver g target (listing g tmp)).2)

end Pkm.Templates
