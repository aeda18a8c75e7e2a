import Verif.Text
/-
Model of project groups: pkm/src/pkm/api/projects/project_group.py ("pg").

A directory is the list of its components from the root. Simplifications: paths of directories are resolved; groups with an
explicit `parent` in their configuration and projects with an explicit `group` are left out; a configuration that cannot be
read is left out.
-/
namespace Pkm.Projects

/-- A directory. -/
abbrev Dir := List Text

/-- The file system as far as groups see it: the project name in the pyproject.toml of a directory, the entries of `children`
in its pyproject-group.toml, and `base.joinpath(entry).resolve()`. -/
structure Tree where
  project : Dir → Option Text
  group : Dir → Option (List Text)
  resolve : Dir → Text → Dir

/-- `resolved_children` (pg 181-183); a configuration that does not exist is empty. -/
def Tree.listed (t : Tree) (g : Dir) : List Dir := ((t.group g).getD []).map (t.resolve g)

/-- An element of `children`. -/
inductive Child where
  | project (d : Dir)
  | group (d : Dir)
  deriving DecidableEq

/-- One entry of `children` (pg 80-84). `.exists` in pg 82 is not called, so everything that is no project counts as a group. -/
def Tree.child (t : Tree) (d : Dir) : Child := if (t.project d).isSome then .project d else .group d

/-- `children` (pg 73-86). -/
def Tree.children (t : Tree) (g : Dir) : List Child := (t.listed g).map t.child

/-- The loop of `project_children_recursive` (pg 94-101) with the recursive calls as a parameter. -/
def gather (rec : Dir → Option (List Dir)) : List Child → Option (List Dir)
  | [] => some []
  | .project d :: cs => (gather rec cs).map (d :: ·)
  | .group d :: cs => match rec d with
    | none => none
    | some l => (gather rec cs).map (l ++ ·)

/-- `project_children_recursive` (pg 88-101); `none` is `RecursionError` with that depth of the stack. -/
def Tree.projects (t : Tree) : Nat → Dir → Option (List Dir)
  | 0, _ => none
  | n + 1, g => gather (t.projects n) (t.children g)

/-- `path.parents`, the nearest first. -/
def parents (d : Dir) : List Dir := (List.range d.length).reverse.map (fun n => d.take n)

/-- The condition of `_find_group` (pg 141-143). -/
def Tree.lists (t : Tree) (d path : Dir) : Bool :=
  match t.group d with
  | none => false
  | some es => (es.map (t.resolve d)).contains path

/-- `_find_group` (pg 138-145). -/
def Tree.findGroup (t : Tree) (path : Dir) : Option Dir := (parents path).find? (fun d => t.lists d path)

/-- `root` (pg 66-71). The parent is further up, so the depth of the path bounds the number of steps. -/
def Tree.rootFrom (t : Tree) : Nat → Dir → Option Dir
  | 0, _ => none
  | n + 1, g => match t.findGroup g with
    | some p => t.rootFrom n p
    | none => none

/-- `root` (pg 66-71). -/
def Tree.root (t : Tree) (g : Dir) : Option Dir := t.rootFrom (g.length + 1) g

/-! ### changing a group -/

/-- A group object: its directory, the entries of its configuration, which are saved with every change, and the cached value of
`children` (pg 73, utils/properties.py 13-57). -/
structure GroupObj where
  dir : Dir
  entries : List Text
  cached : Option (List Child)

/-- `group.children` (pg 73-86): computed once. -/
def GroupObj.children (t : Tree) (g : GroupObj) : List Child × GroupObj :=
  match g.cached with
  | some l => (l, g)
  | none =>
    let l := (g.entries.map (t.resolve g.dir)).map t.child
    (l, { g with cached := some l })

/-- `add` (pg 103-111). -/
def GroupObj.add (g : GroupObj) (path : Text) : GroupObj := { g with entries := g.entries ++ [path] }

/-- The filter of `remove` (pg 123-124). -/
def GroupObj.removeDir (t : Tree) (g : GroupObj) (d : Dir) : GroupObj :=
  { g with entries := g.entries.filter (fun e => decide (t.resolve g.dir e ≠ d)) }

/-- `remove` with a path (pg 121-125); `path.resolve()` starts at the working directory. -/
def GroupObj.remove (t : Tree) (cwd : Dir) (g : GroupObj) (path : Text) : GroupObj := g.removeDir t (t.resolve cwd path)

/-- `p.name` (pg 119): groups have no such attribute. -/
inductive NameErr where
  | attribute
  | value
  deriving DecidableEq, Repr

/-- `single_or_raise(p for p in self.children if p.name == name)` (pg 119, iterators.py 56-84): the children are looked at until
a second one matches. -/
def singleNamed (t : Tree) (name : Text) : Option Dir → List Child → Except NameErr Dir
  | none, [] => .error .value
  | some d, [] => .ok d
  | _, .group _ :: _ => .error .attribute
  | found, .project d :: cs =>
    if t.project d = some name then
      match found with
      | none => singleNamed t name (some d) cs
      | some _ => .error .value
    else singleNamed t name found cs

/-- `remove` with a name (pg 118-125); the directory of a child is resolved already. -/
def GroupObj.removeNamed (t : Tree) (g : GroupObj) (name : Text) : Except NameErr GroupObj :=
  match singleNamed t name none (g.children t).1 with
  | .error e => .error e
  | .ok d => .ok ((g.children t).2.removeDir t d)

end Pkm.Projects
