import Verif.Cli.Templates
import Verif.Cli.Tasks
/-
Model of the templates that `pkm new` offers and of the one that is found by a name:
pkm-cli/src/pkm_cli/api/templates/template_runner.py ("tr") and `pkm new` of pkm-cli/src/pkm_cli/main.py ("ma").

Modelled: the search of the namespace package `pkm_templates`, the file that a name leads to, the commands `pkm new` has.
The import is the one of `Cli/Tasks`. Left out: what a template does (see `Cli/Templates` and `Cli/NewProject`), and modules that
are no templates: every `render.py` has a `setup`.
-/
namespace Pkm.NewCommand
open Pkm.Templates Pkm.Tasks

def renderFile : Text := t!"render.py"

/-- `find` (tr 33-41): the namespaces of the templates below a namespace, by their parts. A file `render.py` ends the search:
what was found before is dropped. -/
def findIn : Tree → List Text → List (List Text) → List (List Text)
  | .nil, _, acc => acc
  | .file n _ rest, ns, acc => if n = renderFile then [ns] else findIn rest ns acc
  | .dir n cs rest, ns, acc => if n = renderFile then [ns] else findIn rest ns (acc ++ findIn cs (ns ++ [n]) [])

/-- `templates_in_namespace` (tr 30-44): the names without `pkm_templates.`. -/
def listed (t : Tree) : List Text :=
  (findIn t [t!"pkm_templates"] []).map (fun ns => (Tasks.dots ns).drop (t!"pkm_templates.").length)

/-- What `load_template` ends in. -/
inductive Loaded where
  | found (file : List Text)
  /-- `FileNotFoundError`. -/
  | missing
  /-- `AttributeError`: `spec_from_file_location` is called without a location and gives `None`. -/
  | broken
  deriving DecidableEq, Repr

/-- `load_template` (tr 46-64). `here`: the files below the working directory; `path`: the directories of modules. A name with
an empty part cannot be imported: `find` gives an error or nothing. -/
def load (here : List Text → Bool) (path : List Entry) (name : Text) : Loaded :=
  if here (splitOn '.' (under name) ++ [renderFile]) then .broken
  else match find path (t!"pkm_templates" :: splitOn '.' (under name) ++ [t!"render"]) with
    | .file f => .found f
    | _ => .missing

/-- The commands of `pkm new` (ma 111-124), each with its name and the file of its template; `none`: an exception. -/
def loadAll (here : List Text → Bool) (path : List Entry) : List Text → Option (List (Text × List Text))
  | [] => some []
  | n :: ns => match load here path n with
    | .found f => (loadAll here path ns).map (fun l => (n, f) :: l)
    | _ => none

/-- `pkm_new` (ma 111-124): `arg` is the argument after `pkm new`. -/
def pkmNew (here : List Text → Bool) (path : List Entry) (t : Tree) (arg : Option Text) : Option (List (Text × List Text)) :=
  match arg with
  | none => loadAll here path (listed t)
  | some [] => loadAll here path (listed t)
  | some (c :: cs) =>
    match load here path (c :: cs) with
    | .found f => some [(c :: cs, f)]
    | _ =>
      if ((listed t).filter (fun n => (c :: cs).isPrefixOf n)).isEmpty then loadAll here path (listed t)
      else loadAll here path ((listed t).filter (fun n => (c :: cs).isPrefixOf n))

end Pkm.NewCommand
