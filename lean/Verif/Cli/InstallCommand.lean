import Verif.Tags.Model
/-
Model of `pkm install`: `pkm_install` of pkm-cli/src/pkm_cli/main.py ("ma" 127-199).

What the command does is a list of actions on what it works on; the actions themselves are modelled elsewhere (bindings:
Repos; removal and installation: Install; the project's file: Projects). `args` is no name of the module: looking it up
ends in a `NameError`.
-/
namespace Pkm.InstallCmd

/-- The options (ma 127-141); `repo` and `unnamedRepo`: given or not. -/
structure Opts where
  optional : Bool := false
  force : Bool := false
  app : Bool := false
  update : Bool := false
  repo : Bool := false
  unnamedRepo : Bool := false
  deriving DecidableEq, Repr

inductive Act where
  /-- Packages are bound to a repository. -/
  | bind (names : List Text)
  /-- A package is removed whatever depends on it. -/
  | remove (name : Text)
  | install (names : List Text) (update : Bool)
  | installProject
  | container (name : Text) (update : Bool)
  deriving DecidableEq, Repr

inductive Out where
  | ok
  | unsupported
  | nameError
  deriving DecidableEq, Repr

/-- `register_repo_bindings` (ma 150-159): what is done, whether `force` is set now, and whether it ends in a
`NameError`. A binding is never equal to a repository. -/
def register (o : Opts) (deps : List Text) : List Act × Bool × Bool :=
  if o.repo then
    if deps.isEmpty then ([], o.force, false) else ([.bind deps], true, false)
  else if o.unnamedRepo then ([], o.force, true)
  else ([], o.force, false)

/-- `force` (ma 161-164). -/
def removals (force : Bool) (deps : List Text) : List Act := if force then deps.map .remove else []

/-- `on_project` (ma 166-177). -/
def onProject (o : Opts) (deps : List Text) : List Act × Out :=
  match register o deps with
  | (acts, _, true) => (acts, .nameError)
  | (acts, force, false) =>
    if o.app then (acts, .unsupported)
    else (acts ++ removals force deps ++ [if deps.isEmpty then .installProject else .install deps o.update], .ok)

/-- The packages besides the application (ma 192-197): `args.update` is looked up after the removals. -/
def installRest (acts : List Act) (force : Bool) (deps : List Text) : List Act × Out :=
  if deps.isEmpty then (acts, .ok) else (acts ++ removals force deps, .nameError)

/-- `on_environment` (ma 179-197). -/
def onEnvironment (o : Opts) (deps : List Text) : List Act × Out :=
  match register o deps with
  | (acts, _, true) => (acts, .nameError)
  | (acts, force, false) =>
    if o.optional then (acts, .unsupported)
    else match deps with
      | [] => (acts, .ok)
      | d :: ds =>
        if o.app then installRest (acts ++ [.container d (o.update && ds.isEmpty)]) force ds
        else installRest acts force (d :: ds)

end Pkm.InstallCmd
