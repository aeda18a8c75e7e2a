import Verif.Cli.InstallCommand
set_option linter.unusedSimpArgs false
/-
Theorems about `pkm install` (C88).
-/
namespace Pkm
open InstallCmd

/-- In a project, without `--app` and `-R`: the packages are bound to the repository that was named, removed if that was
asked for or if they are bound anew, and then installed; without packages the project is. -/
theorem project_install_partial (o : Opts) (deps : List Text) (ha : o.app = false) (hr : o.unnamedRepo = false) :
    onProject o deps =
      ((if o.repo && !deps.isEmpty then [.bind deps] else []) ++ (if o.force || o.repo then deps.map .remove else [])
        ++ [if deps = [] then .installProject else .install deps o.update], .ok) := by
  cases deps with
  | nil => cases hrepo : o.repo <;> cases hf : o.force <;> simp [onProject, register, removals, ha, hr, hrepo, hf]
  | cons d ds => cases hrepo : o.repo <;> cases hf : o.force <;> simp [onProject, register, removals, ha, hr, hrepo, hf]

example : onProject { repo := true } [t!"a", t!"b"]
    = ([.bind [t!"a", t!"b"], .remove t!"a", .remove t!"b", .install [t!"a", t!"b"] false], .ok) := by decide

/-- In an environment `pkm install --app x` installs the application. -/
theorem app_install_partial (o : Opts) (d : Text) (ha : o.app = true) (ho : o.optional = false) (hr : o.unnamedRepo = false) :
    onEnvironment o [d] = ((if o.repo then [.bind [d]] else []) ++ [.container d o.update], .ok) := by
  cases hrepo : o.repo <;> simp [onEnvironment, register, installRest, ha, ho, hr, hrepo]

example : onEnvironment { app := true, update := true } [t!"a"] = ([.container t!"a" true], .ok) := by decide

/-- C88. An application that comes with further packages is installed in its container and is not updated, whatever the
options say; of the further packages none is installed (see `environment_install_violated`). -/
theorem app_install_several_partial (o : Opts) (d : Text) (ds : List Text) (hd : ds ≠ []) (ha : o.app = true)
    (ho : o.optional = false) (hr : o.unnamedRepo = false) :
    onEnvironment o (d :: ds) = ((if o.repo then [.bind (d :: ds)] else []) ++ [.container d false] ++
      (if o.force || o.repo then ds.map .remove else []), .nameError) := by
  cases ds with
  | nil => exact absurd rfl hd
  | cons e es =>
    cases hrepo : o.repo <;> cases hf : o.force <;>
      simp [onEnvironment, register, installRest, removals, ha, ho, hr, hrepo, hf]

example : onEnvironment { app := true, update := true } [t!"a", t!"b"] = ([.container t!"a" false], .nameError) := by decide

/-- The claim "`pkm install` installs the packages it is given" fails in every environment and for every choice of
options: unless there is a single application, nothing is installed and the command ends in a `NameError`. -/
theorem environment_install_violated (o : Opts) (d : Text) (ds : List Text) (ho : o.optional = false)
    (h : o.app = false ∨ ds ≠ []) :
    (onEnvironment o (d :: ds)).2 = .nameError ∧
      ∀ names u, Act.install names u ∉ (onEnvironment o (d :: ds)).1 := by
  cases ha : o.app <;> cases hrepo : o.repo <;> cases hr : o.unnamedRepo <;> cases hf : o.force <;> cases ds <;>
    simp_all [onEnvironment, register, installRest, removals]

/-- The claim "a package is removed by force only to be installed anew" fails: with `-f`, all the packages are removed
before the `NameError`. -/
theorem environment_force_violated (o : Opts) (deps : List Text) (hd : deps ≠ []) (ha : o.app = false)
    (ho : o.optional = false) (hr : o.unnamedRepo = false) (hrepo : o.repo = false) (hf : o.force = true) :
    onEnvironment o deps = (deps.map .remove, .nameError) := by
  cases deps with
  | nil => exact absurd rfl hd
  | cons d ds => simp [onEnvironment, register, installRest, removals, ha, ho, hr, hf, hrepo]

/-- The claim "a command that is refused changes nothing" fails: the packages are bound before `--app` is refused. -/
theorem refused_install_violated (o : Opts) (deps : List Text) (hd : deps ≠ []) (ha : o.app = true) (hrepo : o.repo = true) :
    onProject o deps = ([.bind deps], .unsupported) := by
  cases deps with
  | nil => exact absurd rfl hd
  | cons d ds => simp [onProject, register, ha, hrepo]

end Pkm
