import Verif.Cli.Templates
import Verif.Names.Model
import Verif.Toml.Model
/-
Model of the templates that come with pkm: pkm-cli/src/pkm_templates. "rp" is project/render.py, "pt" is
project/{{project_name}}/pyproject.toml.tmpl.

Simplifications:
* Of jinja the expressions `{{name}}` are modelled: the templates that come with pkm have no others. A name that is not in the
  context is rendered to nothing, and the line feed at the end of a template is dropped (the defaults of jinja).
* The answers are texts; the question for the readme is answered by one of its two options (rp 34).
* `post_render` (rp 46-49), which registers the project in a group, is not modelled.
-/
namespace Pkm.NewProject
open Pkm.Templates

/-- What `setup` returned: the variables that are texts. -/
abbrev Context := List (Text × Text)

/-- The value of a variable; nothing if it is undefined. -/
def valueOf (ctx : Context) (n : Text) : Text := (Dict.get ctx n).getD []

/-- A template with `{{name}}` replaced; within the braces the state has the name so far, reversed. -/
def fill (ctx : Context) : Option Text → Text → Text
  | _, [] => []
  | none, '{' :: '{' :: r => fill ctx (some []) r
  | none, c :: r => c :: fill ctx none r
  | some acc, '}' :: '}' :: r => valueOf ctx acc.reverse ++ fill ctx none r
  | some acc, c :: r => fill ctx (some (c :: acc)) r

/-- The text without a line feed at its end. -/
def chomp (t : Text) : Text := if t.getLast? = some '\n' then t.dropLast else t

/-- `from_string(..).render(context)` (template_runner.py 140, 159). -/
def jinja (ctx : Context) : Jinja where
  name := fun n => fill ctx none (chomp n)
  body := fun t => fill ctx none (chomp t)
  glob := fun _ _ => false

/-- pt, as it is. -/
def pyprojectTmpl : Text :=
  t!"[project]\n" ++
  t!"name = \"{{project_name}}\"\n" ++
  t!"version = \"{{version}}\"\n" ++
  t!"description = \"{{description}}\"\n" ++
  t!"readme = \"README.{{readme_file_ext}}\"\n" ++
  t!"requires-python= \"~={{required_python}}\"\n" ++
  t!"authors = [{name=\"{{author}}\"}]\n" ++
  t!"license.text = \"{{license}}\"\n" ++
  t!"dependencies = []\n" ++
  t!"\n" ++
  t!"[build-system]\n" ++
  t!"requires=[\"pkm\"]\n" ++
  t!"build-backend = \"pkm.api.buildsys\"\n"

/-- project/{{project_name}}/src/{{package_name}}/main.py.tmpl. -/
def mainTmpl : Text := t!"if __name__ == '__main__':\n    print(\"Hello {{project_name}}\")\n"

/-- The files of the template `project`; the other files of it are empty. -/
def projectTree : Tree :=
  .file t!"render.py" t!"..." <|
  .dir t!"{{project_name}}"
    (.file t!"pyproject.toml.tmpl" pyprojectTmpl <|
     .file t!"README.{{readme_file_ext}}" [] <|
     .dir t!"src"
      (.dir t!"{{package_name}}"
        (.file t!"__init__.py" [] <| .file t!"main.py.tmpl" mainTmpl .nil)
        .nil)
      .nil)
    .nil

/-- The answers to the questions of `setup` (rp 30-42). -/
structure Answers where
  projectName : Text
  version : Text
  description : Text
  markdown : Bool
  requiredPython : Text
  author : Text
  license : Text

/-- `setup` of the template `project` (rp 22-43): its `locals()`. `none`: the name cannot be normalized (rp 31). -/
def setup (a : Answers) : Option Context :=
  match srcPackageName a.projectName with
  | none => none
  | some p => some [
      (t!"project_name", a.projectName),
      (t!"required_python", a.requiredPython),
      (t!"package_name", p),
      (t!"version", a.version),
      (t!"description", a.description),
      (t!"readme_type", if a.markdown then t!"Markdown" else t!"reStructuredText"),
      (t!"readme_file_ext", if a.markdown then t!"md" else t!"rst"),
      (t!"author", a.author),
      (t!"license_text", a.license)]

/-- `pkm new project` without `--overwrite`: the disk afterwards, and whether there was no exception. -/
def newProject (a : Answers) (f : Disk) (tmp target : Path) : Disk × Bool :=
  match setup a with
  | none => (f, false)
  | some ctx => execute (jinja ctx) projectTree f tmp target false

/-- envzoo/{{zoo_name}}/env-zoo.toml.tmpl. -/
def zooTmpl : Text := t!"[package-sharing]\nenabled={{package_sharing_enabled_v}}\n"

/-- `setup` of the template `envzoo` (envzoo/render.py 5-10). -/
def zooSetup (name : Text) (sharing : Bool) : Context :=
  [(t!"zoo_name", name), (t!"package_sharing_enabled_v", if sharing then t!"true" else t!"false")]

/-- pgroup/{{group_name}}/pyproject-group.toml.tmpl. -/
def groupTmpl : Text := t!"[project-group]\nchildren=[]\n\n\n"

end Pkm.NewProject
