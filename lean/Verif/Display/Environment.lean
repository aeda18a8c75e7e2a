import Verif.Install.Graph
import Verif.Tags.Model
/-
Model of the report about an environment, pkm-cli/src/pkm_cli/reports/environment_report.py ("er" below).

Modelled: the packages that are listed and what the report says about each of them, `EnvironmentReport.display` up to the
section "Installed Packages" and `_PackageInfo.display`. Not modelled: the other sections, colours.
-/
namespace Pkm
namespace Reports
open Install

/-- A dependency that applies to the environment: `package_name_key`, its text, and which versions it allows. -/
structure Dep where
  key : Text
  text : Text
  allows : Text → Bool

/-- An installed package (er 37-40): `name_key`, `name`, the text of its version and of the user's request, whether it is
the package of a container (package_containers.py 89-92), the dependencies that apply to the environment
(site_packages.py 180-183), and the name keys of those that do not. -/
structure Installed where
  key : Text
  name : Text
  version : Text
  request : Option Text
  container : Bool := false
  deps : List Dep := []
  otherDeps : List Text := []

/-- `_PackageInfo` (er 82-86). -/
structure PkgInfo where
  pkg : Installed
  requiredBy : List Installed := []
  missing : List Dep := []

/-- `containers` (er 34-37). -/
def containers (site : List Installed) : Dict Text Installed := dictBy Installed.key (site.filter (·.container))

/-- `installed_packages` (er 39-43). -/
def packages (site : List Installed) : List PkgInfo :=
  (Dict.values (dictBy Installed.key (site.filter (fun p => !Dict.has (containers site) p.key)))).map (fun p => { pkg := p })

/-- A change of the entry of one package. -/
def change (infos : List PkgInfo) (key : Text) (f : PkgInfo → PkgInfo) : List PkgInfo :=
  infos.map (fun i => if i.pkg.key = key then f i else i)

/-- One dependency (er 47-52): the entries are objects that are changed in place. -/
def visit (infos : List PkgInfo) (p : Installed) (d : Dep) : List PkgInfo :=
  match infos.find? (fun i => i.pkg.key == d.key) with
  | some _ => change infos d.key (fun q => { q with requiredBy := q.requiredBy ++ [p] })
  | none => change infos p.key (fun i => { i with missing := i.missing ++ [d] })

/-- The loops over packages and dependencies (er 45-52). -/
def visitAll (infos : List PkgInfo) (ps : List Installed) : List PkgInfo :=
  ps.foldl (fun infos p => p.deps.foldl (fun infos d => visit infos p d) infos) infos

/-- The entries after the loops. -/
def infos (site : List Installed) : List PkgInfo := visitAll (packages site) ((packages site).map (·.pkg))

/-- `pacakages_to_show` (er 54-55). -/
def toShow (all : Bool) (site : List Installed) : List PkgInfo := (infos site).filter (fun i => all || i.pkg.request.isSome)

/-- `', '.join`. -/
def commas : List Text → Text
  | [] => []
  | [t] => t
  | t :: u :: ts => t ++ (t!", " ++ commas (u :: ts))

/-- The reason for a package (er 90-96). -/
def reason (i : PkgInfo) : Text :=
  match i.pkg.request with
  | some r => t!"required by the user (" ++ (r ++ t!")")
  | none =>
    match i.requiredBy with
    | [] => t!"(orphan)"
    | qs => t!"required by: " ++ commas (qs.map (·.name))

/-- `_PackageInfo.display` (er 88-102). -/
def lines (i : PkgInfo) : List Text :=
  (t!" + " ++ (i.pkg.name ++ (' ' :: (i.pkg.version ++ (t!", " ++ reason i))))) ::
    match i.missing with
    | [] => []
    | ds => t!"* WARNING: this package has missing dependencies: " :: ds.map (fun d => t!"  - " ++ d.text)

/-- The section "Installed Packages" (er 57-60). -/
def section_ (all : Bool) (site : List Installed) : List Text := (toShow all site).flatMap lines

/-- A package as the package graph sees it. -/
def nodeOf (p : Installed) : GNode where
  key := p.key
  requested := p.request.isSome
  deps := p.deps.map (fun d => (d.key, true)) ++ p.otherDeps.map (fun k => (k, false))

/-- The same site as the package graph of `find_orphan_packages` sees it (site_packages.py 101-118). -/
def graphOf (site : List Installed) : SiteG := site.map (fun p => (p.key, nodeOf p))

end Reports
end Pkm
