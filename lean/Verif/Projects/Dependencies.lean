import Verif.Requirements.Model
/-
Model of the dependencies of a project: pkm/src/pkm/api/projects/pyproject_configuration.py ("pp"),
pkm/src/pkm/api/projects/project.py ("pr") and `is_applicable_for` of pkm/src/pkm/api/dependencies/dependency.py ("de").
-/
namespace Pkm.Projects
open Markers Reqs

/-- One group name of the pattern against the start of a text (pp 197). The name is put into the pattern unescaped, so a dot
stands for any character but a line feed. Simplification: names of letters, digits, `_`, `-` and `.` (`Spec.ExtraGroup`); other
names are patterns this function does not model. -/
def matchGroup : Text → Text → Option Text
  | [], t => some t
  | _ :: _, [] => none
  | g :: gs, c :: t =>
    if g = '.' then if c = '\n' then none else matchGroup gs t
    else if g = c then matchGroup gs t else none

/-- `'{group}'` or `"{group}"` (pp 197). -/
def matchQuoted (g : Text) : Text → Bool
  | '\'' :: t => match matchGroup g t with
    | some ('\'' :: _) => true
    | _ => false
  | '"' :: t => match matchGroup g t with
    | some ('"' :: _) => true
    | _ => false
  | _ => false

/-- `extra_rx.match(text)` (pp 197, 199). -/
def namesExtra (g t : Text) : Bool :=
  match matchLit ['e', 'x', 't', 'r', 'a'] t with
  | none => false
  | some t1 => match matchLit ['=', '='] (skipWs t1) with
    | none => false
    | some t2 => matchQuoted g (skipWs t2)

/-- `text.rstrip(';')` (pp 200). -/
def rstripSemi (t : Text) : Text := (t.reverse.dropWhile (· == ';')).reverse

/-- `f"{new_marker}extra==\'{od_group}\'"` (pp 201). -/
def extraClause (g : Text) : Text := ['e', 'x', 't', 'r', 'a', '=', '=', '\''] ++ g ++ ['\'']

/-- The text of the new marker (pp 200-201). -/
def newMarkerText (g : Text) : Option EnvMarker → Text
  | none => extraClause g
  | some m => rstripSemi m.expr ++ ';' :: extraClause g

/-- Is the marker left as it is (pp 199)? -/
def keepsMarker (g : Text) : Option EnvMarker → Bool
  | none => false
  | some m => namesExtra g m.expr

/-- One dependency of an optional group (pp 199-204). -/
def optionalDep (g : Text) (d : Dep) : Except MErr Dep :=
  if keepsMarker g d.marker then .ok d
  else (parseMarker (newMarkerText g d.marker)).map (fun m => { d with marker := some m })

/-- The dependencies of one group (pp 198-204). -/
def groupDeps (g : Text) : List Dep → Except MErr (List Dep)
  | [] => .ok []
  | d :: ds => match optionalDep g d with
    | .error e => .error e
    | .ok d' => (groupDeps g ds).map (d' :: ·)

/-- The loop over the groups (pp 196-204). -/
def optionalDeps : List (Text × List Dep) → Except MErr (List Dep)
  | [] => .ok []
  | (g, ds) :: gs => match groupDeps g ds with
    | .error e => .error e
    | .ok l => (optionalDeps gs).map (l ++ ·)

/-- `all_dependencies` (pp 192-205). -/
def allDependencies (deps : List Dep) (optional : List (Text × List Dep)) : Except MErr (List Dep) :=
  (optionalDeps optional).map (deps ++ ·)

/-- `is_applicable_for` (de 39-40). -/
def isApplicable (c : Ctx) (d : Dep) : Except MErr Bool :=
  match d.marker with
  | none => .ok true
  | some m => m.evaluate c

/-- `[d for d in all_deps if d.is_applicable_for(target.env, extras)]` (pr 111). -/
def applicable (c : Ctx) : List Dep → Except MErr (List Dep)
  | [] => .ok []
  | d :: ds => match isApplicable c d with
    | .error e => .error e
    | .ok true => (applicable c ds).map (d :: ·)
    | .ok false => applicable c ds

/-- `Project.dependencies` (pr 101-111) of a project whose dependencies are not dynamic. `c` holds the markers of the
environment and the requested extras (`None` counts as the empty list). -/
def projectDependencies (c : Ctx) (deps : List Dep) (optional : List (Text × List Dep)) : Except MErr (List Dep) :=
  match allDependencies deps optional with
  | .error e => .error e
  | .ok all => applicable c all

end Pkm.Projects
