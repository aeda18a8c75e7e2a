import Verif.Markers.Model
import Verif.Names.Model
/-
Model of pkm/src/pkm/api/dependencies/dependency.py (cited as "de"): a requirement line, its text and
its parser.
-/
namespace Pkm.Reqs
open PS Markers

/-- `Dependency` (de 18-30). `AllowAllVersions` is `VSpec.all`. -/
structure Dep where
  name : Text
  spec : VSpec := .all
  extras : Option (List Text) := none
  marker : Option EnvMarker := none

/-- `f"[{','.join(self.extras)}]" if self.extras else ''` (de 57). -/
def showExtras : Option (List Text) → Text
  | none => []
  | some [] => []
  | some (e :: es) => '[' :: (joinText [','] (e :: es) ++ [']'])

/-- `"" if self.version_spec is AllowAllVersions else f" {str(self.version_spec)}"` (de 59). -/
def showSpec : VSpec → Text
  | .all => []
  | s => ' ' :: s.show

/-- `f";{self.env_marker}" if self.env_marker else ''` (de 61). -/
def showMarker : Option EnvMarker → Text
  | none => []
  | some m => ';' :: m.expr

/-- `Dependency.__str__` (de 56-63). -/
def Dep.show (d : Dep) : Text := d.name ++ (showExtras d.extras ++ (showSpec d.spec ++ showMarker d.marker))

/-- Exceptions of the parser: those of the specifier and of the marker parser. -/
inductive DErr where
  | value
  | spec (e : PErr)
  | marker (e : MErr)

/-- `_read_identifier` (de 93-96). -/
def readIdent (p : PS) : Except DErr (Text × PS) :=
  if p.peekIs (fun c => isAlpha c || c == '_') then .ok (p.untilP (fun c => !isIdent c))
  else .error .value

/-- The loop of `_read_extras` (de 79-84). -/
def readExtraNames : Nat → List Text → PS → Except DErr (List Text × PS)
  | 0, acc, p => .ok (acc, p)
  | f + 1, acc, p =>
    match p.rest with
    | [] => .ok (acc, p)
    | _ :: _ =>
      match readIdent p.ws with
      | .error e => .error e
      | .ok (n, q) =>
        match q.ws.lit [','] with
        | none => .ok (acc ++ [n], q.ws)
        | some q' => readExtraNames f (acc ++ [n]) q'

/-- `_read_extras` (de 75-88); every round consumes a character. -/
def readExtras (p : PS) : Except DErr (List Text × PS) :=
  match p.lit ['['] with
  | none => .error .value
  | some q =>
    match readExtraNames (q.rest.length + 1) [] q with
    | .error e => .error e
    | .ok (es, q') => match q'.lit [']'] with
      | none => .error .value
      | some q'' => .ok (es, q'')

/-- The optional extras (de 108-111). -/
def readOptExtras (p : PS) : Except DErr (Option (List Text) × PS) :=
  if p.peekIs (· == '[') then
    match readExtras p with
    | .error e => .error e
    | .ok (es, q) => .ok (some es, q.ws)
  else .ok (none, p)

/-- The optional version specifier (de 113-116). -/
def readOptSpec (env : UrlEnv) (p : PS) : Except DErr (VSpec × PS) :=
  if p.peekIs (· == ';') then .ok (.all, p)
  else match readSpecifier env p with
    | .error e => .error (.spec e)
    | .ok (s, q) => .ok (s, q.ws)

/-- The optional marker (de 118-120); `self.match(";", '')` also skips blanks other than line feeds. -/
def readOptMarker (p : PS) : Except DErr (Option EnvMarker) :=
  match p.litWs [';'] with
  | none => .ok none
  | some (_, q) => match q.rest with
    | [] => .ok none
    | _ :: _ => match readMarker q.rest with
      | .error e => .error (.marker e)
      | .ok (m, _) => .ok (some m)

/-- `read_dependency` (de 101-122); what follows is ignored. -/
def readDependency (env : UrlEnv) (p : PS) : Except DErr Dep :=
  match readIdent p.ws with
  | .error e => .error e
  | .ok (n, p1) =>
    match normalizeName n with
    | none => .error .value
    | some name =>
      match readOptExtras p1.ws with
      | .error e => .error e
      | .ok (extras, p2) =>
        match readOptSpec env p2 with
        | .error e => .error e
        | .ok (spec, p3) =>
          match readOptMarker p3 with
          | .error e => .error e
          | .ok marker => .ok ⟨name, spec, extras, marker⟩

/-- `Dependency.parse` (de 68-70). -/
def parseDep (env : UrlEnv) (t : Text) : Except DErr Dep := readDependency env (.ofText t)

end Pkm.Reqs
