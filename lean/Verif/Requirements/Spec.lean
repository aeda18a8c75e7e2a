import Verif.Requirements.Model
import Verif.Markers.Props
/-
Specification for C50: which requirements can be printed and read back, and when two are the same.
-/
namespace Pkm.Reqs
open PS Markers Spec VSpec

/-- An identifier of a requirement: a letter or underscore followed by letters, digits, underscores,
dashes and dots. -/
def IdentOk (t : Text) : Prop :=
  ∃ c cs, t = c :: cs ∧ (isAlpha c = true ∨ c = '_') ∧ ∀ d, d ∈ cs → isIdent d = true

/-- Constraints whose text is faithful: none, `==v`, `!=v`, and ranges between versions in normal form
unless their text is an ambiguous `~=`. -/
inductive PlainSpec : VSpec → Prop
  | all : PlainSpec .all
  | vmatch (v : SV) (a : Bool) : Printable v → Plain v → PlainSpec (.vmatch (.std v) a)
  | range (min max : Option SV) (imin imax : Bool) : RangeOk min max imin imax →
      (∀ m, min = some m → Printable m) → (∀ m, max = some m → Printable m) →
      ¬ TildeAmbiguous min max → PlainSpec (.range min max imin imax)

/-- The text does not start with a blank that the requirement parser skips. -/
def NoLead (t : Text) : Prop := StartsNot (fun c => isSpace c && c != '\n') t

/-- A marker as the marker parser makes it: it has the text and the value of a well formed
expression, and no blank in front. -/
def MarkerOk (m : EnvMarker) : Prop :=
  NoLead m.expr ∧ ∃ gs, ExprOk gs ∧ m.expr = Markers.orText gs ∧ ∀ c, m.evaluate c = exprValue c gs

/-- The parts of a requirement that must hold of it to be written and read: the name is in normal form
and starts with a letter or underscore, a list of extras is not empty and has identifiers. -/
structure Writable (d : Dep) : Prop where
  normal : normalizeName d.name = some d.name
  first : ∃ c cs, d.name = c :: cs ∧ (isAlpha c = true ∨ c = '_')
  extras : ∀ es, d.extras = some es → es ≠ [] ∧ ∀ e, e ∈ es → IdentOk e
  marker : ∀ m, d.marker = some m → MarkerOk m

/-- The same requirement: same name, extras, constraint, and a marker with the same text and the same
value on every environment and list of extras. -/
structure SameReq (a b : Dep) : Prop where
  name : a.name = b.name
  extras : a.extras = b.extras
  spec : a.spec = b.spec
  text : a.marker.map (·.expr) = b.marker.map (·.expr)
  value : ∀ x y, a.marker = some x → b.marker = some y → ∀ c, x.evaluate c = y.evaluate c

end Pkm.Reqs
