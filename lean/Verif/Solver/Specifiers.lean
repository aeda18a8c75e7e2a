import Verif.Solver.Model
import Verif.Specifier.Model
/-
The solver with the versions and specifiers of the code (Version/Model.lean, Specifier/Model.lean).
-/
namespace Pkm
namespace Solver

/-- An exception of a specifier operation ends `solve`. -/
def liftSpec {α} : Except Pkm.Err α → Except Err α
  | .ok a => .ok a
  | .error _ => .error .spec

/-- The `StandardVersion`s of the bounds (`cast` at pg 708-714 checks nothing; `get_versions` gives standard
versions). -/
def stdOf : Option Ver → Option SV
  | some (.std v) => some v
  | _ => none

/-- The specifier operations of version_specifiers.py. -/
def specifiers : Alg Ver VSpec where
  allows := VSpec.allows
  inter a b := liftSpec (VSpec.inter a b)
  union a b := liftSpec (VSpec.unionWith a b)
  inverse a := liftSpec (VSpec.inverse a)
  allowsAny a b := liftSpec (VSpec.allowsAny a b)
  allowsAll a b := liftSpec (VSpec.allowsAll a b)
  same := VSpec.eqv
  isNone := VSpec.isNone
  all := .all
  single v := .vmatch v true
  range lo hi incl := liftSpec (VSpec.createRange (stdOf lo) (stdOf hi) false incl)
  nonStandard
    | .vmatch v true => if v.isStd then none else some v
    | _ => none
  lt := Ver.lt

end Solver
end Pkm
