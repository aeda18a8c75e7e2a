import Verif.Specifier.Model
import Verif.Version.Spec
/-
Vocabulary for the specifier properties: which specifiers and versions the theorems range over.
-/
namespace Pkm.Spec

/-- A version without local label and without an explicit `0!` epoch. -/
def Plain (v : SV) : Prop := v.release ≠ [] ∧ v.epoch ≠ some 0 ∧ v.loc = none

/-- A plain version that is not a post release. -/
def Candidate (v : SV) : Prop := Plain v ∧ v.post = none

/-- A version of any class; if it is a standard version it is plain. -/
def PlainVer (v : Ver) : Prop := ∀ s, v = .std s → Plain s

/-- Both ends plain and the invariants that `StandardVersionRange` asserts on construction. -/
structure RangeOk (min max : Option SV) (imin imax : Bool) : Prop where
  plainMin : ∀ s, min = some s → Plain s
  plainMax : ∀ s, max = some s → Plain s
  some : min.isSome = true ∨ max.isSome = true
  inclMin : imin = true → min.isSome = true
  inclMax : imax = true → max.isSome = true
  ordered : ∀ a b, min = Option.some a → max = Option.some b → a.lt b = true

/-- One contiguous block: everything, a range, or a single standard version. -/
inductive Block : VSpec → Prop
  | all : Block .all
  | range (min max imin imax) : RangeOk min max imin imax → Block (.range min max imin imax)
  | one (s) : Plain s → Block (.vmatch (.std s) true)

/-- The specifiers built from clauses other than `!=X.*`: nothing, a block, a (non-)match, or a block
minus a finite set of versions. -/
inductive Conj : VSpec → Prop
  | none : Conj .none
  | block (b) : Block b → Conj b
  | vmatch (v allow) : PlainVer v → Conj (.vmatch v allow)
  | minus (bl b) : bl ≠ [] → (b = .all → 2 ≤ bl.length) → (∀ v, v ∈ bl → PlainVer v) → Block b →
      Conj (.hetro bl b)

/-- `w` satisfies the lower bound. -/
def AboveMin (min : Option SV) (imin : Bool) (w : SV) : Prop :=
  ∀ m, min = some m → m.lt w = true ∨ (imin = true ∧ m.eqv w = true)

/-- `w` satisfies the upper bound. -/
def BelowMax (max : Option SV) (imax : Bool) (w : SV) : Prop :=
  ∀ m, max = some m → w.lt m = true ∨ (imax = true ∧ m.eqv w = true)

/-- `r` allows exactly the candidates satisfying `p`. -/
def AllowsExactly (r : VSpec) (p : SV → Prop) : Prop :=
  ∀ w, Candidate w → (r.allows (.std w) = true ↔ p w)

end Pkm.Spec

namespace Pkm.Spec

/-- Lower end of a block with its inclusion flag. -/
def blockMin : VSpec → Option SV × Bool
  | .range m _ i _ => (m, i)
  | .vmatch (.std s) true => (some s, true)
  | _ => (none, false)

/-- Upper end of a block with its inclusion flag. -/
def blockMax : VSpec → Option SV × Bool
  | .range _ M _ I => (M, I)
  | .vmatch (.std s) true => (some s, true)
  | _ => (none, false)

/-- The upper end `hi` lies below the lower end `lo`, leaving at least one point out. -/
def Gap (hi lo : Option SV × Bool) : Prop :=
  ∃ x y, hi.1 = some x ∧ lo.1 = some y ∧
    (x.lt y = true ∨ (x.eqv y = true ∧ hi.2 = false ∧ lo.2 = false))

/-- Two blocks with a gap between them. -/
def Apart (a b : VSpec) : Prop := Gap (blockMax a) (blockMin b) ∨ Gap (blockMax b) (blockMin a)

/-- Nothing, one block, or several blocks with gaps between them: the specifiers built from clauses
without `!=v`, but including `!=X.*`. -/
inductive Region : VSpec → Prop
  | none : Region .none
  | block (b) : Block b → Region b
  | union (segs) : 2 ≤ segs.length → (∀ s, s ∈ segs → Block s) → segs.Pairwise Apart →
      Region (.union segs)

end Pkm.Spec

namespace Pkm.Spec

/-- The first range starts no later and ends no later than the second; if they start at the same
version the first is inclusive only if the second is. -/
def Staggered (m1 M1 : Option SV) (i1 : Bool) (m2 M2 : Option SV) (i2 : Bool) : Prop :=
  (∀ y, m2 = some y → m1 = none ∨ ∃ x, m1 = some x ∧
    (x.lt y = true ∨ (x.eqv y = true ∧ (i1 = true → i2 = true)))) ∧
  (m2 = none → m1 = none) ∧
  (∀ y, M2 = some y → ∃ x, M1 = some x ∧ (x.lt y = true ∨ x.eqv y = true))

/-- Nothing, everything, a (non-)match of one version, or a range. -/
inductive Simple : VSpec → Prop
  | none : Simple .none
  | all : Simple .all
  | vmatch (v allow) : PlainVer v → Simple (.vmatch v allow)
  | range (min max imin imax) : RangeOk min max imin imax → Simple (.range min max imin imax)

end Pkm.Spec
