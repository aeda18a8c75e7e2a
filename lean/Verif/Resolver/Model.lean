import Verif.Solver.Model
import Verif.Names.Model
/-
Model of the dependency resolver, pkm/src/pkm/resolution/dependency_resolver.py ("dr" below), on top of the model
of the version solver.

The environment is fixed, and the repository answers every question in the same way each time. Simplifications:
`opened_packages` is looked at per package name (a repository lists packages of the name that was asked for, and
its lists contain no URL versions); a version that was never listed, as `x === main`, raises `KeyError` in the code
(dr 78) and counts as malformed here; threads and monitoring are left out.
-/
namespace Pkm
namespace Resolver
open Solver

/-- `_Pkg` (dr 116-119); equality of all fields. -/
structure RPkg where
  name : Text
  extras : Option (List Text)
  deriving DecidableEq, Repr

/-- `bool(pkg.extras)`. -/
def RPkg.hasExtras (p : RPkg) : Bool := !(p.extras.getD []).isEmpty

/-- `', '.join(..)`. -/
def commaJoin : List Text → Text
  | [] => []
  | [t] => t
  | t :: ts => t ++ [',', ' '] ++ commaJoin ts

/-- `_Pkg.__str__` (dr 121-125). -/
def RPkg.show (p : RPkg) : Text := if p.hasExtras then p.name ++ ['['] ++ commaJoin (p.extras.getD []) ++ [']'] else p.name

/-- `Dependency` (dependency.py 18-30); `applies x`: the value of the environment marker for the extras `x`
(`is_applicable_for`, dependency.py 39-40). -/
structure RDep (S : Type) where
  name : Text
  spec : S
  extras : Option (List Text) := none
  applies : List Text → Bool := fun _ => true

/-- `Package`: its descriptor, `is_compatible_with(env)`, and `dependencies(target, extras)`, which is `none` when
it raises `ValueError`, `IOError` or `BuildError`. -/
structure Obj (V S : Type) where
  name : Text
  version : V
  compatible : Bool := true
  dependencies : List Text → Option (List (RDep S))

/-- What `resolve_dependencies` is given (dr 22-23): the repository (`list`; the single answer of `match` to
`name @ url`, if there is one; `bool(match(name[extras] == version))`), the root and the overrides; with the
kinds of versions and their `==`. -/
structure Setting (V S : Type) where
  list : Text → List (Obj V S)
  matchUrl : Text → V → Option (Obj V S)
  matchVersion : Text → Option (List Text) → V → Bool
  root : RDep S
  overrides : Dict Text (RDep S)
  isStandard : V → Bool
  isUrl : V → Bool
  eqv : V → V → Bool

variable {V S : Type}

/-- `_Pkg.of` (dr 140-142). -/
def pkgOf (d : RDep S) : RPkg := ⟨lower d.name, d.extras⟩

/-- One step of `{p.version: p for p in ..}` (dr 105): the first key stays, the last value counts. -/
def putVersion (eqv : V → V → Bool) (o : Obj V S) : List (Obj V S) → List (Obj V S)
  | [] => [o]
  | x :: xs => if eqv x.version o.version then o :: xs else x :: putVersion eqv o xs

/-- `packages` of `get_versions` (dr 102-105). -/
def compatibles (s : Setting V S) (name : Text) : List (Obj V S) :=
  ((s.list name).filter (·.compatible)).foldl (fun acc o => putVersion s.eqv o acc) []

/-- `opened_packages[PackageDescriptor(name, v)]` after `get_versions` (dr 107-108, 71, 78, 46); the names of
descriptors are normalised (package.py 41-44). -/
def opened (s : Setting V S) (name : Text) (v : V) : Option (Obj V S) :=
  (compatibles s name).reverse.find? (fun o => s.eqv o.version v && descriptorName (lower o.name) = descriptorName name)

/-- The package of a version: for a URL version it is asked for (dr 74-78). -/
def objectOf (s : Setting V S) (name : Text) (v : V) : Option (Obj V S) :=
  if s.isUrl v then s.matchUrl name v else opened s name v

/-- The term of an applicable dependency (dr 94-97). -/
def termOf (s : Setting V S) (d : RDep S) : RPkg × S :=
  match s.overrides.get d.name with
  | some o => (pkgOf o, o.spec)
  | none => (pkgOf d, d.spec)

/-- `get_dependencies` after the package is there (dr 87-99). -/
def termsOf (alg : Alg V S) (s : Setting V S) (p : RPkg) (v : V) (ds : List (RDep S)) : List (RPkg × S) :=
  (if p.hasExtras then [(⟨p.name, none⟩, alg.single v)] else []) ++
    (ds.filter (fun d => d.applies (p.extras.getD []))).map (termOf s)

/-- `get_dependencies` (dr 70-99); `none` is `MalformedPackageException`. -/
def getDependencies (alg : Alg V S) (s : Setting V S) (p : RPkg) (v : V) : Option (List (RPkg × S)) :=
  match objectOf s p.name v with
  | none => none
  | some o =>
    match o.dependencies (p.extras.getD []) with
    | none => none
    | some ds => some (termsOf alg s p v ds)

/-- `_PkmPackageInstallationProblem` (dr 51-113). -/
def problem (alg : Alg V S) (s : Setting V S) : Problem RPkg V S where
  root := pkgOf s.root
  versions p := ((compatibles s p.name).filter (fun o => s.isStandard o.version)).map (·.version)
  deps p v := getDependencies alg s p v
  hasVersion p v := s.matchVersion p.name p.extras v
  strLe p q := !strLt q.show p.show

/-- The exceptions of `resolve_dependencies`. -/
inductive RErr where
  | solver (e : Solver.Err)
  /-- `KeyError` of the final lookup -/
  | key
  deriving DecidableEq, Repr

/-- The loop over the solution (dr 40-48). -/
def collect (s : Setting V S) : List (RPkg × V) → Except RErr (List (Obj V S))
  | [] => .ok []
  | (p, v) :: es =>
    if p.hasExtras then collect s es
    else
      match objectOf s p.name v with
      | none => .error .key
      | some o =>
        match collect s es with
        | .error e => .error e
        | .ok os => .ok (o :: os)

/-- `resolve_dependencies` (dr 22-48). -/
def resolve (alg : Alg V S) (s : Setting V S) (ch : Choices RPkg S) (fuel : Nat) : Except RErr (List (Obj V S)) :=
  match solve alg (problem alg s) ch fuel with
  | .error e => .error (.solver e)
  | .ok sol => collect s sol

end Resolver
end Pkm
