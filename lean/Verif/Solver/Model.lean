import Verif.Dict
import Verif.Sort
/-
Model of the version solver, pkm/src/pkm/resolution/pubgrub.py ("pg" below), for any packages `P`, versions `V`
and specifiers `S` with their operations.

`Incompatibility` objects are changed in place and compared by identity, so they live in a list (`St.incs`) and
are referred to by their index. Specifiers are values here; the code has one exception, `union_with` of two
`VersionsUnion`s empties the segments of its argument (see `union_mutates_argument_violated`). Not modelled:
monitoring, the texts of the causes and the report of an unsolvable problem.
-/
namespace Pkm
namespace Solver

/-- The exceptions of `solve`. -/
inductive Err where
  /-- `UnsolvableProblemException` -/
  | unsolvable
  /-- `AssertionError` -/
  | assertion
  /-- `IndexError` of `[0]` or `[-1]` on an empty list -/
  | index
  /-- `AttributeError` of a missing object -/
  | attribute
  /-- an exception of a specifier operation -/
  | spec
  /-- not an exception: the loops have not ended within the fuel -/
  | fuel
  deriving DecidableEq, Repr

/-- The operations on versions and specifiers (version_specifiers.py) that the solver uses. -/
structure Alg (V S : Type) where
  /-- `allows_version` -/
  allows : S → V → Bool
  /-- `intersect_with` -/
  inter : S → S → Except Err S
  /-- `union_with` -/
  union : S → S → Except Err S
  /-- `inverse` -/
  inverse : S → Except Err S
  /-- `a.allows_any(b)` -/
  allowsAny : S → S → Except Err Bool
  /-- `a.allows_all(b)` -/
  allowsAll : S → S → Except Err Bool
  /-- `==` -/
  same : S → S → Bool
  /-- `is RestrictAllVersions` -/
  isNone : S → Bool
  /-- `AllowAllVersions` -/
  all : S
  /-- `VersionMatch(v)` -/
  single : V → S
  /-- `VersionSpecifier.create_range(min_, max_, includes_max=..)` -/
  range : Option V → Option V → Bool → Except Err S
  /-- the version of a `VersionMatch` that allows a version that is not a `StandardVersion` -/
  nonStandard : S → Option V
  /-- `<` of versions -/
  lt : V → V → Bool

/-- `Term` (pg 42-45). -/
structure Term (P S : Type) where
  package : P
  constraint : S
  deriving DecidableEq, Repr

/-- `Assignment` (pg 87-96); `cause`: the index of the incompatibility. -/
structure Asg (P S : Type) where
  term : Term P S
  level : Nat
  order : Nat
  cause : Option Nat
  acc : S
  deriving DecidableEq, Repr

/-- `Incompatibility` (pg 276-283) and `DependencyIncompatibility` (pg 436-444): `dep` has `dependant`,
`dependency` and `added`. -/
structure Inc (P S : Type) where
  terms : List (Term P S)
  dep : Option (Term P S × Term P S × Bool)
  deriving DecidableEq, Repr

/-- `PackageDependency` (pg 522-525). -/
structure Dep (P S : Type) where
  package : P
  constraint : S
  inc : Option Nat
  deriving DecidableEq, Repr

/-- `_PackageVersion` (pg 467-473) without its dependencies: `index` is its place in `get_versions`, `none` for an
object that is made for one decision only (pg 765-766); `next` is an index. -/
structure PV (V S : Type) where
  index : Option Nat
  version : V
  range : S
  next : Option Nat
  deriving DecidableEq, Repr

/-- `Problem` (pg 528-557) with answers that do not change. `deps` is `none` for `MalformedPackageException`;
`strLe p q`: `str(p) <= str(q)`. -/
structure Problem (P V S : Type) where
  root : P
  versions : P → List V
  deps : P → V → Option (List (P × S))
  hasVersion : P → V → Bool
  strLe : P → P → Bool

/-- The choices that the iteration order of sets leaves open: `changed.pop()` (pg 610) and
`list(prior_cause_terms)` (pg 676), by the number of choices before. -/
structure Choices (P S : Type) where
  pop : Nat → List P → Nat
  arrange : Nat → List (Term P S) → List (Term P S)

/-- The state of the `Solver` (pg 562-571) with its `PartialSolution` (pg 103-108). `deps` has the dependencies of
the `_PackageVersion` objects that are fetched. -/
structure St (P V S : Type) where
  incs : List (Inc P S)
  byPackage : Dict P (List Nat)
  byOrder : List (Asg P S)
  asgs : Dict P (List (Asg P S))
  required : Dict P Nat
  decisions : Dict P (Asg P S × V)
  deps : Dict (P × Nat) (List (Dep P S))
  unavailable : Dict P Nat
  trouble : Dict P Nat
  tick : Nat

variable {P V S : Type} [DecidableEq P]

/-- What a check of an incompatibility gives (`IncompatibilitySatisfaction`, pg 207-218). -/
inductive Sat (P S : Type) where
  | unsatisfied
  | almost (undecided : Term P S)
  | full (satisfier : Asg P S) (prev : Option (Asg P S))
  deriving DecidableEq, Repr

namespace St

def empty : St P V S := ⟨[], [], [], [], [], [], [], [], [], 0⟩

/-- `assignments_by_package[p]` (a `defaultdict`). -/
def asgsOf (s : St P V S) (p : P) : List (Asg P S) := (s.asgs.get p).getD []

/-- `assignments_by_package[p][-1].accumulated`, if there is an assignment. -/
def lastAcc (s : St P V S) (p : P) : Option S := (s.asgsOf p).getLast?.map (·.acc)

/-- `_incompatibilities[p]`. -/
def incsOf (s : St P V S) (p : P) : List Nat := (s.byPackage.get p).getD []

/-- The object with this index; every index that occurs is valid. -/
def inc (s : St P V S) (i : Nat) : Inc P S := (s.incs[i]?).getD ⟨[], none⟩

/-- `_decision_level` (pg 127-128). -/
def decisionLevel (s : St P V S) : Nat := s.decisions.length - 1

/-- `undecided_packages` (pg 115-116). -/
def undecided (s : St P V S) : List P := s.required.keys.filter (fun p => !s.decisions.has p)

/-- `requiering_decision` (pg 130-135) for a required package. -/
def requiringDecision (s : St P V S) (p : P) : Except Err (Asg P S) :=
  match s.required.get p with
  | none => .error .assertion
  | some l =>
    match (s.decisions.values.map (·.1)).find? (fun a => a.level == l) with
    | some a => .ok a
    | none => .error .assertion

/-- `backtrack` (pg 137-161). -/
def backtrack (s : St P V S) (level : Nat) : St P V S :=
  { s with
    byOrder := s.byOrder.filter (fun a => a.level ≤ level)
    asgs := s.asgs.map (fun e => (e.1, e.2.filter (fun a => a.level ≤ level)))
    required := s.required.filter (fun e => e.2 ≤ level)
    decisions := s.decisions.filter (fun e => e.2.1.level ≤ level) }

/-- `require` (pg 163-167). -/
def require (s : St P V S) : List P → St P V S
  | [] => s
  | p :: ps =>
    if s.required.has p then require s ps
    else require { s with required := s.required.put p s.decisionLevel } ps

/-- `accumulated_constraint` (pg 175-177). -/
def accumulated (alg : Alg V S) (s : St P V S) (t : Term P S) : Except Err S :=
  match s.lastAcc t.package with
  | some a => alg.inter a t.constraint
  | none => pure t.constraint

/-- `make_assignment` (pg 172-184). -/
def makeAssignment (alg : Alg V S) (root : P) (s : St P V S) (t : Term P S) (cause : Option Nat) : Except Err (Asg P S) := do
  let acc ← s.accumulated alg t
  let level := if cause = none ∧ t.package ≠ root then s.decisionLevel + 1 else s.decisionLevel
  pure ⟨t, level, s.byOrder.length, cause, acc⟩

/-- Append to `assignments_by_package[..]`. -/
def push (s : St P V S) (a : Asg P S) : St P V S :=
  { s with asgs := s.asgs.put a.term.package (s.asgsOf a.term.package ++ [a]) }

/-- `assign` of a derived term (pg 186-198). -/
def derive (alg : Alg V S) (root : P) (s : St P V S) (t : Term P S) (cause : Nat) : Except Err (St P V S) := do
  let a ← s.makeAssignment alg root t (some cause)
  pure { s.push a with byOrder := s.byOrder ++ [a] }

/-- `assign` of a decision (pg 186-195); `v` is the version of its `VersionMatch`. -/
def decide (s : St P V S) (a : Asg P S) (v : V) : St P V S :=
  { s.push a with byOrder := s.byOrder ++ [a], decisions := s.decisions.put a.term.package (a, v) }

/-- A new `Incompatibility` object and its index. -/
def newInc (s : St P V S) (i : Inc P S) : St P V S × Nat := ({ s with incs := s.incs ++ [i] }, s.incs.length)

end St

/-- `Term.negate` (pg 47-48). -/
def Term.negate (alg : Alg V S) (t : Term P S) : Except Err (Term P S) := do
  let c ← alg.inverse t.constraint
  pure ⟨t.package, c⟩

/-- `==` of terms. -/
def Term.same (alg : Alg V S) (t u : Term P S) : Bool := t.package = u.package && alg.same t.constraint u.constraint

/-- `==` of incompatibilities (pg 327-328). -/
def sameTerms (alg : Alg V S) : List (Term P S) → List (Term P S) → Bool
  | [], [] => true
  | t :: ts, u :: us => t.same alg u && sameTerms alg ts us
  | _, _ => false

/-- `sorted(terms, key=lambda x: str(x.package))`. -/
def sortTerms (prob : Problem P V S) (ts : List (Term P S)) : List (Term P S) :=
  sortBy (fun t u => prob.strLe t.package u.package) ts

/-- The loop of `find_satisfier` (pg 234-243). `order_index` identifies the assignment: it is its place in
`_assignments_by_order`. -/
def scanSatisfier (alg : Alg V S) (c : S) (next : Option (Asg P S)) : List (Asg P S) → Except Err (Option (Asg P S))
  | [] => pure none
  | a :: as =>
    match next with
    | none => do
      if ← alg.allowsAll c a.acc then pure (some a) else scanSatisfier alg c next as
    | some n =>
      if a.order = n.order then pure none
      else do
        let r ← alg.inter a.acc n.term.constraint
        if ← alg.allowsAll c r then pure (some a) else scanSatisfier alg c next as

/-- `find_satisfier` (pg 228-244). -/
def findSatisfier (alg : Alg V S) (s : St P V S) (t : Term P S) (next : Option (Asg P S)) :
    Except Err (Option (Asg P S)) :=
  match s.lastAcc t.package with
  | none => pure none
  | some acc => do
    if ← alg.allowsAll t.constraint acc then scanSatisfier alg t.constraint next (s.asgsOf t.package) else pure none

/-- `argmax(.., key=order_index)`: the first of the largest; with the other elements. -/
def popMax : List (Asg P S) → Option (Asg P S × List (Asg P S))
  | [] => none
  | a :: as =>
    match popMax as with
    | none => some (a, [])
    | some (m, rest) => if a.order < m.order then some (m, a :: rest) else some (a, as)

/-- The requiring decision joins the satisfiers (pg 262-263). -/
def withRequiring (s : St P V S) (t : Term P S) (acc : List (Asg P S)) : Except Err (List (Asg P S)) :=
  if s.required.has t.package then do
    let d ← s.requiringDecision t.package
    pure (acc ++ [d])
  else pure acc

/-- An earlier assignment of the package of the satisfier joins the satisfiers (pg 265-267). -/
def withEarlier (alg : Alg V S) (s : St P V S) (satisfier : Asg P S) (t : Term P S) (acc : List (Asg P S)) :
    Except Err (List (Asg P S)) :=
  if t.package = satisfier.term.package then do
    match ← findSatisfier alg s t (some satisfier) with
    | some a => pure (acc ++ [a])
    | none => pure acc
  else pure acc

/-- The loop of `create_full` (pg 261-267). -/
def furtherSatisfiers (alg : Alg V S) (s : St P V S) (satisfier : Asg P S) :
    List (Term P S) → List (Asg P S) → Except Err (List (Asg P S))
  | [], acc => pure acc
  | t :: ts, acc => do
    let acc ← withRequiring s t acc
    let acc ← withEarlier alg s satisfier t acc
    furtherSatisfiers alg s satisfier ts acc

/-- `create_full` (pg 255-273). -/
def createFull (alg : Alg V S) (s : St P V S) (terms : List (Term P S)) (satisfiers : List (Asg P S)) :
    Except Err (Sat P S) :=
  match popMax satisfiers with
  | none => .error .index
  | some (satisfier, rest) => do
    let rest ← furtherSatisfiers alg s satisfier terms rest
    pure (.full satisfier ((popMax rest).map (·.1)))

/-- No assignment of the package excludes the term (pg 307-308). -/
def reachable (alg : Alg V S) (s : St P V S) (t : Term P S) : Except Err Bool :=
  match s.lastAcc t.package with
  | some acc => alg.allowsAny acc t.constraint
  | none => pure true

/-- The second loop of `check_satisfaction` (pg 305-322). -/
def checkTerms (alg : Alg V S) (s : St P V S) (terms : List (Term P S)) :
    List (Term P S) → Option (Term P S) → List (Asg P S) → Except Err (Sat P S)
  | [], some t, _ => pure (.almost t)
  | [], none, sats => createFull alg s terms sats
  | t :: ts, undecided, sats => do
    match ← findSatisfier alg s t none with
    | some a => checkTerms alg s terms ts undecided (sats ++ [a])
    | none =>
      let r ← reachable alg s t
      if !r then pure .unsatisfied
      else
        match undecided with
        | none => checkTerms alg s terms ts (some t) sats
        | some _ => pure .unsatisfied

/-- `Incompatibility.check_satisfaction` (pg 295-322). -/
def checkPlain (alg : Alg V S) (s : St P V S) (terms : List (Term P S)) : Except Err (Sat P S) :=
  if terms.any (fun t => (s.lastAcc t.package).any alg.isNone) then pure .unsatisfied
  else checkTerms alg s terms terms none []

/-- The dependant may be selected (pg 451-452). -/
def mayApply (alg : Alg V S) (acc c : S) : Except Err Bool := do
  let any ← alg.allowsAny acc c
  if any then pure true
  else if alg.isNone acc then pure false
  else alg.allowsAll c acc

/-- `check_satisfaction` of either class (pg 295, 446-455). -/
def check (alg : Alg V S) (s : St P V S) (i : Nat) : Except Err (Sat P S) :=
  match (s.inc i).dep with
  | none => checkPlain alg s (s.inc i).terms
  | some (dependant, _, _) =>
    match s.lastAcc dependant.package with
    | none => pure .unsatisfied
    | some acc => do
      let go ← mayApply alg acc dependant.constraint
      if go then checkPlain alg s (s.inc i).terms else pure .unsatisfied

/-- The loop of `_add_incompatibility` (pg 580-583). -/
def addTo (alg : Alg V S) (s : St P V S) (i : Nat) : List (Term P S) → St P V S
  | [] => s
  | t :: ts =>
    if (s.incsOf t.package).any (fun j => j == i || sameTerms alg (s.inc j).terms (s.inc i).terms) then addTo alg s i ts
    else addTo alg { s with byPackage := s.byPackage.put t.package (s.incsOf t.package ++ [i]) } i ts

/-- `_add_incompatibility` (pg 573-583). -/
def addInc (alg : Alg V S) (s : St P V S) (i : Nat) : St P V S :=
  match (s.inc i).dep with
  | some (_, _, true) => s
  | some (a, b, false) =>
    addTo alg { s with incs := s.incs.set i { s.inc i with dep := some (a, b, true) } } i (s.inc i).terms
  | none => addTo alg s i (s.inc i).terms

/-- The packages of the terms in the order of their first occurrence. -/
def packagesOf (ts : List (Term P S)) : List P :=
  ts.foldl (fun ps t => if ps.contains t.package then ps else ps ++ [t.package]) []

/-- `Term.join` for the terms of one package (pg 58-77). -/
def joinTerms (alg : Alg V S) (p : P) : List (Term P S) → Except Err (Term P S)
  | [] => pure ⟨p, alg.all⟩
  | t :: ts => do
    let c ← ts.foldlM (fun c u => alg.inter c u.constraint) t.constraint
    pure ⟨t.package, c⟩

/-- `Incompatibility.create` (pg 415-428): the terms. -/
def createTerms (alg : Alg V S) (prob : Problem P V S) (ts : List (Term P S)) : Except Err (List (Term P S)) := do
  let joined ← (packagesOf ts).mapM (fun p => joinTerms alg p (ts.filter (fun t => t.package = p)))
  pure (sortTerms prob joined)

/-- `_is_tautology` (pg 624-626). -/
def isTautology (prob : Problem P V S) : List (Term P S) → Bool
  | [] => true
  | [t] => t.package = prob.root
  | _ => false

/-- The elements without later copies: a set of terms. -/
def termSet (alg : Alg V S) (ts : List (Term P S)) : List (Term P S) :=
  ts.foldl (fun acc t => if acc.any (fun u => u.same alg t) then acc else acc ++ [t]) []

/-- `_package_trouble_level[..] += 1` for all terms (pg 636-637). -/
def addTrouble (s : St P V S) (ts : List (Term P S)) : St P V S :=
  { s with trouble := ts.foldl (fun d t => d.put t.package ((d.get t.package).getD 0 + 1)) s.trouble }

/-- The end of a conflict resolution (pg 649-661). -/
def settle (alg : Alg V S) (prob : Problem P V S) (s : St P V S) (orig i : Nat) (level : Nat) :
    Except Err (St P V S × P) := do
  let s := s.backtrack level
  let s := if i = orig then s else addInc alg s i
  match ← check alg s i with
  | .almost t => do
    let n ← t.negate alg
    let s ← s.derive alg prob.root n i
    pure (s, t.package)
  | _ => .error .assertion

/-- The terms of the prior cause (pg 663-672). -/
def priorCause (alg : Alg V S) (s : St P V S) (i : Nat) (satisfier : Asg P S) (cause : Nat) :
    Except Err (List (Term P S)) := do
  let set := termSet alg (((s.inc i).terms ++ (s.inc cause).terms).filter (fun t => t.package ≠ satisfier.term.package))
  if sameTerms alg (s.inc cause).terms (s.inc i).terms then .error .assertion
  else
    match (s.inc i).terms.find? (fun t => t.package = satisfier.term.package) with
    | none => .error .attribute
    | some t => do
      let x ← alg.allowsAll t.constraint satisfier.term.constraint
      if !x || set.isEmpty then do
        let inv ← alg.inverse t.constraint
        let d ← alg.inter satisfier.acc inv
        let c ← alg.inverse d
        pure (set ++ [⟨satisfier.term.package, c⟩])
      else pure set

/-- The loop of `_resolve_conflict` (pg 634-689). The branch for an empty prior cause (pg 678-681) is not reached:
a term is added to an empty set (pg 668-672). -/
def resolveConflict (alg : Alg V S) (prob : Problem P V S) (ch : Choices P S) (orig : Nat) :
    Nat → St P V S → Nat → Asg P S → Option (Asg P S) → Except Err (St P V S × P)
  | 0, _, _, _, _ => .error .fuel
  | fuel + 1, s, i, satisfier, prev =>
    let s := addTrouble s (s.inc i).terms
    if isTautology prob (s.inc i).terms then .error .unsolvable
    else
      let prevLevel := (prev.map (·.level)).getD 0
      match satisfier.cause with
      | none => settle alg prob s orig i prevLevel
      | some cause =>
        if prevLevel < satisfier.level then settle alg prob s orig i prevLevel
        else do
          let ts ← priorCause alg s i satisfier cause
          let terms ← createTerms alg prob (ch.arrange s.tick ts)
          let (s, j) := ({ s with tick := s.tick + 1 } : St P V S).newInc ⟨terms, none⟩
          if isTautology prob terms then resolveConflict alg prob ch orig fuel s j satisfier prev
          else
            match ← check alg s j with
            | .full sat' prev' => resolveConflict alg prob ch orig fuel s j sat' prev'
            | _ => .error .assertion

/-- `changed.add(p)`. -/
def addChanged (changed : List P) (p : P) : List P := if changed.contains p then changed else changed ++ [p]

/-- The inner loop of `_propagate` (pg 612-622). -/
def propagateOne (alg : Alg V S) (prob : Problem P V S) (ch : Choices P S) (fuel : Nat) :
    List Nat → St P V S → List P → Except Err (St P V S × List P)
  | [], s, changed => pure (s, changed)
  | i :: is, s, changed => do
    match ← check alg s i with
    | .full satisfier prev => do
      let (s, p) ← resolveConflict alg prob ch i fuel s i satisfier prev
      propagateOne alg prob ch fuel is s (addChanged changed p)
    | .almost t => do
      let n ← t.negate alg
      let s ← s.derive alg prob.root n i
      propagateOne alg prob ch fuel is s (addChanged changed t.package)
    | .unsatisfied => propagateOne alg prob ch fuel is s changed

/-- `_propagate` (pg 604-622). -/
def propagate (alg : Alg V S) (prob : Problem P V S) (ch : Choices P S) (fuel : Nat) :
    Nat → St P V S → List P → Except Err (St P V S)
  | 0, _, _ => .error .fuel
  | _ + 1, s, [] => pure s
  | n + 1, s, c :: cs => do
    let k := ch.pop s.tick (c :: cs) % (c :: cs).length
    let p := ((c :: cs)[k]?).getD c
    let (s, changed) ← propagateOne alg prob ch fuel (s.incsOf p).reverse { s with tick := s.tick + 1 } ((c :: cs).eraseIdx k)
    propagate alg prob ch fuel n s changed

/-- `effective_constraint_range` of the `k`-th of the sorted versions (pg 703-714). -/
def effectiveRange (alg : Alg V S) (sorted : List (Nat × V)) (k : Nat) (v : V) : Except Err S :=
  if sorted.length = 1 then pure alg.all
  else
    let prev := if k = 0 then none else (sorted[k - 1]?).map (·.2)
    if k + 1 = sorted.length then alg.range prev none false
    else alg.range prev (some v) true

/-- `package_versions` (pg 691-716), in the order of `get_versions`. The result does not depend on the state: the
objects are made once and only their dependencies change. -/
def packageVersions (alg : Alg V S) (prob : Problem P V S) (p : P) : Except Err (List (PV V S)) :=
  let indexed := (prob.versions p).zipIdx.map (fun e => (e.2, e.1))
  let sorted := sortBy (fun a b => !alg.lt b.2 a.2) indexed
  indexed.mapM (fun e => do
    let k := sorted.findIdx (fun x => x.1 == e.1)
    let r ← effectiveRange alg sorted k e.2
    pure ⟨some e.1, e.2, r, (sorted[k + 1]?).map (·.1)⟩)

/-- `{d.package: PackageDependency(d) for d in version_dependencies}` (pg 482-484). -/
def depDict (ds : List (P × S)) : List (Dep P S) :=
  (ds.foldl (fun (d : Dict P S) e => d.put e.1 e.2) []).map (fun e => ⟨e.1, e.2, none⟩)

/-- `self.dependencies`; `[]` is like `None` in every use. -/
def St.depsOf (s : St P V S) (p : P) (pv : PV V S) (fresh : List (Dep P S)) : List (Dep P S) :=
  match pv.index with
  | none => fresh
  | some k => (s.deps.get (p, k)).getD []

/-- `fetch_dependencies_info` (pg 479-484): the state and the dependencies; `none` for
`MalformedPackageException`. -/
def fetchDeps (prob : Problem P V S) (s : St P V S) (p : P) (pv : PV V S) : Option (St P V S × List (Dep P S)) :=
  match pv.index with
  | none => (prob.deps p pv.version).map (fun ds => (s, depDict ds))
  | some k =>
    match (s.deps.get (p, k)).getD [] with
    | d :: ds => some (s, d :: ds)
    | [] => (prob.deps p pv.version).map (fun ds => ({ s with deps := s.deps.put (p, k) (depDict ds) }, depDict ds))

/-- The versions after the malformed ones (pg 781-806). -/
def firstUsable (prob : Problem P V S) (s : St P V S) (p : P) :
    List (PV V S) → Option (PV V S × St P V S × List (Dep P S))
  | [] => none
  | pv :: pvs =>
    match fetchDeps prob s p pv with
    | some (s, ds) => some (pv, s, ds)
    | none => firstUsable prob s p pvs

/-- The loop over the next versions (pg 491-501): the index of `last_requiring`, `none` if it is the version
itself. -/
def lastRequiring (alg : Alg V S) (s : St P V S) (pvs : List (PV V S)) (p : P) (d : Dep P S) :
    Nat → Option Nat → Option Nat → Option Nat
  | 0, _, last => last
  | _ + 1, none, last => last
  | fuel + 1, some k, last =>
    match ((s.deps.get (p, k)).getD []).find? (fun e => e.package = d.package) with
    | none => last
    | some e =>
      if alg.same e.constraint d.constraint then
        lastRequiring alg s pvs p d fuel ((pvs.find? (fun pv => pv.index == some k)).bind (·.next)) (some k)
      else last

/-- The terms of a dependency incompatibility (pg 438-440, 463). -/
def depTerms (alg : Alg V S) (prob : Problem P V S) (dependant dependency : Term P S) : Except Err (List (Term P S)) := do
  let n ← dependency.negate alg
  pure (sortTerms prob [n, dependant])

/-- Set the incompatibility of a dependency (pg 513). -/
def St.setDepInc (s : St P V S) (p : P) (pv : PV V S) (q : P) (i : Nat) : St P V S :=
  match pv.index with
  | none => s
  | some k =>
    { s with deps := s.deps.put (p, k) (((s.deps.get (p, k)).getD []).map
        (fun d => if d.package = q then { d with inc := some i } else d)) }

/-- The loop of `compute_incompatibilities` (pg 486-516). -/
def computeIncs (alg : Alg V S) (prob : Problem P V S) (pvs : List (PV V S)) (p : P) (pv : PV V S) :
    List (Dep P S) → St P V S → List Nat → Except Err (St P V S × List Nat)
  | [], s, result => pure (s, result)
  | d :: ds, s, result => do
    let shared := (lastRequiring alg s pvs p d pvs.length pv.next none).bind (fun k =>
      (((s.deps.get (p, k)).getD []).find? (fun e => e.package = d.package)).bind (fun e =>
        e.inc.bind (fun i => (s.inc i).dep.map (fun x => (i, x)))))
    match shared with
    | some (i, dependant, dependency, added) => do
      let c ← alg.union dependant.constraint pv.range
      let terms ← depTerms alg prob ⟨p, c⟩ dependency
      computeIncs alg prob pvs p pv ds { s with incs := s.incs.set i ⟨terms, some (⟨p, c⟩, dependency, added)⟩ }
        (result ++ [i])
    | none => do
      let terms ← depTerms alg prob ⟨p, pv.range⟩ ⟨d.package, d.constraint⟩
      let (s, i) := s.newInc ⟨terms, some (⟨p, pv.range⟩, ⟨d.package, d.constraint⟩, false)⟩
      computeIncs alg prob pvs p pv ds (s.setDepInc p pv d.package i) (result ++ [i])

/-- The conflicts among the new incompatibilities (pg 811-815); `s` has the tentative assignment. -/
def conflictsOf (alg : Alg V S) (s : St P V S) : List Nat → Except Err (List Nat)
  | [] => pure []
  | i :: is => do
    let c ← check alg s i
    let rest ← conflictsOf alg s is
    pure (match c with | .full _ _ => i :: rest | _ => rest)

/-- The loop of `_attempt_minor_adjustments` (pg 725-740): the level, -1 for none. -/
def minorLevel (alg : Alg V S) (s : St P V S) (p : P) : List Nat → Int → Except Err Int
  | [], m => pure m
  | i :: is, m =>
    match (s.inc i).terms.find? (fun t => t.package ≠ p) with
    | none => .error .attribute
    | some t => do
      let req ← alg.inverse t.constraint
      match (s.asgsOf t.package).reverse with
      | last :: before :: _ =>
        if last.cause = none then
          if ← alg.allowsAny before.acc req then
            let l : Int := last.level - 1
            minorLevel alg s p is (if m = -1 then l else min l m)
          else pure (-1)
        else minorLevel alg s p is m
      | _ => minorLevel alg s p is m

/-- `requirement_decision_level` (pg 118-124). -/
def requirementLevel (s : St P V S) (p : P) : Int :=
  match s.required.get p with
  | none => -1
  | some 0 => -1
  | some l => l

/-- `_attempt_minor_adjustments` (pg 718-748): the state after the backtracking. -/
def minorAdjustments (alg : Alg V S) (s : St P V S) (p : P) (conflicts : List Nat) : Except Err (Option (St P V S)) := do
  let m ← minorLevel alg s p conflicts (-1)
  if 0 ≤ m ∧ requirementLevel s p ≤ m then pure (some (s.backtrack m.toNat)) else pure none

/-- The versions of an undecided package that its assignments allow (pg 759-772). -/
def matchingVersions (alg : Alg V S) (prob : Problem P V S) (s : St P V S) (p : P) : Except Err (List (PV V S)) :=
  match s.lastAcc p with
  | none => .error .index
  | some acc =>
    match alg.nonStandard acc with
    | some v => pure (if prob.hasVersion p v then [⟨none, v, acc, none⟩] else [])
    | none => do
      let pvs ← packageVersions alg prob p
      pure (pvs.filter (fun pv => alg.allows acc pv.version))

/-- `min(undecided_packages, key=..)` (pg 774-775): the first of the smallest. -/
def choosePackage (s : St P V S) : List (P × List (PV V S)) → Option (P × List (PV V S))
  | [] => none
  | e :: es =>
    match choosePackage s es with
    | none => some e
    | some m =>
      let te := (s.trouble.get e.1).getD 0
      let tm := (s.trouble.get m.1).getD 0
      if tm < te ∨ (te = tm ∧ e.2.length ≤ m.2.length) then some e else some m

/-- `ic.terms[0].constraint.union_with(acc)` (pg 786). -/
def widened (alg : Alg V S) (terms : List (Term P S)) (acc : S) : Except Err S :=
  match terms with
  | t :: _ => alg.union t.constraint acc
  | [] => .error .index

/-- No usable version is left (pg 782-794). -/
def noVersions (alg : Alg V S) (prob : Problem P V S) (s : St P V S) (p : P) : Except Err (St P V S) :=
  match s.lastAcc p with
  | none => .error .index
  | some acc =>
    match s.unavailable.get p with
    | some i => do
      let c ← widened alg (s.inc i).terms acc
      pure { s with incs := s.incs.set i { s.inc i with terms := [⟨p, c⟩] } }
    | none => do
      let terms ← createTerms alg prob [⟨p, acc⟩]
      let (s, i) := s.newInc ⟨terms, none⟩
      pure (addInc alg { s with unavailable := s.unavailable.put p i } i)

/-- The versions that `next` refers to. -/
def siblings (alg : Alg V S) (prob : Problem P V S) (p : P) (pv : PV V S) : Except Err (List (PV V S)) :=
  match pv.index with
  | none => pure []
  | some _ => packageVersions alg prob p

/-- The test of pg 817. -/
def adjust (alg : Alg V S) (s : St P V S) (p : P) (conflicts : List Nat) : Except Err (Option (St P V S)) :=
  if conflicts.isEmpty then pure none else minorAdjustments alg s p conflicts

/-- The decision for a version (pg 808-830). -/
def decideVersion (alg : Alg V S) (prob : Problem P V S) (s : St P V S) (p : P) (pv : PV V S) (ds : List (Dep P S)) :
    Except Err (St P V S) := do
  let pvs ← siblings alg prob p pv
  let (s, incs) ← computeIncs alg prob pvs p pv ds s []
  let s := incs.foldl (addInc alg) s
  let a ← s.makeAssignment alg prob.root ⟨p, alg.single pv.version⟩ none
  let conflicts ← conflictsOf alg (s.push a) incs
  match ← adjust alg s p conflicts with
  | some s => do
    let a ← s.makeAssignment alg prob.root ⟨p, alg.single pv.version⟩ none
    pure ((s.decide a pv.version).require (ds.map (·.package)))
  | none =>
    if conflicts.isEmpty then pure ((s.decide a pv.version).require (ds.map (·.package)))
    else pure s

/-- `_make_next_decision` (pg 750-830); the package is `none` at the end. -/
def nextDecision (alg : Alg V S) (prob : Problem P V S) (s : St P V S) : Except Err (St P V S × Option P) :=
  match s.undecided with
  | [] => pure (s, none)
  | us => do
    let options ← us.mapM (fun p => do let vs ← matchingVersions alg prob s p; pure (p, vs))
    match choosePackage s options with
    | none => pure (s, none)
    | some (p, pvs) =>
      match firstUsable prob s p pvs with
      | none => do
        let s ← noVersions alg prob s p
        pure (s, some p)
      | some (pv, s, ds) => do
        let s ← decideVersion alg prob s p pv ds
        pure (s, some p)

/-- The loop of `solve` (pg 594-598). -/
def solveLoop (alg : Alg V S) (prob : Problem P V S) (ch : Choices P S) (fuel : Nat) :
    Nat → St P V S → P → Except Err (St P V S)
  | 0, _, _ => .error .fuel
  | n + 1, s, p => do
    let s ← propagate alg prob ch fuel fuel s [p]
    match ← nextDecision alg prob s with
    | (s, none) => pure s
    | (s, some p) => solveLoop alg prob ch fuel n s p

/-- The state before the loop (pg 587-593). -/
def start (alg : Alg V S) (prob : Problem P V S) : Except Err (St P V S) := do
  let pvs ← packageVersions alg prob prob.root
  match pvs with
  | [] => .error .index
  | pv :: _ => do
    let n ← (⟨prob.root, alg.single pv.version⟩ : Term P S).negate alg
    let terms ← createTerms alg prob [n]
    let (s, i) := (St.empty : St P V S).newInc ⟨terms, none⟩
    pure ((addInc alg s i).require [prob.root])

/-- `decisions()` (pg 203-204). -/
def St.solution (s : St P V S) : Dict P V := s.decisions.map (fun e => (e.1, e.2.2))

/-- `solve` (pg 585-602). -/
def solve (alg : Alg V S) (prob : Problem P V S) (ch : Choices P S) (fuel : Nat) : Except Err (Dict P V) := do
  let s ← start alg prob
  let s ← solveLoop alg prob ch fuel fuel s prob.root
  pure s.solution

end Solver
end Pkm
