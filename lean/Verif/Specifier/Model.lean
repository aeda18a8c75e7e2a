import Verif.Version.Model
import Verif.Sort
/-
Model of pkm/src/pkm/api/versions/version_specifiers.py (cited as "vs").

The six classes become one inductive type; the double dispatch of the Python methods becomes
functions with a fuel argument (every Python call chain is finite on the shapes that occur; running
out of fuel is the separate error `Err.fuel`, so theorems about successful results are not affected
by the choice of fuel). Raised exceptions are values of `Err`.
-/
namespace Pkm

inductive Err where
  | assertion      -- AssertionError
  | keyError       -- KeyError (set.remove)
  | unsupported    -- UnsupportedOperationException / `raise NotImplemented()`
  | fuel           -- model only: fuel exhausted
  deriving DecidableEq, Repr

/-- The six specifier classes: `_RestrictAll` (vs 91), `_AllowAll` (vs 125), `VersionsUnion`
(vs 165), `HetroVersionIntersection` (vs 239; the `blacklist` set is a duplicate-free list),
`VersionMatch` (vs 365), `StandardVersionRange` (vs 475). -/
inductive VSpec where
  | none
  | all
  | union (segs : List VSpec)
  | hetro (bl : List Ver) (std : VSpec)
  | vmatch (v : Ver) (allow : Bool)
  | range (min max : Option SV) (imin imax : Bool)
  deriving Repr

namespace VSpec

/-! ### sets of versions -/

/-- `v in s` for a Python set of versions: same hash and equal. -/
def memSet (v : Ver) (s : List Ver) : Bool :=
  s.any (fun w => decide (w.hashKey = v.hashKey) && w.eqv v)

/-- `s.add(v)`. -/
def addSet (s : List Ver) (v : Ver) : List Ver := if memSet v s then s else s ++ [v]

/-- `s.union(t)`. -/
def unionSet (s t : List Ver) : List Ver := t.foldl addSet s

/-- `s.remove(v)` after a successful membership test. -/
def removeSet (s : List Ver) (v : Ver) : List Ver :=
  s.filter (fun w => !(decide (w.hashKey = v.hashKey) && w.eqv v))

/-- `s == t` for sets: the same members. -/
def eqSet (s t : List Ver) : Bool := s.all (fun v => memSet v t) && t.all (fun v => memSet v s)

/-! ### allows_version -/

/-- `min_ == version` for `Optional[StandardVersion]` against a version: `some` case. -/
def endEq (m : Option SV) (v : Ver) : Bool :=
  match m with
  | some s => (Ver.std s).eqv v
  | .none => false

/-- `StandardVersionRange.allows_version` (vs 618-627). -/
def rangeAllows (min max : Option SV) (imin imax : Bool) (v : Ver) : Bool :=
  if (imin && endEq min v) || (imax && endEq max v) then true
  else if v.isPost && (match min with | .none => true | some m => !m.isPost) then false
  else (match min with | .none => true | some m => (Ver.std m).lt v) &&
       (match max with | .none => true | some m => v.lt (Ver.std m))

/-- `VersionMatch.allows_version` (vs 401-407). -/
def matchAllows (mv : Ver) (allow : Bool) (v : Ver) : Bool :=
  let v' := if mv.isLocal then v else v.withoutLocal
  if allow then mv.eqv v' else !mv.eqv v'

mutual
/-- `allows_version` of the six classes (vs 103-104, 149-150, 186-187, 255-259, 401-407,
618-627). -/
def allows : VSpec → Ver → Bool
  | .none, _ => false
  | .all, _ => true
  | .union segs, v => allowsAnySeg segs v
  | .hetro bl std, v => if memSet v bl then false else !v.isStd || allows std v
  | .vmatch mv allow, v => matchAllows mv allow v
  | .range min max imin imax, v => rangeAllows min max imin imax v
/-- `any(s.allows_version(version) for s in self.segments)` (vs 187). -/
def allowsAnySeg : List VSpec → Ver → Bool
  | [], _ => false
  | s :: ss, v => allows s v || allowsAnySeg ss v
end

/-! ### equality and order of specifiers -/

/-- `a == b` for `Optional[StandardVersion]`. -/
def optEq : Option SV → Option SV → Bool
  | some a, some b => a.eqv b
  | .none, .none => true
  | _, _ => false

/-- `StandardVersionRange.__eq__` (vs 527-529). -/
def rangeEq (m1 M1 : Option SV) (i1 I1 : Bool) (m2 M2 : Option SV) (i2 I2 : Bool) : Bool :=
  i1 == i2 && I1 == I2 && optEq m1 m2 && optEq M1 M2

mutual
/-- `__eq__` of the six classes (vs 100, 134, 192, 347, 397, 527). -/
def eqv : VSpec → VSpec → Bool
  | .none, .none => true
  | .all, .all => true
  | .union s, .union t => eqvList s t
  | .hetro b s, .hetro b' s' => eqSet b b' && eqv s s'
  | .vmatch v a, .vmatch v' a' => a == a' && v.eqv v'
  | .range m1 M1 i1 I1, .range m2 M2 i2 I2 => rangeEq m1 M1 i1 I1 m2 M2 i2 I2
  | _, _ => false
/-- Python list equality of the segments. -/
def eqvList : List VSpec → List VSpec → Bool
  | [], [] => true
  | s :: ss, t :: ts => eqv s t && eqvList ss ts
  | _, _ => false
end

/-- `StandardVersionRange.__lt__` for two ranges (vs 506-523). -/
def rangeLt (m1 M1 : Option SV) (i1 I1 : Bool) (m2 M2 : Option SV) (i2 I2 : Bool) : Bool :=
  if rangeEq m1 M1 i1 I1 m2 M2 i2 I2 then false
  else
    let tail : Bool :=
      match M1, M2 with
      | some a, some b => if !a.eqv b then a.lt b else I2
      | _, _ => M1.isSome
    match m1, m2 with
    | some a, some b => if !a.eqv b then a.lt b else if i1 != i2 then i2 else tail
    | .none, .none => tail
    | _, b => b.isSome

mutual
/-- Number of constructors, only used to choose fuel for `lt`. -/
def size : VSpec → Nat
  | .union segs => 1 + sizeList segs
  | .hetro _ s => 1 + size s
  | _ => 1
def sizeList : List VSpec → Nat
  | [] => 0
  | s :: ss => size s + sizeList ss
end

/-- Python `sorted(list of versions)`; only the order of the result matters. -/
def sortVers (l : List Ver) : List Ver := sortBy (fun a b => !b.lt a) l

/-- Python `<` on lists of versions. -/
def verListLt : List Ver → List Ver → Bool
  | [], [] => false
  | [], _ :: _ => true
  | _ :: _, [] => false
  | a :: as, b :: bs => if a.eqv b then verListLt as bs else a.lt b

/-- `__lt__` of the six classes (vs 97, 131, 189, 328-345, 376-395, 502-525). `not self >= other`
is `not (other == self or other < self)` (vs 56-63). -/
def ltF : Nat → VSpec → VSpec → Bool
  | 0, _, _ => false
  | n + 1, a, b =>
    match a with
    | .none => false
    | .all => !(match b with | .all => true | _ => false)
    | .union segs =>
      match segs with
      | [] => false           -- unreachable: a union has at least two segments (vs 170)
      | s :: _ => ltF n s b
    | .hetro bl std =>
      match b with
      | .none | .all | .union _ => !(eqv b a || ltF n b a)
      | .hetro bl' std' =>
        if eqSet bl bl' then ltF n std std' else verListLt (sortVers bl) (sortVers bl')
      | .vmatch v allow =>
        if v.isStd then ltF n std b else allow || verListLt (sortVers bl) [v]
      | .range .. => ltF n std b
    | .vmatch v allow =>
      match b with
      | .none | .all | .union _ | .hetro .. => !(eqv b a || ltF n b a)
      | .vmatch v' allow' =>
        if eqv a b then false
        else if allow then !allow'
        else allow' && v.lt v'
      | .range min _ _ _ =>
        if v.isStd then
          if allow then (match min with | some m => v.lt (.std m) | .none => false)
          else min.isSome
        else true
    | .range m1 M1 i1 I1 =>
      match b with
      | .range m2 M2 i2 I2 => rangeLt m1 M1 i1 I1 m2 M2 i2 I2
      | _ => !(eqv b a || ltF n b a)

/-- `a < b` with enough fuel. -/
def lt (a b : VSpec) : Bool := ltF (2 * (a.size + b.size) + 4) a b

/-! ### constructors with their assertions -/

/-- `StandardVersionRange.__post_init__` (vs 482-486). -/
def mkRange (min max : Option SV) (imin imax : Bool) : Except Err VSpec :=
  if (min.isNone && max.isNone) || (imin && min.isNone) || (imax && max.isNone) then
    .error .assertion
  else match min, max with
    | some a, some b => if a.lt b then .ok (.range min max imin imax) else .error .assertion
    | _, _ => .ok (.range min max imin imax)

/-- `VersionSpecifier.create_range` (vs 70-88). -/
def createRange (min max : Option SV) (imin imax : Bool) : Except Err VSpec :=
  let eq := optEq min max
  if eq && imin != imax then .error .assertion
  else if min.isNone && max.isNone then .ok .all
  else if eq then
    match min with
    | some m => if !imin || !imax then .ok .none else .ok (.vmatch (.std m) imin)
    | .none => .ok .all
  else mkRange min max imin imax

/-- `is not RestrictAllVersions and is not AllowAllVersions`. -/
def isProper : VSpec → Bool
  | .none => false
  | .all => false
  | _ => true

/-- `VersionsUnion.__post_init__` (vs 169-172). Python's sort is modelled by a stable insertion sort;
where `<` is not a strict weak order the real result may be another permutation, which does not
affect `allows_version`. -/
def mkUnion (segs : List VSpec) : Except Err VSpec :=
  if segs.length > 1 && segs.all isProper then
    .ok (.union (sortBy (fun a b => !lt b a) segs))
  else .error .assertion

/-- `HetroVersionIntersection.__post_init__` (vs 244-246). -/
def mkHetro (bl : List Ver) (std : VSpec) : Except Err VSpec :=
  match bl, std with
  | [], _ => .error .assertion
  | _, .none => .error .assertion
  | _, _ => .ok (.hetro bl std)

/-- `HetroVersionIntersection.create` (vs 351-362). -/
def createHetro (bl : List Ver) (std : VSpec) : Except Err VSpec :=
  let bl' := bl.filter (fun it => !it.isStd || allows std it)
  match std with
  | .none => .ok .none
  | _ =>
    match bl', std with
    | [], _ => .ok std
    | [v], .all => .ok (.vmatch v false)
    | _, _ => mkHetro bl' std

/-! ### ranges -/

/-- `_union_with` after the operands are ordered (vs 564-573). -/
def rangeUnionCore (m1 M1 : Option SV) (i1 I1 : Bool) (m2 M2 : Option SV) (i2 I2 : Bool) :
    Except Err VSpec :=
  let overlap : Bool := match m2, M1 with
    | some a, some b => a.lt b
    | _, _ => true
  if overlap then
    createRange m1 M2 (if optEq m1 m2 then i1 || i2 else i1) (if optEq M1 M2 then I1 || I2 else I2)
  else if (!I1 && !i2) || !optEq m2 M1 then
    mkUnion [.range m1 M1 i1 I1, .range m2 M2 i2 I2]
  else createRange m1 M2 i1 I2

/-- `StandardVersionRange._union_with` (vs 560-573). The swapped recursive call (561-562) cannot
swap again because `__lt__` of ranges is asymmetric (`rangeLt_asymm`). -/
def rangeUnion (m1 M1 : Option SV) (i1 I1 : Bool) (m2 M2 : Option SV) (i2 I2 : Bool) :
    Except Err VSpec :=
  if rangeLt m2 M2 i2 I2 m1 M1 i1 I1 then rangeUnionCore m2 M2 i2 I2 m1 M1 i1 I1
  else rangeUnionCore m1 M1 i1 I1 m2 M2 i2 I2

/-- `_intersect_with` after the operands are ordered (vs 590-605). -/
def rangeInterCore (m1 M1 : Option SV) (i1 I1 : Bool) (m2 M2 : Option SV) (i2 I2 : Bool) :
    Except Err VSpec :=
  let overlap : Bool := match m2, M1 with
    | some a, some b => a.lt b
    | _, _ => true
  if overlap then
    let imin := if optEq m1 m2 then i1 && i2 else i2
    let imax := if optEq M1 M2 then I1 && I2 else I1
    let useOther : Bool := match M1, M2 with
      | .none, _ => true
      | some a, some b => b.lt a
      | some _, .none => false
    if useOther then createRange m2 M2 imin I2 else createRange m2 M1 imin imax
  else match M1 with
    | some a => if I1 && i2 && optEq M1 m2 then .ok (.vmatch (.std a) true) else .ok .none
    | .none => .ok .none

/-- `StandardVersionRange._intersect_with` (vs 586-605). -/
def rangeInter (m1 M1 : Option SV) (i1 I1 : Bool) (m2 M2 : Option SV) (i2 I2 : Bool) :
    Except Err VSpec :=
  if rangeLt m2 M2 i2 I2 m1 M1 i1 I1 then rangeInterCore m2 M2 i2 I2 m1 M1 i1 I1
  else rangeInterCore m1 M1 i1 I1 m2 M2 i2 I2

/-! ### union, intersection, inverse -/

/-- Result of the inner `for` loop of `VersionsUnion.union_with` (vs 214-225). -/
inductive Step where
  | retAll                                 -- vs 216-217
  | drop                                   -- vs 218-219
  | merged (us : VSpec) (segs : List VSpec) -- vs 220-223
  | append                                 -- vs 224-225 (`else` of the loop)

/-- The inner loop over `new_segments` (vs 214-225); `pre` are the segments already passed. -/
def innerLoop (f : VSpec → Except Err VSpec) : List VSpec → List VSpec → Except Err Step
  | _, [] => .ok .append
  | pre, es :: rest => do
    let us ← f es
    match us with
    | .all => return .retAll
    | .none => return .drop
    | .union _ => innerLoop f (pre ++ [es]) rest
    | us => return .merged us (pre ++ rest)

mutual

/-- `union_with` of the six classes (vs 115, 155, 205-227, 261-288, 418-442, 575-584). -/
def unionF : Nat → VSpec → VSpec → Except Err VSpec
  | 0, _, _ => .error .fuel
  | n + 1, a, b =>
    match a with
    | .none => .ok b
    | .all => .ok .all
    | .union segs =>
      match b with
      | .none => .ok a
      | .all => .ok .all
      | .union osegs => unionLoopF n segs osegs
      | _ => unionLoopF n segs [b]
    | .hetro bl std =>
      match b with
      | .none | .all | .union _ => unionF n b a
      | .hetro bl' std' => do
        let s ← unionF n std std'
        if (unionSet bl' bl).length != bl.length then return s
        createHetro (if bl.length < bl'.length then bl else bl') s
      | .vmatch v allow =>
        if v.isStd && allow then do
          let s ← unionF n std b
          createHetro bl s
        else if allow then
          if memSet v bl then createHetro (removeSet bl v) std else .error .keyError
        else createHetro (addSet bl v) std
      | .range .. => do
        let s ← unionF n std b
        createHetro bl s
    | .vmatch v allow =>
      match b with
      | .none | .all | .union _ | .hetro .. => unionF n b a
      | .vmatch v' allow' =>
        if eqv a b then .ok a
        else if v.eqv v' && allow != allow' then .ok .all
        else mkUnion [a, b]
      | .range min max imin imax =>
        if rangeAllows min max imin imax v then
          if allow then .ok b else .ok .all
        else if !allow then .ok a
        else if !imin && endEq min v then mkRange min max true imax
        else if !imax && endEq max v then mkRange min max imin true
        else mkUnion [a, b]
    | .range m1 M1 i1 I1 =>
      match b with
      | .range m2 M2 i2 I2 =>
        if eqv a b then .ok a else rangeUnion m1 M1 i1 I1 m2 M2 i2 I2
      | _ => unionF n b a

/-- The outer loop of `VersionsUnion.union_with` (vs 212-227): `segs` is `new_segments`,
`osegs` is `other_segments`, popped from its end. -/
def unionLoopF : Nat → List VSpec → List VSpec → Except Err VSpec
  | 0, _, _ => .error .fuel
  | n + 1, segs, osegs =>
    match osegs.getLast? with
    | .none => mkUnion segs
    | some os =>
      let rest := osegs.dropLast
      match innerLoop (unionF n os) [] segs with
      | .error e => .error e
      | .ok .retAll => .ok .all
      | .ok .drop => unionLoopF n segs rest
      | .ok (.merged us segs') => unionLoopF n segs' (rest ++ [us])
      | .ok .append => unionLoopF n (segs ++ [os]) rest

end

/-- The segments left in `other` after `self.union_with(other)` (vs 210, 213, 221): for a union
receiver and a union argument, the argument's own list is consumed. -/
def argAfterUnionLoop : Nat → List VSpec → List VSpec → List VSpec
  | 0, _, osegs => osegs
  | n + 1, segs, osegs =>
    match osegs.getLast? with
    | .none => []
    | some os =>
      let rest := osegs.dropLast
      match innerLoop (unionF n os) [] segs with
      | .error _ => rest
      | .ok .retAll => rest
      | .ok .drop => argAfterUnionLoop n segs rest
      | .ok (.merged us segs') => argAfterUnionLoop n segs' (rest ++ [us])
      | .ok .append => argAfterUnionLoop n (segs ++ [os]) rest

/-- The argument object as seen by its owner after `self.union_with(other)`. -/
def argAfterUnion (n : Nat) (a b : VSpec) : VSpec :=
  match a, b with
  | .union segs, .union osegs => .union (argAfterUnionLoop n segs osegs)
  | _, _ => b

/-- Accumulating loop of `VersionsUnion.intersect_with` (vs 233-236). -/
def interSegs (n : Nat) (inter : VSpec → Except Err VSpec) :
    VSpec → List VSpec → Except Err VSpec
  | acc, [] => .ok acc
  | acc, s :: ss => do
    let i ← inter s
    let r ← unionF n acc i
    interSegs n inter r ss

/-- `intersect_with` of the six classes (vs 118, 158, 229-236, 290-314, 444-472, 607-616). -/
def interF : Nat → VSpec → VSpec → Except Err VSpec
  | 0, _, _ => .error .fuel
  | n + 1, a, b =>
    match a with
    | .none => .ok .none
    | .all => .ok b
    | .union segs =>
      match b with
      | .none => .ok .none
      | .all => .ok a
      | _ => interSegs n (fun s => interF n s b) .none segs
    | .hetro bl std =>
      match b with
      | .none | .all | .union _ => interF n b a
      | .hetro bl' std' => do
        let s ← interF n std std'
        createHetro (unionSet bl bl') s
      | .vmatch v allow =>
        if v.isStd && allow then
          if allows std v && !memSet v bl then .ok b else .ok .none
        else if allow then
          if memSet v bl then .ok .none else .ok b
        else createHetro (addSet bl v) std
      | .range .. => do
        let s ← interF n std b
        createHetro bl s
    | .vmatch v allow =>
      match b with
      | .none | .all | .union _ | .hetro .. => interF n b a
      | .vmatch v' allow' =>
        if eqv a b then .ok a
        else
          let (my, ot) := if v.isLocal != v'.isLocal then (v.withoutLocal, v'.withoutLocal)
            else (v, v')
          if allow && allow' then
            if my.eqv ot then (if v.isLocal then .ok a else .ok b) else .ok .none
          else if allow || allow' then
            if my.eqv ot then .ok .none else (if allow then .ok a else .ok b)
          else mkHetro (addSet [v] v') .all
      | .range min max imin imax =>
        if v.isStd && rangeAllows min max imin imax v then
          if allow then .ok a else mkHetro [v] b
        else if allow then .ok .none else .ok b
    | .range m1 M1 i1 I1 =>
      match b with
      | .range m2 M2 i2 I2 =>
        if eqv a b then .ok a else rangeInter m1 M1 i1 I1 m2 M2 i2 I2
      | _ => interF n b a

/-- `StandardVersionRange.inverse` (vs 491-500). -/
def rangeInverse (n : Nat) (min max : Option SV) (imin imax : Bool) : Except Err VSpec :=
  match min, max with
  | some a, some b => do
    let p ← createRange .none (some a) false (!imin)
    let q ← createRange (some b) .none (!imax) false
    unionF n p q
  | some a, .none => createRange .none (some a) false (!imin)
  | .none, some b => createRange (some b) .none (!imax) false
  | .none, .none => .error .assertion   -- excluded by vs 483

/-- The loop of `VersionsUnion.inverse` (vs 181-184). -/
def inverseSegs (n : Nat) (inv : VSpec → Except Err VSpec) : VSpec → List VSpec → Except Err VSpec
  | acc, [] => .ok acc
  | acc, s :: ss => do
    let i ← inv s
    let r ← interF n acc i
    inverseSegs n inv r ss

/-- `inverse` of the six classes (vs 94, 128, 180-184, 316-320, 373-374, 491-500). -/
def inverseF : Nat → VSpec → Except Err VSpec
  | 0, _ => .error .fuel
  | _ + 1, .none => .ok .all
  | _ + 1, .all => .ok .none
  | n + 1, .union segs => inverseSegs n (inverseF n) .all segs
  | n + 1, .hetro bl std =>
    match std with
    | .all => mkUnion (bl.map (fun v => .vmatch v true))
    | _ => do
      let i ← inverseF n std
      mkUnion (bl.map (fun v => .vmatch v true) ++ [i])
  | _ + 1, .vmatch v allow => .ok (.vmatch v (!allow))
  | n + 1, .range min max imin imax => rangeInverse n min max imin imax

/-- Fuel that covers the call depth of the operations on specifiers of the sizes at hand. -/
def fuelFor (a b : VSpec) : Nat := 4 * (a.size + b.size) + 16

/-- `a.intersect_with(b)`. -/
def inter (a b : VSpec) : Except Err VSpec := interF (fuelFor a b) a b

/-- `a.union_with(b)`. -/
def unionWith (a b : VSpec) : Except Err VSpec := unionF (fuelFor a b) a b

/-- `a.inverse()`. -/
def inverse (a : VSpec) : Except Err VSpec := inverseF (fuelFor a a) a

/-- `a.difference_from(b)` (vs 41-42). -/
def difference (a b : VSpec) : Except Err VSpec := do
  let i ← inverse b
  inter a i

/-- `is RestrictAllVersions`. -/
def isNone : VSpec → Bool
  | .none => true
  | _ => false

/-- `allows_any` with the overrides of `_RestrictAll` and `_AllowAll` (vs 19-20, 106-107,
143-147). -/
def allowsAny (a b : VSpec) : Except Err Bool :=
  match a with
  | .none => .ok false
  | .all => .ok (!b.isNone)
  | _ => do
    let i ← inter a b
    return !i.isNone

/-- `allows_all` with the overrides of `_RestrictAll` and `_AllowAll` (vs 16-17, 109-110,
137-141). -/
def allowsAll (a b : VSpec) : Except Err Bool :=
  match a with
  | .none => .ok false
  | .all => .ok (!b.isNone)
  | _ => do
    let i ← inter a b
    return eqv i b

mutual
/-- `allows_pre_or_dev_releases` (vs 22, 177-178, 248-250, 370-371, 488-489). -/
def allowsPre : VSpec → Bool
  | .none => false
  | .all => false
  | .union segs => allowsPreSeg segs
  | .hetro bl std => allowsPre std || bl.any Ver.isPreOrDev
  | .vmatch v allow => allow && v.isPreOrDev
  | .range min max _ _ =>
    (match min with | some m => m.isPreOrDev | .none => false) ||
    (match max with | some m => m.isPreOrDev | .none => false)
def allowsPreSeg : List VSpec → Bool
  | [] => false
  | s :: ss => allowsPre s || allowsPreSeg ss
end

end VSpec
end Pkm
