import Verif.Text
/-
Model of pkm/src/pkm/api/versions/version.py.
-/
namespace Pkm

/-- `StandardVersion` (version.py 105-112). Python ints are `Nat` (the parser only produces
non-negative numbers); the pre-release tag is any text, as nothing in the class restricts it. -/
structure SV where
  release : List Nat
  epoch : Option Nat := none
  pre : Option (Text × Nat) := none
  post : Option Nat := none
  dev : Option Nat := none
  loc : Option Text := none
  deriving DecidableEq, Repr

/-- The three version classes (version.py 45-49 `UrlVersion`, 82-84 `NamedVersion`,
105-112 `StandardVersion`). `_protocol` is `None` when the url has no `repo+` prefix. -/
inductive Ver where
  | url (url : Text) (protocol : Option Text) (schema : Text)
  | named (name : Text)
  | std (v : SV)
  deriving DecidableEq, Repr

/-- Python truthiness of `Optional[str]` in `a or b`. -/
def orText (a : Option Text) (b : Text) : Text :=
  match a with
  | some (c :: cs) => c :: cs
  | _ => b

/-- `UrlVersion.protocol` (version.py 51-53). -/
def urlProtocol (protocol : Option Text) (schema : Text) : Text := orText protocol schema

/-- `UrlVersion.__str__` (version.py 67-70). -/
def urlStr (url : Text) (protocol : Option Text) : Text :=
  match protocol with
  | some (c :: cs) => (c :: cs) ++ '+' :: url
  | _ => url

namespace SV

/-- `is_pre_or_dev_release` (version.py 139-140). -/
def isPreOrDev (v : SV) : Bool := v.pre.isSome || v.dev.isSome

/-- `is_post_release` (version.py 142-143). -/
def isPost (v : SV) : Bool := v.post.isSome

/-- `is_local` (version.py 145-146). -/
def isLocal (v : SV) : Bool := v.loc.isSome

/-- `without_local` (version.py 114-117). -/
def withoutLocal (v : SV) : SV := if v.isLocal then { v with loc := none } else v

/-- `without_patch` (version.py 119-122). -/
def withoutPatch (v : SV) : SV :=
  if v.release.length > 2 then { v with release := v.release.take 2 } else v

/-- `v.epoch or 0` (version.py 228, 282). -/
def epoch0 (v : SV) : Nat := v.epoch.getD 0

/-- One operand of `normalized` (version.py 239-246): the release padded with zeros to `n`. -/
def padTo (n : Nat) (r : List Nat) : List Nat := r ++ List.replicate (n - r.length) 0

/-- `StandardVersion.normalized` (version.py 238-249); only the releases change. -/
def normalized (a b : SV) : SV × SV :=
  let n := max a.release.length b.release.length
  ({ a with release := padTo n a.release }, { b with release := padTo n b.release })

/-- `equals_to` for two standard versions (version.py 217-233). -/
def equalsTo (a b : SV) (compareLocals : Bool) : Bool :=
  let v1 := (normalized a b).1
  let v2 := (normalized a b).2
  (v1.epoch0 == b.epoch0) && (v1.release == v2.release) && (v1.pre == v2.pre)
    && (v1.post == v2.post) && (v1.dev == v2.dev)
    && (!compareLocals || a.loc == b.loc)

/-- `__eq__` for two standard versions (version.py 235-236). -/
def eqv (a b : SV) : Bool := equalsTo a b true

/-- The `while` loop of `standartize` (version.py 125-127): drop trailing zeros but keep one
component. `n` bounds the iterations; the length of the release is always enough. -/
def trimLoop : Nat → List Nat → List Nat
  | 0, r => r
  | n + 1, r => if r.length > 1 ∧ r.getLast? = some 0 then trimLoop n r.dropLast else r

/-- See `trimLoop`. -/
def trimRelease (r : List Nat) : List Nat := trimLoop r.length r

/-- `standartize` (version.py 124-133). -/
def standartize (v : SV) : SV :=
  { v with
    release := trimRelease v.release
    post := if v.post = some 0 then none else v.post
    dev := if v.dev = some 0 then none else v.dev }

/-- The tuple hashed by `__hash__` (version.py 137). -/
structure HashTuple where
  release : List Nat
  epoch : Option Nat
  dev : Option Nat
  post : Option Nat
  pre : Option (Text × Nat)
  loc : Option Text
  deriving DecidableEq, Repr

/-- `__hash__` (version.py 135-137). `hash()` of a tuple is modelled as the tuple itself. -/
def hashKey (v : SV) : HashTuple :=
  let s := v.standartize
  ⟨s.release, s.epoch, s.dev, s.post, s.pre, s.loc⟩

/-- The release loop of `_less` (version.py 286-289) on the padded releases:
`some b` when the loop returns `b`, `none` when it falls through. -/
def releaseLoop : List Nat → List Nat → Option Bool
  | s :: ss, o :: os => if s = o then releaseLoop ss os else some (decide (s < o))
  | _, _ => none

/-- The dev stage of `_less` (version.py 291-296). -/
def devStage (a b : Option Nat) : Option Bool :=
  if a ≠ b then
    match a, b with
    | some x, some y => some (decide (x < y))
    | _, none => some true
    | none, _ => some false
  else none

/-- The pre-release stage of `_less` (version.py 298-304). -/
def preStage (a b : Option (Text × Nat)) : Option Bool :=
  if a ≠ b then
    match a, b with
    | some (t, n), some (u, m) =>
      if t ≠ u then some (strLt t u)
      else if n ≠ m then some (decide (n < m))
      else none
    | _, none => some true
    | none, _ => some false
  else none

/-- The post-release stage of `_less` (version.py 306-312). -/
def postStage (a b : Option Nat) : Option Bool :=
  if a ≠ b then
    match a, b with
    | some x, some y => some (decide (x < y))
    | none, _ => some true
    | _, none => some false
  else none

/-- `(label or "").split('.')` (version.py 314-315). -/
def localSegments (l : Option Text) : List Text := splitOn '.' (l.getD [])

/-- The local-label loop of `_less` (version.py 317-329). Note 322-323: the code compares
`int(m_num) < int(o_num)`, i.e. the booleans `1 < 1`, which is always `False`. The final
`return len(..) < len(..)` is reached with equal prefixes, where it equals "`b` is longer". -/
def localLoop : List Text → List Text → Bool
  | m :: ms, o :: os =>
    if m = o then localLoop ms os
    else if isNumeric m && isNumeric o then false
    else if isNumeric m || isNumeric o then isNumeric o
    else strLt m o
  | [], _ :: _ => true
  | _, [] => false

/-- The standard-version part of `_less` (version.py 278-329). -/
def lt (a b : SV) : Bool :=
  if a.epoch0 ≠ b.epoch0 then decide (a.epoch0 < b.epoch0)
  else
    match releaseLoop (normalized a b).1.release (normalized a b).2.release with
    | some r => r
    | none =>
      match devStage a.dev b.dev with
      | some r => r
      | none =>
        match preStage a.pre b.pre with
        | some r => r
        | none =>
          match postStage a.post b.post with
          | some r => r
          | none => localLoop (localSegments a.loc) (localSegments b.loc)

/-- `StandardVersion.__le__` (version.py 214-215) for two standard versions. -/
def le (a b : SV) : Bool := eqv b a || lt a b

/-- `update_release` (version.py 159-161). -/
def updateRelease (v : SV) (r : List Nat) : SV :=
  { v with release := r, pre := none, post := none, dev := none, loc := none }

def pMajor : Text := ['m', 'a', 'j', 'o', 'r']
def pMinor : Text := ['m', 'i', 'n', 'o', 'r']
def pPatch : Text := ['p', 'a', 't', 'c', 'h']

/-- `bump_release` (version.py 163-172) on a release `(x, y, z)`. -/
def bumpRelease (v : SV) (x y z : Nat) (p : Text) : Option SV :=
  if p = pMajor then some (v.updateRelease [x + 1, 0, 0])
  else if p = pMinor then some (v.updateRelease [x, y + 1, 0])
  else if p = pPatch then some (v.updateRelease [x, y, z + 1])
  else none

/-- `bump_pre_release` (version.py 174-187). The call `bump_release(v, 'patch')` never returns
`None`. -/
def bumpPre (v : SV) (x y z : Nat) (p : Text) : SV :=
  match v.pre with
  | some (t, n) =>
    if strLt p t then { v.updateRelease [x, y, z + 1] with pre := none }
    else if strLt t p then { v with pre := some (p, 0) }
    else { v with pre := some (p, n + 1) }
  | none => { v with pre := some (p, 0) }

/-- `bump` (version.py 148-193). `none` is `UnsupportedOperationException`. -/
def bump (v : SV) (p : Text) : Option SV :=
  match v.release with
  | [x, y, z] =>
    match bumpRelease v x y z p with
    | some w => some w
    | none => some (bumpPre v x y z p)
  | _ => none

end SV

namespace Ver

/-- `is_pre_or_dev_release` of the three classes (version.py 55, 86, 139). -/
def isPreOrDev : Ver → Bool
  | std v => v.isPreOrDev
  | _ => false

/-- `is_post_release` of the three classes (version.py 58, 89, 142). -/
def isPost : Ver → Bool
  | std v => v.isPost
  | _ => false

/-- `is_local` of the three classes (version.py 61, 92, 145). -/
def isLocal : Ver → Bool
  | std v => v.isLocal
  | _ => false

/-- `without_local` (version.py 29-30, 114-117). -/
def withoutLocal : Ver → Ver
  | std v => std v.withoutLocal
  | v => v

/-- `isinstance(v, StandardVersion)`. -/
def isStd : Ver → Bool
  | std _ => true
  | _ => false

/-- `__eq__` of the three classes (version.py 64-65, 95-96, 217-236). -/
def eqv : Ver → Ver → Bool
  | url u p s, url u' p' s' => (urlProtocol p s == urlProtocol p' s') && (u == u')
  | named n, named m => n == m
  | std a, std b => a.eqv b
  | _, _ => false

/-- `_less` (version.py 257-329), i.e. `Version.__lt__`. -/
def lt : Ver → Ver → Bool
  | url u p _, url u' p' _ => strLt (urlStr u p) (urlStr u' p')
  | url _ _ _, _ => true
  | _, url _ _ _ => false
  | named n, named m => strLt n m
  | named _, _ => true
  | _, named _ => false
  | std a, std b => a.lt b

/-- The value that determines `hash(v)`: for `UrlVersion`/`NamedVersion` the generated dataclass
hash of all fields (version.py 45, 82), for `StandardVersion` 135-137. -/
inductive HKey where
  | url (u : Text) (p : Option Text) (s : Text)
  | named (n : Text)
  | std (k : SV.HashTuple)
  deriving DecidableEq, Repr

/-- `hash(v)` (see `HKey`). -/
def hashKey : Ver → HKey
  | url u p s => .url u p s
  | named n => .named n
  | std v => .std v.hashKey

end Ver
end Pkm
