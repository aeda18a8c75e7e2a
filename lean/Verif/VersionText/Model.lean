import Verif.Parser
import Verif.Specifier.Model
/-
Model of pkm/src/pkm/api/versions/version_parser.py (cited as "vp") and of the `__str__` methods of
version.py and version_specifiers.py ("vs").
-/
namespace Pkm
open PS

/-! ### printing versions -/

/-- `'.'.join(str(n) for n in release)`. -/
def showRelease : List Nat → Text
  | [] => []
  | [n] => showNat n
  | n :: m :: ns => showNat n ++ '.' :: showRelease (m :: ns)

/-- `epoch!` (version.py 197-198). -/
def showEpoch : Option Nat → Text
  | some e => showNat e ++ ['!']
  | none => []

/-- The pre-release tag and number (version.py 200-201). -/
def showPre : Option (Text × Nat) → Text
  | some (t, n) => t ++ showNat n
  | none => []

/-- version.py 202-203. -/
def showPost : Option Nat → Text
  | some n => '.' :: 'p' :: 'o' :: 's' :: 't' :: showNat n
  | none => []

/-- version.py 204-205. -/
def showDev : Option Nat → Text
  | some n => '.' :: 'd' :: 'e' :: 'v' :: showNat n
  | none => []

/-- version.py 206-207. -/
def showLoc : Option Text → Text
  | some l => '+' :: l
  | none => []

/-- `StandardVersion.__str__` (version.py 195-209). -/
def SV.show (v : SV) : Text :=
  showEpoch v.epoch ++ (showRelease v.release ++ (showPre v.pre ++ (showPost v.post ++
    (showDev v.dev ++ showLoc v.loc))))

/-- `__str__` of the three classes (version.py 67-70, 98-99, 195-209). -/
def Ver.show : Ver → Text
  | .url u p _ => urlStr u p
  | .named n => n
  | .std v => v.show

/-! ### read_version -/

/-- The keys of `_PRE_RELEASE_TYPE_NORMALIZER` in order (vp 26-28). -/
def preKeys : List Text :=
  [['a'], ['b'], ['r', 'c'], ['c'], ['a', 'l', 'p', 'h', 'a'], ['b', 'e', 't', 'a'],
   ['p', 'r', 'e', 'v', 'i', 'e', 'w']]

/-- `_PRE_RELEASE_TYPE_NORMALIZER[key]` (vp 26-28). -/
def preNormal (k : Text) : Text :=
  if k = ['a'] then ['a'] else if k = ['b'] then ['b'] else if k = ['r', 'c'] then ['r', 'c']
  else if k = ['c'] then ['r', 'c'] else if k = ['a', 'l', 'p', 'h', 'a'] then ['a']
  else if k = ['b', 'e', 't', 'a'] then ['b'] else ['r', 'c']

/-- `'.', '-', '_'` (vp 55, 62, 69). -/
def seps : List Text := [['.'], ['-'], ['_']]

/-- The loop over release components (vp 48-49). -/
def readComponents : Nat → List Nat → PS → List Nat × PS
  | 0, acc, p => (acc, p)
  | f + 1, acc, p =>
    match p.lit ['.'] with
    | none => (acc, p)
    | some q =>
      match q.readNat with          -- reads iff the next character is a digit
      | some (n, q') => readComponents f (acc ++ [n]) q'
      | none => (acc, q)

/-- Epoch and release (vp 41-49). -/
def readRelease (p : PS) : Option (Option Nat × List Nat × PS) :=
  match p.readNat with
  | none => none
  | some (n, q) =>
    match q.lit ['!'] with
    | some q' =>
      match q'.readNat with
      | none => none
      | some (m, q'') =>
        let (r, e) := readComponents q''.rest.length [m] q''
        some (some n, r, e)
    | none =>
      let (r, e) := readComponents q.rest.length [n] q
      some (none, r, e)

/-- Pre-release part (vp 51-57). -/
def readPre (p : PS) : Option (Text × Nat) × PS :=
  match p.litAny preKeys with
  | none => (none, p)
  | some (k, q) =>
    let (n, q') := (q.skipAny seps).natOr0
    (some (preNormal k, n), q')

/-- The one-character keys of the normalizer (vp 61 `prev in _PRE_RELEASE_TYPE_NORMALIZER`). -/
def isPreKeyChar (c : Char) : Bool := c == 'a' || c == 'b' || c == 'c'

/-- Post-release part (vp 59-65). -/
def readPost (p : PS) : Option Nat × PS :=
  let p1 := if p.prevIs (fun c => isDigit c || isPreKeyChar c) then p.skipAny seps else p
  match p1.litAny [['p', 'o', 's', 't'], ['r'], ['r', 'e', 'v']] with
  | some (_, q) =>
    let (n, q') := (q.skipAny [['-']]).natOr0
    (some n, q')
  | none =>
    if p1.prevIs (fun c => c == '-') && p1.peekIs isDigit then
      let (n, q') := (p1.skipAny [['-']]).natOr0
      (some n, q')
    else (none, p1)

/-- Dev-release part (vp 67-71). -/
def readDev (p : PS) : Option Nat × PS :=
  let p1 := if p.prevIs isDigit then p.skipAny seps else p
  match p1.lit ['d', 'e', 'v'] with
  | some q =>
    let (n, q') := q.natOr0
    (some n, q')
  | none => (none, p1)

/-- Characters of a local label (vp 75). -/
def isLabelChar (c : Char) : Bool := c == '.' || c == '-' || c == '_' || isAlnum c

/-- `translate(maketrans('-_', '..'))` (vp 76). -/
def normLabel (l : Text) : Text := l.map (fun c => if c == '-' || c == '_' then '.' else c)

/-- Local label (vp 73-76). -/
def readLoc (p : PS) : Option Text × PS :=
  match p.lit ['+'] with
  | none => (none, p)
  | some q =>
    let (l, q') := q.untilP (fun c => !isLabelChar c)
    (some (normLabel l), q')

/-- The suffixes and the step back over a trailing dot (vp 51-79). -/
def readSuffix (e : Option Nat) (r : List Nat) (p : PS) : SV × PS :=
  let (pre, p1) := readPre p
  let (post, p2) := readPost p1
  let (dev, p3) := readDev p2
  let (loc, p4) := readLoc p3
  let p5 := if p4.prevIs (fun c => c == '.') then p4.back else p4
  ({ release := r, epoch := e, pre := pre, post := post, dev := dev, loc := loc }, p5)

/-- `self.match("'", "") or self.match("\"", "")` (vp 37). -/
def openQuote (p : PS) : Option (Text × PS) :=
  match p.litWs ['\''] with
  | some r => some r
  | none => p.litWs ['"']

/-- `read_version` (vp 33-90). `none` is `ValueError`. -/
def readVersion (p : PS) : Option (SV × PS) :=
  let p := p.ws
  let (brackets, p) := match p.litWs ['('] with
    | some (_, q) => (true, q)
    | none => (false, p)
  let (quotes, p) := match openQuote p with
    | some (q, p') => (some q, p')
    | none => (none, p)
  let p := p.skipAny [['v']]
  match readRelease p with
  | none => none
  | some (e, r, p) =>
    let (v, p) := readSuffix e r p
    let p := p.ws
    match (match quotes with | some q => p.lit q | none => some p) with
    | none => none
    | some p =>
      match (if brackets then p.lit [')'] else some p) with
      | none => none
      | some p => some (v, p.ws)

/-! ### URL versions -/

/-- What is not modelled of the environment of the parser: `urlScheme u` is the scheme that
`Url.parse(u)` finds (http_client.py 84-94, `urllib.parse.urlsplit`), `none` when it raises
`ValueError`; `toUri p` is `Path(p).resolve().as_uri()` (vp 103). -/
structure UrlEnv where
  urlScheme : Text → Option Text
  toUri : Text → Text

/-- `\w` restricted to ASCII. -/
def isWord (c : Char) : Bool := isAlnum c || c == '_'

/-- Does `t` contain `s`. -/
def contains (s : Text) : Text → Bool
  | [] => s.isEmpty
  | c :: cs => s.isPrefixOf (c :: cs) || contains s cs

/-- `UrlVersion.parse` (version.py 75-79) with `VERSION_URL_RX` (version.py 10). -/
def parseUrlVersion (env : UrlEnv) (t : Text) : Option Ver :=
  let t := lower t
  let w := t.takeWhile isWord
  let rest := t.dropWhile isWord
  let (repo, url) := match w, rest with
    | _ :: _, '+' :: r => (some w, r)
    | _, _ => (none, t)
  let url := url.takeWhile (fun c => c != '\n')
  match env.urlScheme url with
  | some s => some (.url url repo s)
  | none => none

/-- `parse_version` (vp 10-19). -/
def parseVersion (env : UrlEnv) (t : Text) : Ver :=
  let l := lower t
  if contains [':', '/', '/'] l then
    match parseUrlVersion env l with
    | some v => v
    | none => .named t
  else match readVersion (.ofText l) with
    | some (v, _) => .std v
    | none => .named t

/-! ### read_specifier -/

/-- Exceptions of the specifier parser. -/
inductive PErr where
  | value              -- ValueError
  | spec (e : Err)     -- raised by the specifier operations
  deriving DecidableEq, Repr

/-- Run a specifier operation. -/
def liftS {α} : Except Err α → Except PErr α
  | .ok a => .ok a
  | .error e => .error (.spec e)

/-- `release[:-1] + (release[-1] + 1,)` (vp 118). -/
def incLast : List Nat → List Nat
  | [] => []
  | [n] => [n + 1]
  | n :: ns => n :: incLast ns

/-- `release[:-2] + (release[-2] + 1, 0)` (vp 138); at least two components. -/
def incPenult : List Nat → List Nat
  | [] => []
  | [n] => [n]
  | [n, _] => [n + 1, 0]
  | n :: ns => n :: incPenult ns

/-- The upper end of `==v.*` (vp 118). -/
def starMax (v : SV) : SV := { v with release := incLast v.release }

/-- The upper end of `~=v` (vp 137-139). -/
def tildeMax (v : SV) : SV := { release := incPenult v.release, epoch := v.epoch }

/-- `==v`, `==v.*`, `!=v`, `!=v.*` after the operator (vp 114-127). -/
def readEquality (neg : Bool) (p : PS) : Except PErr (VSpec × PS) :=
  match readVersion p.ws with
  | none => .error .value
  | some (v, p) => do
    let (r, p) ← match p.lit ['.', '*'] with
      | some q => do
        let r ← liftS (VSpec.createRange (some v) (some (starMax v)) true false)
        pure (r, q)
      | none => do
        let r ← liftS (VSpec.createRange (some v) (some v) true true)
        pure (r, p)
    if neg then do
      let i ← liftS r.inverse
      pure (i, p)
    else pure (r, p)

/-- `>=v`, `>v`, `<=v`, `<v` after the operator (vp 144-155). -/
def readComparison (lower : Bool) (incl : Bool) (p : PS) : Except PErr (VSpec × PS) :=
  match readVersion p.ws with
  | none => .error .value
  | some (v, p) => do
    let p := p.skipAny [['.', '*']]
    let r ← liftS (if lower then VSpec.createRange (some v) none incl false
      else VSpec.createRange none (some v) false incl)
    pure (r, p)

/-- `~=v` after the operator (vp 130-140). -/
def readTilde (p : PS) : Except PErr (VSpec × PS) :=
  match readVersion p.ws with
  | none => .error .value
  | some (v, p) =>
    if v.release.length = 1 then .error .value
    else do
      let r ← liftS (VSpec.createRange (some v) (some (tildeMax v)) true false)
      pure (r, p)

/-- `@url` after the operator (vp 100-105). -/
def readUrlClause (env : UrlEnv) (p : PS) : Except PErr (VSpec × PS) :=
  let (url, p) := p.ws.untilP isSpace
  let url := if contains [':', '/', '/'] url then url else env.toUri url
  match parseUrlVersion env url with
  | some v => .ok (.vmatch v true, p)
  | none => .error .value

/-- `_read_single_specifier` (vp 93-157). -/
def readClause (env : UrlEnv) (p : PS) : Except PErr (VSpec × PS) :=
  let p := p.ws
  match p.lit ['*'] with
  | some q => .ok (.all, q)
  | none =>
  match p.lit ['@'] with
  | some q => readUrlClause env q
  | none =>
  match p.lit ['=', '=', '='] with
  | some q =>
    let (n, q') := q.ws.untilP (fun c => isSpace c || c == ',')
    .ok (.vmatch (.named n) true, q')
  | none =>
  match p.litAny [['=', '='], ['!', '=']] with
  | some (op, q) => readEquality (op == ['!', '=']) q
  | none =>
  match p.lit ['~', '='] with
  | some q => readTilde q
  | none =>
  match p.litAny [['>', '='], ['>'], ['<', '='], ['<']] with
  | some (op, q) => readComparison (op.head? == some '>') (decide (op.length > 1)) q
  | none => .error .value

/-- The loop of `read_specifier` (vp 163-172). -/
def readClauses (env : UrlEnv) (paren : Bool) : Nat → VSpec → PS → Except PErr (VSpec × PS)
  | 0, _, _ => .error (.spec .fuel)
  | f + 1, spec, p =>
    match p.rest with
    | [] => .ok (spec, p)
    | _ :: _ => do
      let (c, q) ← readClause env p
      let spec ← liftS (spec.inter c)
      let q := q.ws
      match q.lit [','] with
      | some q' => readClauses env paren f spec q'
      | none =>
        match q.rest with
        | [] => .ok (spec, q)
        | _ :: _ =>
          if !paren then .ok (spec, q)
          else match q.lit [')'] with
            | some q' => .ok (spec, q')
            | none => .error .value

/-- `read_specifier` (vp 159-172); every clause consumes at least one character. -/
def readSpecifier (env : UrlEnv) (p : PS) : Except PErr (VSpec × PS) :=
  let p := p.ws
  let (paren, p) := match p.lit ['('] with
    | some q => (true, q)
    | none => (false, p)
  readClauses env paren (p.rest.length + 1) .all p

/-- `parse_specifier` (vp 22-23). -/
def parseSpecifier (env : UrlEnv) (t : Text) : Except PErr VSpec :=
  (readSpecifier env (.ofText (lower t))).map (·.1)

/-! ### printing specifiers -/

/-- The `~=` pattern recognised by `StandardVersionRange.__str__` (vs 536-539). -/
def tildeForm : Option SV → Option SV → Bool → Bool → Option SV
  | some m, some M, true, false =>
    if m.release.length > 1 ∧ M.release = incPenult m.release then some m else none
  | _, _, _, _ => none

/-- `>min`, `>=min` (vs 543-548). -/
def showMin (m : SV) (i : Bool) : Text := '>' :: (if i then ['='] else []) ++ m.show

/-- `<max`, `<=max` (vs 553-557). -/
def showMax (m : SV) (i : Bool) : Text := '<' :: (if i then ['='] else []) ++ m.show

/-- `StandardVersionRange.__str__` (vs 531-558). -/
def showRange (min max : Option SV) (imin imax : Bool) : Text :=
  match tildeForm min max imin imax with
  | some m => '~' :: '=' :: m.show
  | none =>
    match min, max with
    | some a, some b => showMin a imin ++ (',' :: ' ' :: showMax b imax)
    | some a, none => showMin a imin
    | none, some b => showMax b imax
    | none, none => []

/-- `sep.join(parts)`. -/
def joinText (sep : Text) : List Text → Text
  | [] => []
  | [t] => t
  | t :: u :: ts => t ++ (sep ++ joinText sep (u :: ts))

/-- `VersionMatch.__str__` (vs 409-416). -/
def showMatch : Ver → Bool → Text
  | .url u p _, a => (if a then ['@'] else ['!', '@']) ++ urlStr u p
  | .std v, a => (if a then ['=', '='] else ['!', '=']) ++ v.show
  | .named n, a => (if a then ['=', '=', '='] else ['!', '=', '=']) ++ n

mutual
/-- `__str__` of the six classes (vs 112, 152, 195-203, 322-326, 409-416, 531-558). The elements of
the blacklist set are printed in list order. -/
def VSpec.show : VSpec → Text
  | .none => ['<', 'n', 'o', 'n', 'e', '>']
  | .all => ['*']
  | .union segs =>
    match segs with
    | [.range .none (some M1) i1 I1, .range (some m2) .none i2 I2] =>
      if M1.eqv m2 then '!' :: '=' :: M1.show
      else joinText [';', ' '] [showRange .none (some M1) i1 I1, showRange (some m2) .none i2 I2]
    | segs => joinText [';', ' '] (showList segs)
  | .hetro bl std =>
    let b := joinText [',', ' '] (bl.map (fun v => '!' :: '=' :: v.show))
    match std with
    | .all => b
    | std => b ++ (',' :: ' ' :: VSpec.show std)
  | .vmatch v a => showMatch v a
  | .range min max imin imax => showRange min max imin imax
def showList : List VSpec → List Text
  | [] => []
  | s :: ss => VSpec.show s :: showList ss
end

end Pkm
