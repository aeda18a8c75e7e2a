import Verif.VersionText.Model
/-
Model of pkm/src/pkm/api/dependencies/env_markers.py (cited as "em").

The parser is modelled on the rest of the text (`self.text[self.position:]`), it never looks back.
The closures built by the parser are modelled by the expression they stand for (`Marker`), and calling
a closure by `Marker.eval`.
-/
namespace Pkm.Markers

/-- Exceptions: `ValueError`, `TypeError`, the `KeyError` of `e.markers[...]` and the exceptions of the
specifier operations. `fuel` is the model running out of steps. -/
inductive MErr where
  | value | type | key (name : Text) | spec (e : Err) | fuel
  deriving DecidableEq, Repr

/-- What `_read_marker_var` returns (em 54-64): a text, the list of extras or an environment marker. -/
inductive Operand where
  | str (s : Text)
  | extra
  | name (n : Text)
  deriving DecidableEq, Repr

/-- The operators (em 67, 88). -/
inductive Op where
  | le | lt | ge | gt | ne | eq | compat | isIn | notIn
  deriving DecidableEq, Repr

/-- The closures: one comparison (em 111), the conjunction (em 130-131) and the disjunction
(em 145-146). -/
inductive Marker where
  | cmp (l : Operand) (op : Op) (r : Operand)
  | and (a b : Marker)
  | any (l : List Marker)

/-! ### evaluation -/

/-- What markers are evaluated on: `env.markers` (a dictionary of texts), the requested extras and
`str` of a list of texts; `urls` is what the version parser needs. -/
structure Ctx where
  markers : Text → Option Text
  extras : List Text
  strList : List Text → Text
  urls : UrlEnv

/-- The value of an operand. -/
inductive OVal where
  | text (s : Text)
  | list (l : List Text)

/-- Calling the closure of an operand (em 57, 62, 64). -/
def Operand.eval (c : Ctx) : Operand → Except MErr OVal
  | .str s => .ok (.text s)
  | .extra => .ok (.list c.extras)
  | .name n => match c.markers n with
    | some v => .ok (.text v)
    | none => .error (.key n)

/-- `str(a)`. -/
def OVal.str (c : Ctx) : OVal → Text
  | .text s => s
  | .list l => c.strList l

/-- The text of a version operator (em 67). -/
def Op.text : Op → Text
  | .le => ['<', '='] | .lt => ['<'] | .ge => ['>', '='] | .gt => ['>'] | .ne => ['!', '=']
  | .eq => ['=', '='] | .compat => ['~', '='] | .isIn => ['i', 'n'] | .notIn => ['n', 'o', 't', ' ', 'i', 'n']

/-- `eval(f"{repr(str(a))} {op} {repr(str(b))}")` (em 84, 93). -/
def strCompare (op : Op) (a b : Text) : Except MErr Bool :=
  match op with
  | .le => .ok (strLt a b || a == b)
  | .lt => .ok (strLt a b)
  | .ge => .ok (strLt b a || a == b)
  | .gt => .ok (strLt b a)
  | .ne => .ok (!(a == b))
  | .eq => .ok (a == b)
  | .compat => .error .value
  | .isIn => .ok (contains a b)
  | .notIn => .ok (!contains a b)

/-- The body of the `try` and its handler (em 77-84). `Version.parse` does not raise. -/
def versionCompare (c : Ctx) (op : Op) (a b : Text) : Except MErr Bool :=
  match parseSpecifier c.urls (op.text ++ (' ' :: b)) with
  | .ok spec => .ok (spec.allows (parseVersion c.urls a))
  | .error (.spec e) => .error (.spec e)
  | .error .value => strCompare op a b

/-- The two `_op` functions (em 69-84, 92-93). A list is never an element of the list of extras. -/
def compare (c : Ctx) (op : Op) (a b : OVal) : Except MErr Bool :=
  match op with
  | .isIn => strCompare .isIn (a.str c) (b.str c)
  | .notIn => strCompare .notIn (a.str c) (b.str c)
  | .eq => match a, b with
    | .list l, .text s => .ok (l.contains s)
    | .list _, .list _ => .ok false
    | .text s, .list l => .ok (l.contains s)
    | .text s, .text t => versionCompare c .eq s t
  | op => versionCompare c op (a.str c) (b.str c)

/-- `op(left(e, x), right(e, x))` (em 111). -/
def compareOperands (c : Ctx) (l : Operand) (op : Op) (r : Operand) : Except MErr Bool := do
  let a ← l.eval c
  let b ← r.eval c
  compare c op a b

mutual
/-- Calling the closure of a marker (em 24-25, 111, 130-131, 145-146). -/
def Marker.eval (c : Ctx) : Marker → Except MErr Bool
  | .cmp l op r => compareOperands c l op r
  | .and a b => match Marker.eval c a with
    | .ok true => Marker.eval c b
    | r => r
  | .any l => evalAny c l
/-- `any(expr_(e, x) for expr_ in ors)` (em 146). -/
def evalAny (c : Ctx) : List Marker → Except MErr Bool
  | [] => .ok false
  | m :: ms => match Marker.eval c m with
    | .ok false => evalAny c ms
    | r => r
end

/-! ### parsing -/

/-- `c.isalpha()` restricted to ASCII. -/
def isAlpha (c : Char) : Bool := isLower c || isUpper c

/-- The characters of an identifier (em 43). -/
def isIdent (c : Char) : Bool := isAlnum c || c == '_' || c == '-' || c == '.'

/-- `_MARKER_STR_CHARS` (em 35-36). -/
def markerStrChars : Text :=
  " \t0123456789abcdefghijklmnopqrstuvwxyzABCDEFGHIZKLMNOPQRSTUVWXYZ().{}-_*#:;,/?[]!`~@$%^&=+|<>".toList

/-- `self.match_ws()` (parsers.py 171-182). -/
def skipWs (t : Text) : Text := t.dropWhile isSpace

/-- `self.match_ws(False)` (parsers.py 171-182). -/
def skipBlanks (t : Text) : Text := t.dropWhile (fun c => isSpace c && c != '\n')

/-- `self.match(s)` (parsers.py 69-81): the rest after the match. -/
def matchLit (s t : Text) : Option Text :=
  if s.isPrefixOf t then some (t.drop s.length) else none

/-- `_read_identifier` (em 41-44) with at least one character left. -/
def readIdent : Text → Except MErr (Text × Text)
  | [] => .error .value
  | c :: cs =>
    if isAlpha c then .ok ((c :: cs).takeWhile isIdent, (c :: cs).dropWhile isIdent)
    else .error .value

/-- The other quote (em 48). -/
def otherQuote (q : Char) : Char := if q == '"' then '\'' else '"'

/-- May the character appear inside quotes (em 50). -/
def inString (q c : Char) : Bool := c == otherQuote q || markerStrChars.contains c

/-- `_read_str` (em 46-52) after the opening quote. -/
def readStr (q : Char) (t : Text) : Except MErr (Text × Text) :=
  match t.dropWhile (inString q) with
  | [] => .error .value
  | d :: r => if d == q then .ok (t.takeWhile (inString q), r) else .error .value

/-- The operand of an identifier (em 61-64). -/
def identOperand (n : Text) : Operand :=
  if n = ['e', 'x', 't', 'r', 'a'] then .extra else .name n

/-- `_read_marker_var` (em 54-64). At the end of the text `self.peek() in '"\''` holds and `match_any`
gives `None`, whose `len` raises `TypeError`. -/
def readVar (t : Text) : Except MErr (Operand × Text) :=
  match t with
  | [] => .error .type
  | c :: cs =>
    if c == '"' || c == '\'' then
      match readStr c cs with
      | .ok (s, r) => .ok (.str s, r)
      | .error e => .error e
    else
      match readIdent (c :: cs) with
      | .ok (n, r) => .ok (identOperand n, r)
      | .error e => .error e

/-- The version operators in the order in which they are tried (em 67); `===` is tried after `==`. -/
def versionOps : List (Text × Op) :=
  [(['<', '='], .le), (['<'], .lt), (['>', '='], .ge), (['>'], .gt), (['!', '='], .ne),
   (['=', '='], .eq), (['=', '=', '='], .eq), (['~', '='], .compat)]

/-- `self.match_any(...)` over operators. -/
def matchOp : List (Text × Op) → Text → Option (Op × Text)
  | [], _ => none
  | (s, op) :: ops, t => match matchLit s t with
    | some r => some (op, r)
    | none => matchOp ops t

/-- `self.match("not", "in")` (em 88). -/
def matchNotIn (t : Text) : Option Text :=
  match matchLit ['n', 'o', 't'] t with
  | none => none
  | some r => matchLit ['i', 'n'] (skipBlanks r)

/-- `_read_marker_op` (em 66-95). -/
def readOp (t : Text) : Except MErr (Op × Text) :=
  match matchOp versionOps t with
  | some (op, r) => .ok (op, r)
  | none =>
    match matchLit ['i', 'n'] t with
    | some r => .ok (.isIn, r)
    | none =>
      match matchNotIn t with
      | some r => .ok (.notIn, r)
      | none => .error .value

/-- The comparison of `_read_marker_expr` (em 105-111). -/
def readCmp (t : Text) : Except MErr (Marker × Text) :=
  match readVar t with
  | .error e => .error e
  | .ok (l, t1) =>
    match readOp (skipWs t1) with
    | .error e => .error e
    | .ok (op, t2) =>
      match readVar (skipWs t2) with
      | .error e => .error e
      | .ok (r, t3) => .ok (.cmp l op r, t3)

/-- `self.match_or_err(")", ...)` (em 102). -/
def closeParen : Except MErr (Marker × Text) → Except MErr (Marker × Text)
  | .ok (m, ')' :: r) => .ok (m, r)
  | .ok _ => .error .value
  | .error e => .error e

/-- `self.is_empty() or self.peek() in ';)'` (em 120). -/
def atEnd : Text → Bool
  | [] => true
  | c :: _ => c == ';' || c == ')'

/-- `self.match_any('and', 'or')` (em 123); true for `and`. -/
def matchLogic (t : Text) : Option (Bool × Text) :=
  match matchLit ['a', 'n', 'd'] t with
  | some r => some (true, r)
  | none => match matchLit ['o', 'r'] t with
    | some r => some (false, r)
    | none => none

/-- After the loop (em 142-151). -/
def finish (expr : Option Marker) (ors : List Marker) (t : Text) : Except MErr (Marker × Text) :=
  match expr with
  | none => .error .value
  | some e => match ors with
    | [] => .ok (e, t)
    | _ :: _ => .ok (.any (ors ++ [e]), t)

mutual
/-- `_read_marker_expr` (em 97-111). -/
def readExpr : Nat → Text → Except MErr (Marker × Text)
  | 0, _ => .error .fuel
  | f + 1, t =>
    match skipWs t with
    | '(' :: r => closeParen (readCompound f r)
    | t => readCmp t
/-- `_read_marker_compound_expr` (em 113-151). -/
def readCompound : Nat → Text → Except MErr (Marker × Text)
  | 0, _ => .error .fuel
  | f + 1, t => readChain f none [] (skipWs t)
/-- The loop (em 120-140). -/
def readChain : Nat → Option Marker → List Marker → Text → Except MErr (Marker × Text)
  | 0, _, _, _ => .error .fuel
  | f + 1, expr, ors, t =>
    if atEnd t then finish expr ors t
    else match expr with
      | some e =>
        match matchLogic t with
        | none => .error .value
        | some (isAnd, t1) =>
          match readExpr f t1 with
          | .error x => .error x
          | .ok (n, t2) =>
            if isAnd then readChain f (some (.and e n)) ors (skipWs t2)
            else readChain f (some n) (ors ++ [e]) (skipWs t2)
      | none =>
        match readExpr f t with
        | .error x => .error x
        | .ok (n, t2) => readChain f (some n) ors (skipWs t2)
end

/-- `EnvironmentMarker` (em 17-32): its text and its predicate. -/
structure EnvMarker where
  expr : Text
  exec : Marker

/-- `read_marker` (em 153-156). The number of steps is bounded by the length of the text. -/
def readMarker (t : Text) : Except MErr (EnvMarker × Text) :=
  match readCompound (4 * t.length + 8) t with
  | .error e => .error e
  | .ok (m, r) => .ok (⟨t.take (t.length - r.length), m⟩, r)

/-- `EnvironmentMarker.parse_pep508` (em 30-32); what follows the marker is ignored. -/
def parseMarker (t : Text) : Except MErr EnvMarker := (readMarker t).map (·.1)

/-- `EnvironmentMarker.evaluate_on` (em 24-25). -/
def EnvMarker.evaluate (m : EnvMarker) (c : Ctx) : Except MErr Bool := m.exec.eval c

end Pkm.Markers
