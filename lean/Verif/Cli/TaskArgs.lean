import Verif.Dict
import Verif.Tags.Model
set_option linter.unusedSimpArgs false
/-
Model of the arguments of functions on the command line: pkm-cli/src/pkm_cli/utils/method_clis.py 30-78 ("mc"), made for the arguments of tasks.
Property C117: a function gets the arguments that were written.

Simplifications: the function has no keyword-only parameters and no `**kwargs`; an annotation is given by what calling it with a text
does (`conv`; `none`: it raises), for `str`, `Optional[str]` and parameters without annotation it is the text itself. Names that are
no parameters have the text as value (as without annotation); the call then raises whatever it is.
-/
namespace Pkm
namespace TaskArgs

/-- Exceptions: `UnsupportedOperation` (mc 73), what an annotation raises (mc 54-55), and the `TypeError` of a call (mc 56). -/
inductive Err where
  | positional | conversion | type
deriving DecidableEq

/-- `arg.partition('=')` (mc 69): the name, and the value if there is a separator. -/
def partitionEq : Text → Text × Option Text
  | [] => ([], none)
  | c :: s => if c = '=' then ([], some s) else (c :: (partitionEq s).1, (partitionEq s).2)

/-- Lines 63-67. -/
def word (arg : Text) : Text :=
  if t!"--".isPrefixOf arg then
    if '=' ∈ arg then arg.drop 2 else arg.drop 2 ++ t!"=True"
  else arg

/-- The loop of `parse` (mc 61-76). -/
def parseLoop : List Text → List Text → Dict Text Text → Except Err (List Text × Dict Text Text)
  | [], a, k => .ok (a, k)
  | w :: ws, a, k =>
    match partitionEq (word w) with
    | (n, some v) => parseLoop ws a (k.put n v)
    | (n, none) => if k ≠ [] then .error .positional else parseLoop ws (a ++ [n]) k

/-- `CliMethodArgs.parse` (mc 58-78). -/
def parse (args : List Text) : Except Err (List Text × Dict Text Text) := parseLoop args [] []

/-- A parameter of a function. -/
structure Param (V : Type) where
  name : Text
  conv : Text → Option V
  default : Option V := none

/-- A function: its parameters, and whether it has `*args`. -/
structure Method (V : Type) where
  params : List (Param V)
  star : Bool := false

variable {V : Type}

/-- `parser_for` (mc 43-52); `ofText` is the value that is a text. -/
def parserFor (ofText : Text → V) (m : Method V) (name : Text) : Text → Option V :=
  match m.params.find? (fun p => p.name == name) with
  | some p => p.conv
  | none => fun t => some (ofText t)

/-- `parsed_args` (mc 38, 54): `zip` ends with the shorter list. -/
def parsedArgs (f : Text → Text → Option V) : List Text → List Text → Option (List V)
  | a :: as, n :: ns =>
    match f n a, parsedArgs f as ns with
    | some v, some vs => some (v :: vs)
    | _, _ => none
  | _, _ => some []

/-- `parsed_kwargs` (mc 55). -/
def parsedKwargs (f : Text → Text → Option V) : Dict Text Text → Option (Dict Text V)
  | [] => some []
  | (n, t) :: k =>
    match f n t, parsedKwargs f k with
    | some v, some vs => some ((n, v) :: vs)
    | _, _ => none

/-- The values of the parameters in a call: positional arguments first, then named ones, then defaults; `none` if one is missing. -/
def fill : List (Param V) → List V → Dict Text V → Option (List V)
  | [], _, _ => some []
  | _ :: ps, v :: vs, kw => (fill ps vs kw).map (v :: ·)
  | p :: ps, [], kw =>
    match (kw.get p.name).or p.default with
    | some v => (fill ps [] kw).map (v :: ·)
    | none => none

/-- `method(*pos, **kw)` (mc 56) as Python binds arguments: the values of the parameters and those of `*args`. -/
def call (m : Method V) (pos : List V) (kw : Dict Text V) : Except Err (List V × List V) :=
  if m.params.length < pos.length ∧ m.star = false then .error .type
  else if kw.any (fun e => decide (e.1 ∉ (m.params.drop pos.length).map (·.name))) then .error .type
  else match fill m.params pos kw with
    | some vs => .ok (vs, pos.drop m.params.length)
    | none => .error .type

/-- `CliMethodArgs.invoke` (mc 35-56). -/
def invoke (ofText : Text → V) (m : Method V) (args : List Text) (kwargs : Dict Text Text) : Except Err (List V × List V) :=
  match parsedArgs (parserFor ofText m) args (m.params.map (·.name)), parsedKwargs (parserFor ofText m) kwargs with
  | some pos, some kw => call m pos kw
  | _, _ => .error .conversion

/-- `CliMethodArgs.parse(args).invoke(method)`. -/
def run (ofText : Text → V) (m : Method V) (words : List Text) : Except Err (List V × List V) :=
  match parse words with
  | .ok (a, k) => invoke ofText m a k
  | .error e => .error e

end TaskArgs

namespace Spec.Args
open TaskArgs (Param Method)
variable {V : Type}

/-- An argument with a name. -/
inductive Named where
  | pair (name value : Text)
  | option (name value : Text)
  | flag (name : Text)

/-- How it is written: `name=value`, `--name=value`, `--name`. -/
def Named.text : Named → Text
  | .pair n v => n ++ '=' :: v
  | .option n v => '-' :: '-' :: (n ++ '=' :: v)
  | .flag n => '-' :: '-' :: n

/-- Its name. -/
def Named.name : Named → Text
  | .pair n _ | .option n _ | .flag n => n

/-- Its value; a flag is `True`. -/
def Named.value : Named → Text
  | .pair _ v | .option _ v => v
  | .flag _ => t!"True"

/-- A name: not empty, does not start with a dash, no equal sign. -/
def IsName (n : Text) : Prop := n ≠ [] ∧ n.head? ≠ some '-' ∧ '=' ∉ n

/-- An argument without a name: no equal sign, does not start with two dashes. -/
def Plain (t : Text) : Prop := '=' ∉ t ∧ ¬ t!"--" <+: t

/-- The value that is given to a name: the last one. -/
def given (ns : List Named) (n : Text) : Option Text := ((ns.filter (fun a => a.name == n)).getLast?).map Named.value

/-- The value of a parameter, from the argument in its place (if any), the named arguments and its default. -/
inductive Means (p : Param V) (ns : List Named) : Option Text → V → Prop where
  | place (a : Text) (v : V) (h : p.conv a = some v) : Means p ns (some a) v
  | named (t : Text) (v : V) (hg : given ns p.name = some t) (h : p.conv t = some v) : Means p ns none v
  | default (v : V) (hg : given ns p.name = none) (h : p.default = some v) : Means p ns none v

/-- The function gets these values: one for each parameter, as written. -/
def Gets (m : Method V) (ps : List Text) (ns : List Named) (vals : List V) : Prop :=
  vals.length = m.params.length ∧
    ∀ (i : Nat) p, m.params[i]? = some p → ∃ v, vals[i]? = some v ∧ Means p ns (ps[i]?) v

/-- Every named argument is for a parameter that has no argument in its place. -/
def Fitting (m : Method V) (ps : List Text) (ns : List Named) : Prop :=
  ∀ a ∈ ns, ∃ (i : Nat) (p : Param V), ps.length ≤ i ∧ m.params[i]? = some p ∧ p.name = a.name

end Spec.Args
end Pkm
