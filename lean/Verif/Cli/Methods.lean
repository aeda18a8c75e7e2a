import Verif.Cli.Model
import Verif.Tags.Model
/-
Model of commands made from functions: pkm-cli/src/pkm_cli/api/dynamic_cli/method_parser.py ("mp"), and the names of arguments in
pkm-cli/src/pkm_cli/api/dynamic_cli/command_parser.py ("cp").

Simplifications: names are ASCII identifiers; the types of the parameters and the texts of the help are not modelled.
-/
namespace Pkm.Cli.Methods

/-- Python's `isalpha`, on ASCII. -/
def alpha (c : Char) : Bool := ('a' ≤ c && c ≤ 'z') || ('A' ≤ c && c ≤ 'Z')

def digit (c : Char) : Bool := '0' ≤ c && c ≤ '9'

/-- `\w`, on ASCII. -/
def word (c : Char) : Bool := alpha c || digit c || c == '_'

/-- The kinds of keyword-only parameters (mp 85-95). -/
inductive Kw where
  | required
  | value
  | flag
  deriving DecidableEq, Repr

/-- What `inspect.getfullargspec` tells (mp 65-77): the parameters, with whether they have a default. -/
structure Sig where
  args : List (Text × Bool)
  varargs : Option Text := none
  kwonly : List (Text × Kw)
  deriving DecidableEq, Repr

/-- `arg.replace('_', '-')` (mp 71, 75, 125). -/
def dash (a : Text) : Text := a.map (fun c => if c = '_' then '-' else c)

def longName (a : Text) : Text := '-' :: '-' :: dash a

/-- The second loop of `_generate_option_names` (mp 123-132). -/
def longs : List Text → List Text → List (Text × List Text)
  | _, [] => []
  | taken, a :: as => match a.find? (fun c => alpha c && !taken.contains ['-', c]) with
    | some c => (a, [longName a, ['-', c]]) :: longs (longName a :: ['-', c] :: taken) as
    | none => (a, [longName a]) :: longs (longName a :: taken) as

/-- `_generate_option_names` (mp 111-134). -/
def optionNames (args : List Text) : List (Text × List Text) :=
  (args.filter (fun a => a.length = 1)).map (fun a => (a, ['-' :: a])) ++
    longs ((args.filter (fun a => a.length = 1)).map (fun a => '-' :: a)) (args.filter (fun a => a.length ≠ 1))

/-- `re.sub(r'\W+', '_', ...)`; the flag tells whether the last character was replaced. -/
def collapse : Bool → Text → Text
  | _, [] => []
  | run, c :: cs =>
    if word c then c :: collapse false cs
    else if run then collapse true cs
    else '_' :: collapse true cs

/-- `_identifierify` (cp 657-658). -/
def identifierify (t : Text) : Text :=
  match t with
  | c :: _ => if digit c then '_' :: collapse false t else collapse false t
  | [] => []

/-- `lstrip('-+')` (cp 191). -/
def lstrip (t : Text) : Text := t.dropWhile (fun c => c = '-' || c = '+')

/-- `it.startswith("--") or not it.startswith("-")` (cp 190). -/
def baseName (n : Text) : Bool := (t!"--").isPrefixOf n || !(t!"-").isPrefixOf n

/-- `field_name` (cp 187-191), with the names from the shortest to the longest. -/
def fieldName (names : List Text) : Text :=
  identifierify (lstrip (((names.find? baseName).or names.head?).getD []))

/-- The arguments of a command: their field names. -/
structure Def where
  positional : List (Text × Bool)
  rest : Option Text
  options : List (List Text × Text × Kw)
  deriving DecidableEq, Repr

/-- The names of an option in the order of `defined_names` (cp 181): the short one first. -/
def namesOf (table : List (Text × List Text)) (a : Text) : List Text := ((table.find? (fun x => x.1 == a)).map (·.2.reverse)).getD []

/-- `command_definition_from_method` (mp 57-103); `none`: `kwonlydefaults` is `None` and has no `get` (mp 78, 83). -/
def definition (s : Sig) : Option Def :=
  if !s.kwonly.isEmpty && s.kwonly.all (fun k => k.2 == .required) then none
  else some
    { positional := s.args.map (fun a => (fieldName [dash a.1], a.2))
      rest := s.varargs.map (fun a => fieldName [dash a])
      options := s.kwonly.map (fun k =>
        (namesOf (optionNames (s.kwonly.map (·.1))) k.1, fieldName (namesOf (optionNames (s.kwonly.map (·.1))) k.1), k.2)) }

/-- `allowed_args` (mp 96). -/
def Def.fields (d : Def) : List Text := d.positional.map (·.1) ++ d.rest.toList ++ d.options.map (·.2.1)

variable {V : Type}

/-- A call with keyword arguments only (mp 99): every keyword is a parameter, and every parameter without a default is given.
The parameters with the values given, or `none` for `TypeError`. -/
def callWith (s : Sig) (kw : List (Text × V)) : Option (List (Text × V)) :=
  if kw.all (fun k => (s.args.map (·.1)).contains k.1 || (s.kwonly.map (·.1)).contains k.1) &&
     s.args.all (fun a => a.2 || (kw.map (·.1)).contains a.1) &&
     s.kwonly.all (fun a => a.2 != .required || (kw.map (·.1)).contains a.1)
  then some kw else none

/-- `execution` (mp 98-99). -/
def execution (s : Sig) (d : Def) (arguments : List (Text × V)) : Option (List (Text × V)) :=
  callWith s (arguments.filter (fun a => d.fields.contains a.1))

/-- The options as the parser sees them. -/
def Def.opts (d : Def) (conv : Text → Option V) (off : V) : List (OptDef V) :=
  d.options.map (fun o =>
    { names := o.1, name := o.2.1,
      default := if o.2.2 = .required then none else some (.val off),
      reader := if o.2.2 = .flag then .flag else .text conv })

end Pkm.Cli.Methods
