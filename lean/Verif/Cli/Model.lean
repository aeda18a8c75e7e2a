import Verif.Dict
import Verif.Text
/-
Model of the command line parser, pkm-cli/src/pkm_cli/api/dynamic_cli/command_parser.py ("cp" below).

Modelled: options, flags, positional arguments and their fields, sub-commands, the defaults and checks at the end of a
command. Not modelled: dynamic commands and arguments and providers of fields, which are code of the caller; the help
texts. Exceptions carry their cause only; an exception of a conversion (`int("x")`), which is no `CommandParsingError`,
is an error too.
-/
namespace Pkm
namespace Cli

/-- Values of arguments: that of a flag, a converted text or any default of type `V`, several values, and a value with
its fields (cp 504). -/
inductive Arg (V : Type) where
  | flag
  | val (v : V)
  | many (l : List (Arg V))
  | fields (value : Arg V) (fs : List (Text × Arg V))

/-- The readers (cp 109-165): a flag takes no text, the others take one and convert it or refuse it. -/
inductive Reader (V : Type) where
  | flag
  | text (conv : Text → Option V)

/-- A field of an argument (cp 168-173). -/
structure FieldDef (V : Type) where
  names : List Text
  name : Text
  default : Option (Arg V)
  reader : Reader V

/-- `OptionDef` (cp 230-250). `name` is its `field_name` (cp 186-191); a `default` of `none` is `MISSING`. -/
structure OptDef (V : Type) where
  names : List Text
  name : Text
  default : Option (Arg V)
  repeatable : Bool := false
  mutex : Option Text := none
  fields : Option (List (FieldDef V)) := none
  reader : Reader V

/-- `PositionalArgumentDef` (cp 216-227); `extra` is the number of values besides the first, `none` for `"*"`.
Simplification: a number of values is at least one. -/
structure PosDef (V : Type) where
  name : Text
  default : Option (Arg V) := none
  extra : Option Nat := some 0
  fields : Option (List (FieldDef V)) := none
  conv : Text → Option V

/-- A command (cp 262-267): its options and its positional arguments, each in order. -/
structure CmdDef (V : Type) where
  options : List (OptDef V)
  positional : List (PosDef V)

/-- `CommandAST` (cp 342-347). -/
inductive Node (V : Type) where
  | mk (cmd : Option (CmdDef V)) (children : List (Text × Node V))

def Node.cmd {V : Type} : Node V → Option (CmdDef V)
  | .mk c _ => c

def Node.children {V : Type} : Node V → List (Text × Node V)
  | .mk _ cs => cs

/-- The options of a node (cp 349-357). -/
def Node.options {V : Type} (n : Node V) : List (OptDef V) :=
  match n.cmd with
  | some c => c.options
  | none => []

/-- The positional arguments of a node (cp 359-366). -/
def Node.positional {V : Type} (n : Node V) : List (PosDef V) :=
  match n.cmd with
  | some c => c.positional
  | none => []

/-- The causes of errors. -/
inductive Err where
  | missing (name : Text)
  | exclusive (group : Text)
  | unknownOption (key : Text)
  | unknownField (key : Text)
  | unexpected (arg : Text)
  | value
  | noCommand
  deriving DecidableEq, Repr

/-- The values bound so far. -/
abbrev Args (V : Type) := Dict Text (Arg V)

/-! ### The buffer -/

/-- `next_option_key` (cp 424-434): the text before the first `=`; what follows it, if anything, takes the place of the
argument. The texts are stripped. -/
def optionKey (a : Text) (rest : List Text) : Text × List Text :=
  let key := a.takeWhile (· ≠ '=')
  let val := (a.dropWhile (· ≠ '=')).drop 1
  (strip key, if val.isEmpty then rest else strip val :: rest)
where
  /-- `s.strip()`. -/
  strip (s : Text) : Text := ((s.dropWhile isSpace).reverse.dropWhile isSpace).reverse

/-- `read_value` (cp 111-112, 127-132, 143-145). -/
def readValue {V : Type} (r : Reader V) (buf : List Text) : Except Err (Arg V × List Text) :=
  match r with
  | .flag => .ok (.flag, buf)
  | .text conv =>
    match buf with
    | [] => .error .value
    | a :: rest =>
      match conv a with
      | some v => .ok (.val v, rest)
      | none => .error .value

/-! ### Fields -/

/-- The field with a name: the last one that has it (cp 506). -/
def findField {V : Type} (fs : List (FieldDef V)) (key : Text) : Option (FieldDef V) :=
  (fs.reverse.find? (fun f => decide (key ∈ f.names)))

/-- The loop over the `+field` arguments (cp 508-513). -/
def fieldLoop {V : Type} (fs : List (FieldDef V)) : Nat → List (Text × Arg V) → List Text →
    Except Err (List (Text × Arg V) × List Text)
  | 0, acc, buf => .ok (acc, buf)
  | n + 1, acc, buf =>
    match buf with
    | [] => .ok (acc, buf)
    | a :: rest =>
      if a.head? = some '+' then
        let k := optionKey a rest
        match findField fs k.1 with
        | none => .error (.unknownField k.1)
        | some f =>
          match readValue f.reader k.2 with
          | .error e => .error e
          | .ok (v, buf') => fieldLoop fs n (Dict.put acc f.name v) buf'
      else .ok (acc, buf)

/-- The defaults of the fields that were not given (cp 515-517). -/
def fieldDefaults {V : Type} : List (FieldDef V) → List (Text × Arg V) → Except Err (List (Text × Arg V))
  | [], acc => .ok acc
  | f :: fs, acc =>
    if Dict.has acc f.name then fieldDefaults fs acc
    else match f.default with
      | none => .error (.missing f.name)
      | some v => fieldDefaults fs (Dict.put acc f.name v)

/-- The number of characters and of arguments: no loop takes more steps. -/
def size (buf : List Text) : Nat := (buf.map (fun a => a.length + 1)).foldr (· + ·) 0

/-- `_read_subfields` (cp 484-519). -/
def readFields {V : Type} (fs : Option (List (FieldDef V))) (value : Arg V) (buf : List Text) :
    Except Err (Arg V × List Text) :=
  match fs with
  | none => .ok (value, buf)
  | some fs =>
    match fieldLoop fs (size buf) [] buf with
    | .error e => .error e
    | .ok (acc, buf') =>
      match fieldDefaults fs acc with
      | .error e => .error e
      | .ok acc' => .ok (.fields value acc', buf')

/-! ### Options -/

/-- The options every command has: `-h,--help` (cp 458-460). -/
def helpOption {V : Type} (off : V) : OptDef V :=
  { names := [['-', 'h'], "--help".toList], name := "help".toList, default := some (.val off), reader := .flag }

/-- `_get_option` (cp 555-560): the last option of the command with the name, or the help option. -/
def findOption {V : Type} (off : V) (opts : List (OptDef V)) (key : Text) : Option (OptDef V) :=
  match opts.reverse.find? (fun o => decide (key ∈ o.names)) with
  | some o => some o
  | none => if key ∈ (helpOption off).names then some (helpOption off) else none

/-- Adds a value of an option (cp 550-553). -/
def bindOption {V : Type} (o : OptDef V) (v : Arg V) (args : Args V) : Args V :=
  if o.repeatable then
    match args.get o.name with
    | some (.many l) => args.put o.name (.many (l ++ [v]))
    | _ => args.put o.name (.many [v])
  else args.put o.name v

/-- `_read_option_value` (cp 547-553). -/
def readOption {V : Type} (o : OptDef V) (args : Args V) (buf : List Text) : Except Err (Args V × List Text) :=
  match readValue o.reader buf with
  | .error e => .error e
  | .ok (v, buf1) =>
    match readFields o.fields v buf1 with
    | .error e => .error e
    | .ok (v', buf2) => .ok (bindOption o v' args, buf2)

/-- `is_flag` (cp 249-250). -/
def OptDef.isFlag {V : Type} (o : OptDef V) : Bool :=
  match o.reader with
  | .flag => true
  | .text _ => false

/-- The loop over the letters of a short option (cp 570-582). -/
def shorts {V : Type} (off : V) (opts : List (OptDef V)) : Text → Option (OptDef V) → Args V → List Text →
    Except Err (Args V × List Text)
  | [], none, args, buf => .ok (args, buf)
  | [], some o, args, buf => readOption o args buf
  | _ :: _, some o, _, _ => .error .value
  | c :: cs, none, args, buf =>
    match findOption off opts ['-', c] with
    | none => .error (.unknownOption ['-', c])
    | some o =>
      if o.isFlag then
        match readFields o.fields .flag buf with
        | .error e => .error e
        | .ok (v, buf') => shorts off opts cs none (args.put o.name v) buf'
      else shorts off opts cs (some o) args buf

/-- `_read_option_or_flag` (cp 562-582). -/
def readOptionOrFlag {V : Type} (off : V) (opts : List (OptDef V)) (a : Text) (rest : List Text) (args : Args V) :
    Except Err (Args V × List Text) :=
  let k := optionKey a rest
  match k.1 with
  | '-' :: '-' :: _ =>
    match findOption off opts k.1 with
    | none => .error (.unknownOption k.1)
    | some o => readOption o args k.2
  | '-' :: cs => shorts off opts cs none args k.2
  | _ => .ok (args, k.2)

/-! ### Positional arguments -/

/-- The loop of `_read_positional` (cp 526-527): up to the given number of values, or all. -/
def posLoop {V : Type} (p : PosDef V) : Nat → Option Nat → List (Arg V) → List Text →
    Except Err (List (Arg V) × List Text)
  | 0, _, acc, buf => .ok (acc, buf)
  | n + 1, left, acc, buf =>
    match buf, left with
    | [], _ => .ok (acc, buf)
    | _ :: _, some 0 => .ok (acc, buf)
    | a :: rest, left =>
      match p.conv a with
      | none => .error .value
      | some v =>
        match readFields p.fields (.val v) rest with
        | .error e => .error e
        | .ok (v', buf') => posLoop p n (left.map (· - 1)) (acc ++ [v']) buf'

/-- What is bound to the argument (cp 529-537). -/
def posValue {V : Type} (p : PosDef V) (values : List (Arg V)) : Except Err (Arg V) :=
  match p.extra with
  | none => .ok (.many values)
  | some n =>
    if n + 1 ≠ values.length then .error .value
    else if n = 0 then
      match values with
      | v :: _ => .ok v
      | [] => .error .value
    else .ok (.many values)

/-- `_read_positional` (cp 521-540). -/
def readPositional {V : Type} (p : PosDef V) (args : Args V) (buf : List Text) : Except Err (Args V × List Text) :=
  match posLoop p (size buf) (p.extra.map (· + 1)) [] buf with
  | .error e => .error e
  | .ok (values, buf') =>
    match posValue p values with
    | .error e => .error e
    | .ok v => .ok (args.put p.name v, buf')

/-! ### Commands -/

/-- `_generate_defaults_for` (cp 462-467). -/
def defaultOf {V : Type} (name : Text) : Option (Arg V) → Except Err (Arg V)
  | none => .error (.missing name)
  | some v => .ok v

/-- The first loop of `finilize_command` (cp 633-643) over the options, with the groups seen so far. -/
def finOptions {V : Type} : List (OptDef V) → List Text → Args V → Except Err (Args V)
  | [], _, args => .ok args
  | o :: os, seen, args =>
    if Dict.has args o.name then
      match o.mutex with
      | some g => if g ∈ seen then .error (.exclusive g) else finOptions os (g :: seen) args
      | none => finOptions os seen args
    else
      match defaultOf o.name o.default with
      | .error e => .error e
      | .ok v => finOptions os seen (args.put o.name v)

/-- The second loop of `finilize_command` (cp 645-647). -/
def finPositional {V : Type} : List (PosDef V) → Args V → Except Err (Args V)
  | [], args => .ok args
  | p :: ps, args =>
    match defaultOf p.name p.default with
    | .error e => .error e
    | .ok v => finPositional ps (args.put p.name v)

/-- `finilize_command` (cp 628-647). -/
def finalize {V : Type} (off : V) (n : Node V) (index : Nat) (args : Args V) : Except Err (Args V) :=
  match finOptions (helpOption off :: n.options) [] args with
  | .error e => .error e
  | .ok args' => finPositional (n.positional.drop index) args'

/-- A command as the parser has it: its node, its path, its arguments, the number of positional arguments read, and the
commands before it, innermost first. -/
structure St (V : Type) where
  node : Node V
  path : List Text := []
  args : Args V := []
  index : Nat := 0
  parents : List (List Text × Args V) := []
  buf : List Text

/-- One turn of the loop of `parse` (cp 588-605). -/
def step {V : Type} (off : V) (s : St V) (a : Text) (rest : List Text) : Except Err (St V) :=
  if a.head? = some '-' then
    match readOptionOrFlag off s.node.options a rest s.args with
    | .error e => .error e
    | .ok (args, buf) => .ok { s with args := args, buf := buf }
  else if a.head? = some '+' then .error (.unexpected a)
  else
    match Dict.get s.node.children a with
    | some sub =>
      match finalize off s.node s.index s.args with
      | .error e => .error e
      | .ok args => .ok { node := sub, path := s.path ++ [a], parents := (s.path, args) :: s.parents, buf := rest }
    | none =>
      match s.node.positional[s.index]? with
      | some p =>
        match readPositional p s.args (a :: rest) with
        | .error e => .error e
        | .ok (args, buf) => .ok { s with args := args, buf := buf, index := s.index + 1 }
      | none => .error (.unexpected a)

/-- The end of `parse` (cp 618-622): the commands with their arguments, outermost first. -/
def finish {V : Type} (off : V) (s : St V) : Except Err (List (List Text × Args V)) :=
  match s.node.cmd with
  | none => .error .noCommand
  | some _ =>
    match finalize off s.node s.index s.args with
    | .error e => .error e
    | .ok args => .ok ((s.path, args) :: s.parents).reverse

/-- The loop of `parse` (cp 588): it ends at the end of the arguments and at an empty argument. -/
def loop {V : Type} (off : V) : Nat → St V → Except Err (List (List Text × Args V))
  | 0, s => finish off s
  | n + 1, s =>
    match s.buf with
    | [] => finish off s
    | [] :: _ => finish off s
    | (c :: a) :: rest =>
      match step off s (c :: a) rest with
      | .error e => .error e
      | .ok s' => loop off n s'

/-- `DynamicCommandLine.create(commands, args).parse()` (cp 584-626, 649-654). -/
def parse {V : Type} (off : V) (root : Node V) (args : List Text) : Except Err (List (List Text × Args V)) :=
  loop off (size args) { node := root, buf := args }

end Cli
end Pkm
