import Verif.Cli.Model
import Verif.Sort
import Verif.Parser
/-
Model of the help of a command, pkm-cli/src/pkm_cli/api/dynamic_cli/help_generator.py ("hg" below), and of the names of
an option as it shows them, command_parser.py ("cp").

Modelled: the line of usage and the overview of options, positional arguments and sub-commands, for the arguments of the
model of the parser. Not modelled: providers of fields and dynamic arguments, which the model of the parser leaves out;
the star of a field that may be repeated. The texts that the author of a command writes are given by `Texts`.
-/
namespace Pkm
namespace Cli
namespace Help

variable {V : Type}

/-- The texts of a command that the parser does not look at: the hint of a reader (cp 134-165), the text of a positional
argument in the usage (its name, or the constant that it stands for, hg 77-79), the help texts and the short descriptions
of commands. -/
structure Texts (V : Type) where
  hint : (Text → Option V) → Text
  label : PosDef V → Text
  optHelp : OptDef V → Text
  posHelp : PosDef V → Text
  desc : CmdDef V → Text

/-- `sep.join`. -/
def joinWith (sep : Text) : List Text → Text
  | [] => []
  | [t] => t
  | t :: u :: ts => t ++ (sep ++ joinWith sep (u :: ts))

/-- `defined_names` (cp 175-184): the names, shortest first. -/
def definedNames (names : List Text) : List Text := sortBy (fun a b => decide (a.length ≤ b.length)) names

/-- `startswith("--")`. -/
def isLong : Text → Bool
  | '-' :: '-' :: _ => true
  | _ => false

/-- `short_name` (cp 200-201). -/
def shortName (names : List Text) : Option Text := (definedNames names).find? (fun n => !isLong n)

/-- `long_name` (cp 203-204). -/
def longName (names : List Text) : Option Text := (definedNames names).find? isLong

/-- `display_name` (cp 196-198). -/
def displayName (names : List Text) : Text := joinWith [',', ' '] (definedNames names)

/-- `value_hint` (cp 114-115, 134-135, 147-148, 164-165). -/
def valueHint (tx : Texts V) : Reader V → Text
  | .flag => []
  | .text conv => tx.hint conv

/-! ### The options of a node -/

/-- `CommandAST.options` (cp 349-357): every name with the number of the option that has it last. -/
def optionTable (opts : List (OptDef V)) : Dict Text Nat :=
  (opts.zipIdx.flatMap (fun p => p.1.names.map (fun n => (n, p.2)))).foldl (fun d p => Dict.put d p.1 p.2) []

/-- `seq(node.options.values()).unique_by(id)` (hg 19, 56). -/
def shown (opts : List (OptDef V)) : List (OptDef V) :=
  (Dict.values (optionTable opts)).eraseDups.filterMap (fun i => opts[i]?)

/-! ### The usage -/

/-- `flag_shortest_name` (hg 110). Simplification: without a name it is empty, cp 242-244 refuse such an option. -/
def shortest (names : List Text) : Text := ((shortName names).or (longName names)).getD []

/-- `[text]`. -/
def bracket (t : Text) : Text := '[' :: (t ++ [']'])

/-- The letters of the flags of one letter (hg 111-112). -/
def letters (flags : List (List Text)) : Text :=
  flags.filterMap (fun ns => if (shortest ns).length = 2 then (shortest ns)[1]? else none)

/-- The flags of `_create_option_usage_tokens` (hg 108-116). -/
def flagTokens (flags : List (List Text)) : List Text :=
  ((flags.map shortest).filter (fun n => n.length ≠ 2)).map bracket ++
    if (letters flags).isEmpty then [] else [bracket ('-' :: letters flags)]

/-- The name and the hint of an option (hg 119-124); `none`: `AttributeError`, `None` has no `startswith`. -/
def nameAndHint (names : List Text) (hint : Text) : Option Text :=
  if hint.isEmpty then some ((shortName names).getD ['N', 'o', 'n', 'e'])
  else match shortName names with
    | none => none
    | some s => some (s ++ ((if s.head? = some '-' then ' ' else '=') :: hint))

/-- The brackets and the star (hg 133-139). -/
def dress (required multi : Bool) (t : Text) : Text :=
  let t := if !required then bracket t else if multi then '(' :: (t ++ [')']) else t
  if multi then t ++ ['*'] else t

/-- `is_flag` of a field (cp 249-250). -/
def fieldFlag (f : FieldDef V) : Bool :=
  match f.reader with
  | .flag => true
  | .text _ => false

/-- A field that takes a value, in `_create_option_usage_tokens` (hg 118-140). -/
def fieldToken (tx : Texts V) (f : FieldDef V) : Option Text :=
  (nameAndHint f.names (valueHint tx f.reader)).map (dress f.default.isNone false)

/-- `_create_option_usage_tokens` of fields (hg 106-140). -/
def fieldTokens (tx : Texts V) (fs : List (FieldDef V)) : Option (List Text) :=
  match (fs.filter (fun f => !fieldFlag f)).mapM (fieldToken tx) with
  | none => none
  | some others => some (flagTokens ((fs.filter fieldFlag).map (·.names)) ++ others)

/-- The fields after an option (hg 126-131); an empty list is like none. -/
def withFields (tx : Texts V) (t : Text) : Option (List (FieldDef V)) → Option Text
  | some (f :: fs) =>
    match fieldTokens tx (f :: fs) with
    | none => none
    | some ts => some (t ++ (' ' :: joinWith [' '] ts))
  | _ => some t

/-- An option in `_create_option_usage_tokens` (hg 118-140). -/
def optionToken (tx : Texts V) (o : OptDef V) : Option Text :=
  match nameAndHint o.names (valueHint tx o.reader) with
  | none => none
  | some t =>
    match withFields tx t o.fields with
    | none => none
    | some t => some (dress o.default.isNone o.repeatable t)

/-- `it.is_flag() and not it.has_subfields()` (hg 107). -/
def combinable (o : OptDef V) : Bool := o.isFlag && o.fields.isNone

/-- `_create_option_usage_tokens` of options (hg 106-140). -/
def optionTokens (tx : Texts V) (os : List (OptDef V)) : Option (List Text) :=
  match (os.filter (fun o => !combinable o)).mapM (optionToken tx) with
  | none => none
  | some others => some (flagTokens ((os.filter combinable).map (·.names)) ++ others)

/-- The group of an option (hg 61): an empty name is none. -/
def group (o : OptDef V) : Option Text :=
  match o.mutex with
  | some (c :: cs) => some (c :: cs)
  | _ => none

/-- `strip('[]')`. -/
def stripBrackets (t : Text) : Text :=
  let bracketed := fun c => c == '[' || c == ']'
  ((t.dropWhile bracketed).reverse.dropWhile bracketed).reverse

/-- A group of options that exclude each other (hg 67-71). -/
def groupToken (tx : Texts V) (os : List (OptDef V)) (g : Text) : Option Text :=
  match optionTokens tx (os.filter (fun o => group o == some g)) with
  | none => none
  | some ts => some (bracket (joinWith [' ', '|', ' '] (ts.map stripBrackets)))

/-- The last text with a text appended (hg 86). -/
def closeLast (close : Text) : List Text → List Text
  | [] => []
  | [t] => [t ++ close]
  | t :: u :: ts => t :: closeLast close (u :: ts)

/-- The number of values of a positional argument (hg 92-95). -/
def countTokens : Option Nat → List Text
  | none => [['.', '.', '.']]
  | some 0 => []
  | some (n + 1) => [('x' :: showNat (n + 2))]

/-- A positional argument in the usage (hg 76-95). -/
def posTokens (tx : Texts V) (p : PosDef V) : Option (List Text) :=
  match p.fields with
  | some (f :: fs) =>
    match fieldTokens tx (f :: fs) with
    | none => none
    | some ts =>
      some (closeLast [if p.default.isNone then '>' else ']']
        (((if p.default.isNone then '<' else '[') :: tx.label p) :: ts) ++ countTokens p.extra)
  | _ => some ((if p.default.isNone then tx.label p else bracket (tx.label p)) :: countTokens p.extra)

/-- The sub-commands in the usage (hg 97-101). -/
def subTokens (n : Node V) : List Text :=
  if n.children.isEmpty then []
  else [if n.cmd.isSome then "[SUB_COMMAND]".toList else "SUB_COMMAND".toList]

/-- The tokens of `generate_usage` (hg 50-101); `none`: an exception. -/
def usageTokens (tx : Texts V) (n : Node V) : Option (List Text) :=
  let os := shown n.options
  match optionTokens tx (os.filter (fun o => (group o).isNone)),
      ((os.filterMap group).eraseDups).mapM (groupToken tx os),
      n.positional.mapM (posTokens tx) with
  | some free, some groups, some pos => some (free ++ groups ++ pos.flatten ++ subTokens n)
  | _, _, _ => none

/-- `generate_usage` (hg 50-104). -/
def usage (tx : Texts V) (path : List Text) (n : Node V) : Option Text :=
  (usageTokens tx n).map (fun ts => "Usage: ".toList ++ (joinWith [' '] path ++ (' ' :: joinWith [' '] ts)))

/-! ### The overview -/

/-- The header of an option (hg 10-13). -/
def optHeader (tx : Texts V) (o : OptDef V) : Text :=
  if o.isFlag then displayName o.names
  else displayName o.names ++ (" <".toList ++ (valueHint tx o.reader ++ ['>']))

/-- The header of a positional argument (hg 10-13). -/
def posHeader (tx : Texts V) (p : PosDef V) : Text := p.name ++ (" <".toList ++ (tx.hint p.conv ++ ['>']))

/-- A header and its help text (hg 26-29, 35-38). -/
def entry (header help : Text) : List Text :=
  (' ' :: ' ' :: header) :: if help.isEmpty then [] else ["      ".toList ++ help]

/-- `{text :{width}}`. -/
def pad (width : Nat) (t : Text) : Text := t ++ List.replicate (width - t.length) ' '

/-- The longest name (hg 42). -/
def longest (l : List Text) : Nat := (l.map List.length).foldr max 0

/-- A line of a sub-command (hg 43-45). -/
def subLine (tx : Texts V) (width : Nat) (c : Text × Node V) : Text :=
  ' ' :: ' ' :: (pad width c.1 ++ (' ' :: ((c.2.cmd.map tx.desc).getD [])))

/-- The lines of `generate_arguments_overview` (hg 15-45). -/
def overviewLines (tx : Texts V) (n : Node V) : List Text :=
  let os := shown n.options
  (if os.isEmpty then [] else "Options: ".toList :: os.flatMap (fun o => entry (optHeader tx o) (tx.optHelp o))) ++
  (if n.positional.isEmpty then [] else
    ((if os.isEmpty then [] else ['\n']) ++ "Positional Arguments: ".toList) ::
      n.positional.flatMap (fun p => entry (posHeader tx p) (tx.posHelp p))) ++
  (if n.children.isEmpty then [] else
    ((if os.isEmpty && n.positional.isEmpty then [] else ['\n']) ++ "Sub-Commands: ".toList) ::
      n.children.map (subLine tx (longest (n.children.map (·.1)) + 2)))

/-- `generate_arguments_overview` (hg 9-47). -/
def overview (tx : Texts V) (n : Node V) : Text := joinWith ['\n'] (overviewLines tx n)

end Help
end Cli
end Pkm
