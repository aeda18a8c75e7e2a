import Verif.Cli.Model
/-
What a command line says: the vocabulary of the statements about the command line parser.
-/
namespace Pkm
namespace Cli

variable {V : Type}

/-- Neither starts nor ends with a blank. -/
def Trimmed (s : Text) : Prop :=
  (∀ c, s.head? = some c → isSpace c = false) ∧ (∀ c, s.getLast? = some c → isSpace c = false)

/-- Ways to give an option or a field: as a flag (`--name`), with its value as the next argument (`--name value`), or
after an equals sign (`--name=value`). -/
inductive Use where
  | flag (name : Text)
  | sep (name v : Text)
  | eq (name v : Text)

def Use.name : Use → Text
  | .flag n => n
  | .sep n _ => n
  | .eq n _ => n

/-- The arguments as they are typed. -/
def Use.render : Use → List Text
  | .flag n => [n]
  | .sep n v => [n, v]
  | .eq n v => [n ++ '=' :: v]

/-- What the reader of an option or field makes of a use. -/
def Use.Means (r : Reader V) (u : Use) (x : Arg V) : Prop :=
  match r, u with
  | .flag, .flag _ => x = .flag
  | .text conv, .sep _ v => ∃ w, conv v = some w ∧ x = .val w
  | .text conv, .eq _ v => v ≠ [] ∧ Trimmed v ∧ ∃ w, conv v = some w ∧ x = .val w
  | _, _ => False

/-- Names that can be typed: no equals sign and no blanks around them. -/
def NameOk (n : Text) : Prop := '=' ∉ n ∧ Trimmed n

/-- The name is one of the option's, and of no other option's. -/
def Declared (off : V) (opts : List (OptDef V)) (o : OptDef V) (name : Text) : Prop :=
  o ∈ helpOption off :: opts ∧ name ∈ o.names ∧ ∀ o' ∈ helpOption off :: opts, name ∈ o'.names → o' = o

/-- Parts of the command line of one command: an option by a long name with its value; some flags by their letters,
possibly followed by an option that takes a value; the values of the next positional argument. -/
inductive Item (V : Type) where
  | long (o : OptDef V) (u : Use) (x : Arg V)
  | short (fl : List (OptDef V × Char))
  | shortValue (fl : List (OptDef V × Char)) (o : OptDef V) (c : Char) (v : Text) (eq : Bool) (w : V)
  | pos (vs : List (Text × V))

/-- The letters of flags. -/
def letters (fl : List (OptDef V × Char)) : Text := fl.map (·.2)

/-- The arguments as they are typed. -/
def Item.render : Item V → List Text
  | .long _ u _ => u.render
  | .short fl => ['-' :: letters fl]
  | .shortValue fl _ c v eq _ =>
    if eq then ['-' :: (letters fl ++ [c]) ++ '=' :: v] else ['-' :: (letters fl ++ [c]), v]
  | .pos vs => vs.map (·.1)

/-- The values that an item gives to options. -/
def Item.gives : Item V → List (OptDef V × Arg V)
  | .long o _ x => [(o, x)]
  | .short fl => fl.map (fun p => (p.1, .flag))
  | .shortValue fl o _ _ _ w => fl.map (fun p => (p.1, .flag)) ++ [(o, .val w)]
  | .pos _ => []

/-- Letters that can be typed. -/
def LettersOk (s : Text) : Prop := s.head? ≠ some '-' ∧ s ≠ [] ∧ ∀ c ∈ s, c ≠ '=' ∧ isSpace c = false

/-- Flags that can be given by their letters. -/
def FlagsOk (off : V) (opts : List (OptDef V)) (fl : List (OptDef V × Char)) : Prop :=
  ∀ p ∈ fl, Declared off opts p.1 ['-', p.2] ∧ p.1.reader = .flag ∧ p.1.fields = none ∧ p.1.repeatable = false

/-- An argument that starts neither an option nor a field. -/
def PlainArg (a : Text) : Prop := a ≠ [] ∧ a.head? ≠ some '-' ∧ a.head? ≠ some '+'

/-- The items that fit a command after the given number of positional arguments. A positional argument with any number
of values takes all the arguments that follow, so it comes last. -/
def ItemsOk (off : V) (n : Node V) : Nat → List (Item V) → Bool → Prop
  | _, [], _ => True
  | i, .long o u x :: items, last =>
    Declared off n.options o u.name ∧ NameOk u.name ∧ (∃ s, u.name = '-' :: '-' :: s) ∧ o.fields = none ∧
      u.Means o.reader x ∧ ItemsOk off n i items last
  | i, .short fl :: items, last =>
    FlagsOk off n.options fl ∧ LettersOk (letters fl) ∧ ItemsOk off n i items last
  | i, .shortValue fl o c v eq w :: items, last =>
    FlagsOk off n.options fl ∧ LettersOk (letters fl ++ [c]) ∧ Declared off n.options o ['-', c] ∧ o.fields = none ∧
      (∃ conv, o.reader = .text conv ∧ conv v = some w) ∧ (eq = true → v ≠ [] ∧ Trimmed v) ∧ ItemsOk off n i items last
  | i, .pos vs :: items, last =>
    (∃ p a w vs', n.positional[i]? = some p ∧ p.fields = none ∧ vs = (a, w) :: vs' ∧ PlainArg a ∧
      Dict.get n.children a = none ∧ (∀ q ∈ vs, p.conv q.1 = some q.2) ∧
      (match p.extra with
        | some k => vs'.length = k
        | none => items = [] ∧ last = true)) ∧ ItemsOk off n (i + 1) items last

/-- The values given to an option. -/
def given (items : List (Item V)) (o : OptDef V) : List (Arg V) :=
  ((items.flatMap Item.gives).filter (fun p => decide (p.1.name = o.name))).map (·.2)

/-- The values given to the positional arguments, in order. -/
def posGiven : List (Item V) → List (List V)
  | [] => []
  | .pos vs :: items => vs.map (·.2) :: posGiven items
  | _ :: items => posGiven items

/-- What an option is to be bound to. -/
def optionValue (o : OptDef V) : List (Arg V) → Option (Arg V)
  | [] => o.default
  | v :: vs => if o.repeatable then some (.many (v :: vs)) else (v :: vs).getLast?

/-- What a positional argument is to be bound to. -/
def positionalValue (p : PosDef V) : Option (List V) → Option (Arg V)
  | none => p.default
  | some vs => if p.extra = some 0 then vs.head?.map .val else some (.many (vs.map .val))

/-- The arguments of a command are bound as its items say. -/
def Bound (off : V) (n : Node V) (items : List (Item V)) (args : Args V) : Prop :=
  (∀ o ∈ helpOption off :: n.options, args.get o.name = optionValue o (given items o)) ∧
  (∀ (k : Nat) (p : PosDef V), n.positional[k]? = some p → args.get p.name = positionalValue p (posGiven items)[k]?)

/-- Nothing required is missing, and of options that exclude each other at most one is given. -/
def Complete (off : V) (n : Node V) (items : List (Item V)) : Prop :=
  (∀ o ∈ helpOption off :: n.options, o.default = none → given items o ≠ []) ∧
  (∀ (k : Nat) (p : PosDef V), n.positional[k]? = some p → p.default = none → k < (posGiven items).length) ∧
  n.options.Pairwise (fun o o' => ¬ (given items o ≠ [] ∧ given items o' ≠ [] ∧ o.mutex ≠ none ∧ o.mutex = o'.mutex))

/-- The attributes of a command have different names. -/
def NamesApart (off : V) (n : Node V) : Prop :=
  ((helpOption off :: n.options).map (·.name) ++ n.positional.map (·.name)).Nodup

/-- A command line: the items of the main command, then sub-commands by name, each with its items. -/
def renderLine (items : List (Item V)) : List (Text × List (Item V)) → List Text
  | [] => items.flatMap Item.render
  | (name, items') :: subs => items.flatMap Item.render ++ name :: renderLine items' subs

/-- The command line fits the commands. -/
def LineOk (off : V) : Node V → List (Item V) → List (Text × List (Item V)) → Prop
  | n, items, [] => NamesApart off n ∧ ItemsOk off n 0 items true ∧ n.cmd ≠ none
  | n, items, (name, items') :: subs => NamesApart off n ∧ ItemsOk off n 0 items false ∧ PlainArg name ∧
      ∃ sub, Dict.get n.children name = some sub ∧ LineOk off sub items' subs

/-- Every command of the line is complete. -/
def LineComplete (off : V) : Node V → List (Item V) → List (Text × List (Item V)) → Prop
  | n, items, [] => Complete off n items
  | n, items, (name, items') :: subs => Complete off n items ∧
      ∀ sub, Dict.get n.children name = some sub → LineComplete off sub items' subs

/-- The commands that come out are those of the line, each with its arguments bound. -/
def LineBound (off : V) : Node V → List Text → List (Item V) → List (Text × List (Item V)) →
    List (List Text × Args V) → Prop
  | n, path, items, [], res => ∃ args, res = [(path, args)] ∧ Bound off n items args
  | n, path, items, (name, items') :: subs, res => ∃ args res' sub, res = (path, args) :: res' ∧ Bound off n items args ∧
      Dict.get n.children name = some sub ∧ LineBound off sub (path ++ [name]) items' subs res'

/-- A command line that may go on: the commands and items typed so far fit, they lead to the command `m`, and `k` of
its positional arguments are given. -/
def LineOpen (off : V) : Node V → List (Item V) → List (Text × List (Item V)) → Node V → Nat → Prop
  | n, items, [], m, k => ItemsOk off n 0 items false ∧ m = n ∧ k = (posGiven items).length
  | n, items, (name, items') :: subs, m, k => ItemsOk off n 0 items false ∧ PlainArg name ∧
      ∃ sub, Dict.get n.children name = some sub ∧ LineOpen off sub items' subs m k

/-! ### Fields -/

/-- The name is one of the field's, and of no other field's. -/
def FieldDeclared (fs : List (FieldDef V)) (f : FieldDef V) (name : Text) : Prop :=
  f ∈ fs ∧ name ∈ f.names ∧ ∀ f' ∈ fs, name ∈ f'.names → f' = f

/-- Uses of fields that can be typed, each with the field and the value it gives. -/
def FieldUsesOk (fs : List (FieldDef V)) (us : List (FieldDef V × Use × Arg V)) : Prop :=
  ∀ q ∈ us, FieldDeclared fs q.1 q.2.1.name ∧ NameOk q.2.1.name ∧ q.2.1.name.head? = some '+' ∧
    q.2.1.Means q.1.reader q.2.2

/-- What a field is to be bound to: the last value given, or its default. -/
def fieldValue (f : FieldDef V) (us : List (FieldDef V × Use × Arg V)) : Option (Arg V) :=
  (((us.filter (fun q => decide (q.1.name = f.name))).map (·.2.2)).getLast?).or f.default

end Cli
end Pkm
