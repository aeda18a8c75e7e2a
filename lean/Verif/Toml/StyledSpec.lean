import Verif.Toml.Styled
import Verif.Toml.Values
/-
Specification for C116: TOML files as people write them, and edits of them.
-/
namespace Pkm
namespace Spec
namespace Styled
open Toml

/-- Blanks and tabs. -/
def Blanks (t : Text) : Prop := ∀ c ∈ t, c = ' ' ∨ c = '\t'

/-- A comment, or none. -/
def comment : Option Text → Text
  | none => []
  | some c => '#' :: c

/-- Of one line. -/
def CommentOk (c : Option Text) : Prop := ∀ t, c = some t → '\n' ∉ t

/-- What stands above a line: empty lines and comments, and the indentation. -/
structure Gap where
  lines : List (Text × Option Text) := []
  indent : Text := []
  deriving DecidableEq

/-- Its text. -/
def Gap.text (g : Gap) : Text := g.lines.flatMap (fun l => l.1 ++ comment l.2 ++ ['\n']) ++ g.indent

/-- It is made of blanks and comments. -/
def Gap.Ok (g : Gap) : Prop := (∀ l ∈ g.lines, Blanks l.1 ∧ CommentOk l.2) ∧ Blanks g.indent

/-- A value as it is spelled: `"..."`, `'...'`, `true` and `false`, numbers. -/
inductive Scalar where
  | quoted (s : Text)
  | literal (s : Text)
  | bool (b : Bool)
  | number (n : Int)
  deriving DecidableEq

/-- Its spelling. -/
def Scalar.text : Scalar → Text
  | .quoted s => writeStr s
  | .literal s => '\'' :: s ++ ['\'']
  | .bool b => if b then ['t', 'r', 'u', 'e'] else ['f', 'a', 'l', 's', 'e']
  | .number n => showInt n

/-- What it means. -/
def Scalar.value : Scalar → TV
  | .quoted s => .str s
  | .literal s => .str s
  | .bool b => .bool b
  | .number n => .int n

/-- Strings that TOML files can have, and that are read (C34). -/
def Scalar.Ok : Scalar → Prop
  | .quoted s => ReadableStr s
  | .literal s => '\'' ∉ s
  | _ => True

/-- An element of a list, with the line ends, blanks and comments before and behind it. -/
structure Elem where
  lead : Gap := {}
  value : Scalar
  trail : Gap := {}
  deriving DecidableEq

/-- Its text. -/
def Elem.text (e : Elem) : Text := e.lead.text ++ e.value.text ++ e.trail.text

/-- It is made of what it should be made of: no blanks after a bracket or a second one after a comma, and none before a
bracket or a comma; behind the element only a new line starts with more. -/
def Elem.Ok (e : Elem) : Prop :=
  e.lead.Ok ∧ e.value.Ok ∧ e.trail.Ok ∧ e.lead.text.head? ≠ some ' ' ∧
    (e.trail.text = [] ∨ e.trail.text.head? = some '\n') ∧ e.trail.text.getLast? ≠ some ' '

/-- A value: a scalar, or a list of scalars; `close` stands before the closing bracket, after a comma if the list has
elements. -/
inductive Value where
  | scalar (v : Scalar)
  | list (elems : List Elem) (close : Option Gap)
  deriving DecidableEq

/-- What stands before the closing bracket. -/
def closing (elems : List Elem) : Option Gap → Text
  | none => []
  | some g => if elems.isEmpty then g.text else ',' :: g.text

/-- Its text: the elements are separated by a comma and a blank. -/
def Value.text : Value → Text
  | .scalar v => v.text
  | .list es c => '[' :: (commas (es.map Elem.text) ++ (closing es c ++ [']']))

/-- What it means. -/
def Value.value : Value → TV
  | .scalar v => v.value
  | .list es _ => .list (es.map (fun e => e.value.value))

/-- It is made of what it should be made of. -/
def Value.Ok : Value → Prop
  | .scalar v => v.Ok
  | .list es c => (∀ e ∈ es, e.Ok) ∧ ∀ g, c = some g → g.Ok

/-- Is it a list? -/
def Value.isList : Value → Bool
  | .scalar _ => false
  | .list _ _ => true

/-- A line `name = value # comment`, with all that stands above it. -/
structure Line where
  gap : Gap := {}
  name : Text
  before : Text := [' ']
  after : Text := [' ']
  value : Value
  tail : Text := []
  comment : Option Text := none
  deriving DecidableEq

/-- Its text. -/
def Line.text (l : Line) : Text :=
  l.gap.text ++ writeKeyPart l.name ++ l.before ++ '=' :: l.after ++ l.value.text ++ l.tail ++ Styled.comment l.comment ++ ['\n']

/-- It is made of what it should be made of; behind a list there is nothing. -/
def Line.Ok (l : Line) : Prop :=
  l.gap.Ok ∧ ReadableStr l.name ∧ Blanks l.before ∧ Blanks l.after ∧ l.value.Ok ∧ Blanks l.tail ∧ CommentOk l.comment ∧
    (l.value.isList = true → l.tail = [] ∧ l.comment = none)

/-- Lines are followed by an empty one. -/
def block (ls : List Line) : Text := if ls.isEmpty then [] else ls.flatMap Line.text ++ ['\n']

/-- What stands around the name of a table: empty lines and comments above it, blanks and a comment behind it. -/
structure Head where
  gap : Gap := {}
  tail : Text := []
  comment : Option Text := none
  deriving DecidableEq

/-- It is made of what it should be made of. -/
def Head.Ok (h : Head) : Prop := h.gap.Ok ∧ Blanks h.tail ∧ CommentOk h.comment

/-- A table `[path.to.it] # comment` with its lines, as it stands in a file. -/
structure Section where
  path : List Text
  head : Head
  lines : List Line
  deriving DecidableEq

/-- The line of the name. -/
def Section.header (s : Section) : Text :=
  s.head.gap.text ++ '[' :: dots (s.path.map writeKeyPart) ++ ']' :: s.head.tail ++ Styled.comment s.head.comment ++ ['\n']

/-- Its text. -/
def Section.text (s : Section) : Text := s.header ++ block s.lines

/-- The tables of a file: `[name]` with its lines, and the tables in it; without a head it is there only because of the
tables in it. -/
inductive Node where
  | mk (name : Text) (head : Option Head) (lines : List Line) (subs : List Node)

/-- Its parts. -/
def Node.name : Node → Text
  | .mk n _ _ _ => n
def Node.head : Node → Option Head
  | .mk _ h _ _ => h
def Node.lines : Node → List Line
  | .mk _ _ ls _ => ls
def Node.subs : Node → List Node
  | .mk _ _ _ ss => ss

mutual
/-- How a table below `path` stands in the file: itself, then the tables in it. -/
def Node.sections (path : List Text) : Node → List Section
  | .mk n h ls ss =>
    (match h with
      | some h => [⟨path ++ [n], h, ls⟩]
      | none => []) ++ allSections (path ++ [n]) ss
/-- Several tables. -/
def allSections (path : List Text) : List Node → List Section
  | [] => []
  | n :: ns => n.sections path ++ allSections path ns
end

/-- Names and values of lines. -/
def values (ls : List Line) : List (Text × TV) := ls.map (fun l => (l.name, l.value.value))

mutual
/-- The data of a table. -/
def Node.data : Node → Text × TV
  | .mk n _ ls ss => (n, .table (values ls ++ allData ss))
/-- Several tables. -/
def allData : List Node → List (Text × TV)
  | [] => []
  | n :: ns => n.data :: allData ns
end

mutual
/-- A table is made of what it should be made of: a table with a head has lines, one without has only tables, and no name
occurs twice in it. -/
def Node.Ok : Node → Prop
  | .mk n h ls ss => ReadableStr n ∧ (∀ x, h = some x → x.Ok ∧ ls ≠ []) ∧ (h = none → ls = [] ∧ ss ≠ []) ∧ (∀ l ∈ ls, l.Ok) ∧
      (ls.map Line.name ++ ss.map Node.name).Nodup ∧ allOk ss
/-- Several tables. -/
def allOk : List Node → Prop
  | [] => True
  | n :: ns => n.Ok ∧ allOk ns
end

/-- A file: comments at its start, lines, tables, and comments at its end. -/
structure Doc where
  start : Gap := {}
  root : List Line := []
  tables : List Node := []
  last : Gap := {}

/-- The tables as they stand in the file. -/
def Doc.sections (d : Doc) : List Section := allSections [] d.tables

/-- Its text. -/
def Doc.text (d : Doc) : Text := d.start.text ++ block d.root ++ d.sections.flatMap Section.text ++ d.last.text

/-- The data of a file. -/
def Doc.data (d : Doc) : List (Text × TV) := values d.root ++ allData d.tables

/-- The files of C116: made as above, no name occurs twice, and what stands at the start of the file belongs to the file
and not to its first line. -/
structure Doc.Tidy (d : Doc) : Prop where
  start : d.start.Ok
  root : ∀ l ∈ d.root, l.Ok
  tables : allOk d.tables
  last : d.last.Ok
  names : (d.root.map Line.name ++ d.tables.map Node.name).Nodup
  some : d.root ≠ [] ∨ d.tables ≠ []
  first : ∀ l ∈ d.root.head?, l.gap = {}
  firstSection : d.root = [] → ∀ s ∈ d.sections.head?, s.head.gap = {}

/-- The text of the file; at the end of the file the empty line after the last lines may be missing. -/
def Doc.IsText (d : Doc) (t : Text) : Prop := t = d.text ∨ (d.last = {} ∧ t ++ ['\n'] = d.text)

/-! Edits -/

/-- Two values that Python calls equal. -/
def Same : TV → TV → Prop
  | .int a, .bool b => a = if b then 1 else 0
  | .bool a, .int b => b = if a then 1 else 0
  | a, b => a = b

/-- The two values are different, and not two lists. -/
def Differ : Value → Value → Prop
  | .scalar a, .scalar b => ¬ Same a.value b.value
  | .list _ _, .list _ _ => False
  | _, _ => True

/-- Written as new values are: no literals, lists without line ends and comments. -/
def Value.Plain : Value → Prop
  | .scalar v => ∀ s, v ≠ .literal s
  | .list es c => c = none ∧ ∀ e ∈ es, e = { value := e.value } ∧ ∀ s, e.value ≠ .literal s

/-- An edit of a list: every element is the one that was at its place, or a value that differs from it. -/
def Relisted (old new : List Elem) : Prop :=
  ∀ (i : Nat) (e : Elem), new[i]? = some e → old[i]? = some e ∨
    ((∀ o, old[i]? = some o → ¬ Same o.value.value e.value.value) ∧ e = { value := e.value } ∧ ∀ s, e.value ≠ .literal s)

/-- The list with other elements. -/
def Value.relist : Value → List Elem → Value
  | .list _ c, es => .list es c
  | v, _ => v

/-- A line of the edited file: as it was, with another value, with other elements of its list, or a new one. -/
inductive Row where
  | kept (l : Line)
  | changed (l : Line) (v : Value)
  | relisted (l : Line) (es : List Elem)
  | added (name : Text) (v : Value)
  deriving DecidableEq

/-- How it looks: another value takes the place of the old one and of what followed it, and all that stood before it
stays. -/
def Row.line : Row → Line
  | .kept l => l
  | .changed l v => { l with after := [' '], value := v, tail := [], comment := none }
  | .relisted l es => { l with value := l.value.relist es }
  | .added n v => { name := n, value := v }

/-- An edit of a line of the table with the lines `ls`; the names `taken` mean something else there. A list with a comma
before its closing bracket keeps an element. -/
def Row.Of (ls : List Line) (taken : List Text) : Row → Prop
  | .kept l => l ∈ ls
  | .changed l v => l ∈ ls ∧ Differ l.value v ∧ v.Plain
  | .relisted l es => l ∈ ls ∧ ∃ old c, l.value = .list old c ∧ Relisted old es ∧ (c = none ∨ (old = [] ↔ es = []))
  | .added n v => n ∉ ls.map Line.name ∧ n ∉ taken ∧ v.Plain

/-- An entry of an edited table: a line, a table that was there with its entries now, or a new table. -/
inductive Item where
  | row (r : Row)
  | table (t : Node) (items : List Item)
  | newTable (name : Text) (rows : List Row)

mutual
/-- The data it stands for. -/
def Item.entry : Item → Text × TV
  | .row r => (r.line.name, r.line.value.value)
  | .table t items => (t.name, .table (entries items))
  | .newTable n rows => (n, .table (values (rows.map Row.line)))
/-- Several entries. -/
def entries : List Item → List (Text × TV)
  | [] => []
  | i :: is => i.entry :: entries is
end

/-- The lines among entries. -/
def linesOf : List Item → List Line
  | [] => []
  | .row r :: is => r.line :: linesOf is
  | _ :: is => linesOf is

/-- Is it a table? -/
def Item.isTable : Item → Bool
  | .row _ => false
  | _ => true

/-- A value that is too large for `{...}`. -/
def Value.isLarge : Value → Prop
  | .list _ _ => True
  | .scalar (.quoted s) => 40 < s.length
  | .scalar (.literal s) => 40 < s.length
  | _ => False

/-- A table that is too large for `{...}`. -/
def Large (rows : List Row) : Prop := 5 < rows.length ∨ ∃ r ∈ rows, r.line.value.isLarge

mutual
/-- The table an entry is, if it is one: lines come before tables, otherwise everything is in the order of the entries. A
table without header gets one when it gets lines. -/
def Item.node : Item → List Node
  | .row _ => []
  | .table t items => [.mk t.name (if linesOf items = [] then t.head else some (t.head.getD {})) (linesOf items) (nodesOf items)]
  | .newTable n rows => [.mk n (some {}) (rows.map Row.line) []]
/-- The tables among entries. -/
def nodesOf : List Item → List Node
  | [] => []
  | i :: is => i.node ++ nodesOf is
end

mutual
/-- The entry is an edit of an entry of the table with these lines and tables. Lines are added to a table without header
if one of them is not the empty list; new tables are of the root or large. -/
def Item.Of (root : Bool) (ls : List Line) (ts : List Node) : Item → Prop
  | .row r => r.Of ls (ts.map Node.name)
  | .table t items => t ∈ ts ∧ (t.head = none → linesOf items = [] ∨ ∃ l ∈ linesOf items, l.value.value ≠ .list []) ∧ allOf false t.lines t.subs items
  | .newTable n rows => (root = true ∨ Large rows) ∧ n ∉ ls.map Line.name ∧ n ∉ ts.map Node.name ∧ rows ≠ [] ∧ ∀ r ∈ rows, r.Of [] []
/-- Several entries. -/
def allOf (root : Bool) (ls : List Line) (ts : List Node) : List Item → Prop
  | [] => True
  | i :: is => i.Of root ls ts ∧ allOf root ls ts is
end

/-- The edited file. -/
def Doc.edited (d : Doc) (items : List Item) : Doc := { d with root := linesOf items, tables := nodesOf items }

/-- The same names with the same values, whatever the order of the names is, in tables in them too. -/
inductive SameData : List (Text × TV) → List (Text × TV) → Prop where
  | nil : SameData [] []
  | value (n : Text) (v : TV) {a b : List (Text × TV)} : SameData a b → SameData ((n, v) :: a) ((n, v) :: b)
  | table (n : Text) {t u a b : List (Text × TV)} : SameData t u → SameData a b → SameData ((n, .table t) :: a) ((n, .table u) :: b)
  | swap (x y : Text × TV) (a : List (Text × TV)) : SameData (x :: y :: a) (y :: x :: a)
  | trans {a b c : List (Text × TV)} : SameData a b → SameData b c → SameData a c

end Styled
end Spec
end Pkm
