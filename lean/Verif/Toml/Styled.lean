import Verif.Toml.Model
/-
Model of how TOML files are edited, pkm/src/pkm/config/toml.py ("tm" below): `loads` returns the data and a writer,
which knows how everything was written (`_StyleSheet`): comments, blanks, the spelling of values and keys.

The reader is the one of Toml/Model, with the recorded styles added; what is not modelled there is not modelled here. A
style that is changed in place (tm 572-575, 627-631) is entered again under the key it has been found by. `Table` and
`Array`, which carry a style of their own (tm 37-48), are not modelled: the reader does not make them.
-/
namespace Pkm
namespace TomlStyle
open Toml

/-- The parts of a key of the style sheet: names, and places in lists. -/
inductive SKey where
  | name (k : Text)
  | idx (i : Nat)
  deriving DecidableEq, Repr

/-- `_ValueStyle.display`. -/
inductive Disp where
  | auto | inline | regular | hidden | dotted | tableArray | tableArrayItem
  deriving DecidableEq, Repr

/-- `_KeyStyle.display`. -/
inductive KDisp where
  | auto | assignment | table | item
  deriving DecidableEq, Repr

/-- `_ValueStyle` (tm 50-59); `sig` is the value of the signature. -/
structure VStyle where
  prolog : Text := []
  epilog : Text := []
  trailing : Text := []
  str : Option Text := none
  sig : Option TV := none
  display : Disp := .auto

/-- `_KeyStyle` (tm 62-67). -/
structure KStyle where
  prolog : Text := []
  epilog : Text := []
  str : Option Text := none
  display : KDisp := .auto

/-- `_StyleSheet` (tm 74-77). -/
structure Sheet where
  keys : Dict (List SKey) KStyle := []
  values : Dict (List SKey) VStyle := []

/-- The number that a value is for Python: `True == 1`. -/
def number : TV → Option Int
  | .int n => some n
  | .bool b => some (if b then 1 else 0)
  | _ => none

/-- `_ValueSignature.is_similar_to` (tm 15-27). -/
def similar : Option TV → TV → Bool
  | none, _ => false
  | some (.list _), .list _ => true
  | some (.table _), .table _ => true
  | some (.str a), .str b => a = b
  | some a, b => (number a).isSome && number a = number b

/-- `lastify` (tm 79-82). -/
def lastify (sh : Sheet) (key : List SKey) : List SKey :=
  key ++ [.idx (sh.keys.filter (fun e => e.1.length = key.length + 1 && e.1.dropLast = key)).length]

/-- `set_value_style` (tm 87-89). -/
def setValue (sh : Sheet) (key : List SKey) (v : TV) (s : VStyle) : Sheet :=
  { sh with values := Dict.put sh.values key { s with sig := some v } }

/-- `set_key_style` (tm 84-85). -/
def setKey (sh : Sheet) (key : List SKey) (s : KStyle) : Sheet := { sh with keys := Dict.put sh.keys key s }

/-- `update_value_auto_display` (tm 91-97), always called with `{}`. -/
def updateDisplay (sh : Sheet) (key : List SKey) (d : Disp) : Sheet :=
  match Dict.get sh.values key with
  | none => setValue sh key (.table []) { display := d }
  | some s => if s.display = .auto then { sh with values := Dict.put sh.values key { s with display := d } } else sh

/-- `key_style` (tm 99-108). -/
def keyStyle (sh : Sheet) (key : List SKey) (d : KDisp := .auto) : KStyle :=
  let r := (Dict.get sh.keys key).getD {}
  if d ≠ .auto && r.display ≠ d then
    { r with display := d, epilog := if d = .assignment then [' '] else r.epilog }
  else r

/-- The style a value starts from (tm 111-113). -/
def predefined (sh : Sheet) (key : List SKey) (v : TV) : VStyle :=
  match Dict.get sh.values key with
  | some s => if similar s.sig v then s else {}
  | none => {}

/-- `isinstance(it, Mapping)` for all (tm 146). -/
def allTables (l : List TV) : Bool := l.all TV.isTable

/-- The display of a list without a wish (tm 110-149). -/
def listDisplay (sh : Sheet) (key : List SKey) (l : List TV) : Disp :=
  let p := predefined sh key (.list l)
  if p.display ≠ .auto then p.display else if !l.isEmpty && allTables l then .tableArray else .inline

/-- `has_no_assignments` (tm 128-131). -/
def onlyTables (sh : Sheet) (key : List SKey) (t : List (Text × TV)) : Bool :=
  t.all (fun e => match e.2 with
    | .table _ => true
    | .list l => listDisplay sh (key ++ [.name e.1]) l = .tableArray
    | _ => false)

/-- A value that makes a table large (tm 132-135). -/
def isLargeItem : TV → Bool
  | .table _ => true
  | .list _ => true
  | .str s => s.length > 40
  | _ => false

/-- The display that is chosen for a value (tm 124-148). -/
def autoDisplay (sh : Sheet) (key : List SKey) : TV → Disp
  | .table t =>
    if key.isEmpty then .regular
    else if onlyTables sh key t then .hidden
    else if (t.length > 5 || t.any (fun e => isLargeItem e.2)) || key.length = 1 then .regular
    else .inline
  | .list l => if !l.isEmpty && allTables l then .tableArray else .inline
  | _ => .inline

/-- `value_style` (tm 110-154). -/
def valueStyle (sh : Sheet) (key : List SKey) (v : TV) (d : Disp := .auto) : VStyle :=
  let p := predefined sh key v
  if p.display ≠ .auto && (d = .auto || d = p.display) then p
  else
    let e := if d ≠ .auto then d else autoDisplay sh key v
    { p with display := e, prolog := if e = .inline then [' '] else p.prolog }

/-! ### Reader -/

/-- The text that has been read. -/
def consumed (t r : Text) : Text := t.take (t.length - r.length)

/-- What `read_key` finds: the parts, the kind, its prolog, text and epilog, and the rest of the text. -/
structure KeyRead where
  parts : List Text
  kind : KeyKind
  prolog : Text
  str : Text
  epilog : Text
  rest : Text

/-- `read_key` without the entry into the style sheet (tm 478-519). -/
def readKeyS (t : Text) : Option KeyRead :=
  match nonData true false t with
  | none => none
  | some t1 =>
    match readParts (t1.length + 1) (openKey t1).2 with
    | none => none
    | some (ks, r) =>
      match closeKey (openKey t1).1 r with
      | none => none
      | some r1 =>
        match nonData false false r1 with
        | none => none
        | some r2 => some ⟨ks, (openKey t1).1, consumed t t1, consumed t1 r1, consumed r1 r2, r2⟩

/-- The key of the style sheet (tm 513-524). -/
def fullKeyS (sh : Sheet) (k : KeyRead) : List SKey :=
  match k.kind with
  | .item => lastify sh (k.parts.map .name)
  | _ => k.parts.map .name

/-- The display of a key (tm 517-521). -/
def kindDisplay : KeyKind → KDisp
  | .assignment => .assignment
  | .table => .table
  | .item => .item

/-- The style of a key that has been read (tm 523-524). -/
def keyRead (k : KeyRead) : KStyle :=
  { prolog := k.prolog, epilog := k.epilog, str := some k.str, display := kindDisplay k.kind }

/-- `_mark_internal_tables` (tm 527-530). -/
def markInternal (sh : Sheet) (base : List SKey) (key : List SKey) (d : Disp) : Sheet :=
  (List.range key.length).foldl (fun sh i => updateDisplay sh (base ++ key.take (i + 1)) d) sh

mutual
/-- `read_inline_value` (tm 601-632). The style of a list or a table has been entered by its reader, and gets another
prolog and epilog here. -/
def readValueS : Nat → List SKey → Text → Sheet → Option (TV × Text × Sheet)
  | 0, _, _, _ => none
  | f + 1, key, t, sh =>
    match nonData true false t with
    | none => none
    | some t1 =>
      match readBareS f key t1 sh with
      | none => none
      | some (v, r, sh1, scalar) =>
        match nonData false false r with
        | none => none
        | some r2 =>
          let s := if scalar then {} else valueStyle sh1 key v
          some (v, r2, setValue sh1 key v
            { s with prolog := consumed t t1, epilog := consumed r r2,
                     str := if scalar then some (consumed t1 r) else none, display := .inline })
/-- The value itself (tm 608-623), and whether it is neither a list nor a table. -/
def readBareS : Nat → List SKey → Text → Sheet → Option (TV × Text × Sheet × Bool)
  | 0, _, _, _ => none
  | f + 1, key, t, sh =>
    match t with
    | [] => some (.str [], [], sh, true)
    | c :: r =>
      if c = '+' || c = '-' || isDigit c then (readNumber t).map (fun x => (x.1, x.2, sh, true))
      else if c = '"' || c = '\'' then (readStr t).map (fun x => (.str x.1, x.2, sh, true))
      else if c = 't' || c = 'f' then (readBool t).map (fun x => (x.1, x.2, sh, true))
      else if c = '[' then (readListS f key r r sh []).map (fun x => (x.1, x.2.1, x.2.2, false))
      else if c = '{' then
        match readAssignmentsS f key true r sh [] with
        | some (es, '}' :: r', sh1) =>
          (nonData false false r').map (fun r'' =>
            (.table es, r'', setValue sh1 key (.table es) { epilog := consumed r' r'', display := .inline }, false))
        | _ => none
      else none
/-- The loop and the end of `read_inline_list` (tm 559-590). `p` is the text from the last comma (tm 577), or from the
start of the list (tm 563). -/
def readListS : Nat → List SKey → Text → Text → Sheet → List TV → Option (TV × Text × Sheet)
  | 0, _, _, _, _, _ => none
  | f + 1, key, p, t, sh, acc =>
    match nonData true false t with
    | none => none
    | some (']' :: r) =>
      (nonData false false r).map (fun r' => (.list acc, r', setValue sh key (.list acc)
        { epilog := consumed r r', trailing := consumed p (']' :: r), display := .inline }))
    | some [] => none
    | some t1 =>
      match readValueS f (key ++ [.idx acc.length]) t1 sh with
      | none => none
      | some (v, r, sh1) =>
        match nonData true false r with
        | none => none
        | some r1 =>
          let sh2 := setValue sh1 (key ++ [.idx acc.length]) v
            { valueStyle sh1 (key ++ [.idx acc.length]) v with prolog := consumed t t1, epilog := consumed r r1 }
          match r1 with
          | ',' :: ' ' :: r' => readListS f key r1 r' sh2 (acc ++ [v])
          | ',' :: r' => readListS f key r1 r' sh2 (acc ++ [v])
          | ']' :: r' =>
            (nonData false false r').map (fun r'' => (.list (acc ++ [v]), r'', setValue sh2 key (.list (acc ++ [v]))
              { epilog := consumed r' r'', display := .inline }))
          | _ => none
/-- `read_table_assignments` (tm 660-683). -/
def readAssignmentsS : Nat → List SKey → Bool → Text → Sheet → List (Text × TV) →
    Option (List (Text × TV) × Text × Sheet)
  | 0, _, _, _, _, _ => none
  | f + 1, base, inline, t, sh, acc =>
    match nonData true false t with
    | none => none
    | some [] => some (acc, dropNl t, sh)
    | some ('[' :: _) => some (acc, dropNl t, sh)
    | some _ =>
      match readKeyS t with
      | none => none
      | some k =>
        match k.rest with
        | '=' :: r =>
          match readValueS f (base ++ k.parts.map .name) r
              (setKey sh (base ++ k.parts.map .name) (keyRead k)) with
          | none => none
          | some (v, r, sh1) =>
            match enter (k.parts.map .key) v acc with
            | none => none
            | some acc =>
              let sh2 := markInternal sh1 base (k.parts.dropLast.map .name) .dotted
              if inline then
                match r with
                | ',' :: ' ' :: r' => readAssignmentsS f base inline r' sh2 acc
                | ',' :: r' => readAssignmentsS f base inline r' sh2 acc
                | _ => some (acc, dropNl r, sh2)
              else
                match r with
                | '\n' :: r' => readAssignmentsS f base inline r' sh2 acc
                | _ => some (acc, r, sh2)
        | _ => none
end

/-- The key of the data (tm 634-658). -/
def partOf : SKey → Part
  | .name k => .key k
  | .idx _ => .item

/-- `read_regular_table` (tm 685-699). -/
def readTableS (f : Nat) (t : Text) (sh : Sheet) : Option (List SKey × List (Text × TV) × Text × Sheet) :=
  match nonData true false t with
  | none => none
  | some t1 =>
    match readKeyS t1 with
    | none => none
    | some k =>
      let key := fullKeyS sh k
      let sh1 := markInternal (setKey sh key (keyRead k)) [] key.dropLast .hidden
      let style : VStyle := { prolog := consumed t t1, display := .regular }
      match k.rest with
      | [] => some (key, [], [], setValue sh1 key (.table []) style)
      | '\n' :: r =>
        (readAssignmentsS f key false r sh1 []).map (fun x => (key, x.1, x.2.1, setValue x.2.2 key (.table x.1) style))
      | _ => none

/-- The loop of `read` (tm 706-715), and the epilog of the root. -/
def readTablesS (f : Nat) : Nat → Text → Sheet → List (Text × TV) → Option (List (Text × TV) × Text × Sheet)
  | 0, _, _, _ => none
  | n + 1, t, sh, data =>
    match nonData true false t with
    | none => none
    | some [] => some (data, t, sh)
    | some _ =>
      match readTableS f t sh with
      | none => none
      | some (key, value, r, sh1) =>
        match enter (key.map partOf) (.table value) data with
        | none => none
        | some data => readTablesS f n r sh1 data

/-- `loads` (tm 701-718, 725-729). -/
def loadsS (t : Text) : Option (List (Text × TV) × Sheet) :=
  match nonData true false t with
  | none => none
  | some r =>
    match readAssignmentsS (4 * t.length + 4) [] false r {} [] with
    | none => none
    | some (data, r1, sh) =>
      match readTablesS (4 * t.length + 4) (t.length + 1) r1 sh data with
      | none => none
      | some (data, epilog, sh) =>
        some (data, setValue sh [] (.table data) { prolog := consumed t r, epilog := epilog, display := .regular })

/-! ### Writer -/

/-- The names among the parts from `offset` on (tm 266-269). -/
def namesFrom (key : List SKey) (offset : Nat) : List Text :=
  (key.drop offset).filterMap (fun k => match k with | .name n => some n | .idx _ => none)

/-- `_write_key` (tm 249-280). -/
def writeKey (sh : Sheet) (key : List SKey) (offset : Nat) (d : KDisp) : Text :=
  if key.isEmpty then []
  else
    let s := keyStyle sh key d
    let made := dots ((namesFrom key offset).map writeKeyPart)
    let made := match d with
      | .table => '[' :: made ++ [']']
      | .item => ['[', '['] ++ made ++ [']', ']']
      | _ => made
    let str := match s.str with
      | some k => if k.isEmpty then made else k
      | none => made
    s.prolog ++ str ++ s.epilog ++ (if d = .assignment then [] else ['\n'])

/-- A scalar with its style (tm 186-198, 232-247). -/
def scalarText (s : VStyle) (plain : Text) : Text := s.prolog ++ s.str.getD plain ++ s.epilog

/-- `.strip(' ')`. -/
def stripBlanks (t : Text) : Text := (((t.dropWhile (· == ' ')).reverse).dropWhile (· == ' ')).reverse

/-- `inappropriate_item` of some entry (tm 331-335). -/
def inappropriate (t : List (Text × TV)) : Bool :=
  t.any (fun e => match e.2 with
    | .table _ => false
    | .list l => !allTables l
    | _ => true)

/-- The own key of a table (tm 293-294). -/
def tableKey (s : VStyle) : KDisp := if s.display = .tableArrayItem then .item else .table

/-- Is an entry written among the assignments of its table (tm 303-311)? -/
def isOwn (sh : Sheet) (key : List SKey) (e : Text × TV) : Bool :=
  (valueStyle sh (key ++ [.name e.1]) e.2).display = .inline || (valueStyle sh (key ++ [.name e.1]) e.2).display = .dotted

/-- The frame of `_write_regular_table` (tm 288-322). -/
def regularText (sh : Sheet) (key : List SKey) (s : VStyle) (t : List (Text × TV)) (own delayed : Text) : Text :=
  s.prolog ++ writeKey sh key 0 (tableKey s) ++ own ++ (if t.any (isOwn sh key) then ['\n'] else []) ++ delayed ++ s.epilog

/-- The last name of a key (tm 368). -/
def lastName (key : List SKey) : Text :=
  match key.getLast? with
  | some (.name n) => n
  | _ => []

/-- The style of an entry of a hidden table (tm 340-342). -/
def hiddenStyle (sh : Sheet) (key : List SKey) (v : TV) : VStyle :=
  if (valueStyle sh key v).display = .inline then valueStyle sh key v .regular else valueStyle sh key v

mutual
/-- `_write_value` (tm 168-184) and the functions for lists and tables (tm 200-230, 325-365). A hidden table with an
inappropriate entry is written as a regular one; then what has been written of it is dropped, so this is asked first.
The other displays of a table raise an error; they do not occur. -/
def wValue (sh : Sheet) (key : List SKey) (s : VStyle) : TV → Text
  | .bool b => scalarText s (if b then ['t', 'r', 'u', 'e'] else ['f', 'a', 'l', 's', 'e'])
  | .int n => scalarText s (showInt n)
  | .str x => scalarText s (writeStr x)
  | .list l =>
    if s.display = .inline then s.prolog ++ '[' :: commas (wItems sh key 0 l) ++ s.trailing ++ ']' :: s.epilog
    else s.prolog ++ wTables sh key 0 l ++ s.epilog
  | .table t =>
    match s.display with
    | .regular => regularText sh key s t (wOwn sh key t) (wDelayed sh key t)
    | .tableArrayItem => regularText sh key s t (wOwn sh key t) (wDelayed sh key t)
    | .hidden =>
      if inappropriate t then
        regularText sh key (valueStyle sh key (.table t) .regular) t (wOwn sh key t) (wDelayed sh key t)
      else wHidden sh key t
    | .inline => s.prolog ++ '{' :: commas (wInline sh key t) ++ '}' :: s.epilog
    | .dotted => lines (wDotted sh key t) ++ ['\n'] ++ s.epilog
    | _ => []
/-- The items of `_write_inline_list` (tm 205-215). -/
def wItems (sh : Sheet) (key : List SKey) (i : Nat) : List TV → List Text
  | [] => []
  | v :: l =>
    stripBlanks (wValue sh (key ++ [.idx i]) (valueStyle sh (key ++ [.idx i]) v .inline) v) :: wItems sh key (i + 1) l
/-- The tables of `_write_table_list` (tm 389-396). -/
def wTables (sh : Sheet) (key : List SKey) (i : Nat) : List TV → Text
  | [] => []
  | v :: l =>
    wValue sh (key ++ [.idx i]) (valueStyle sh (key ++ [.idx i]) v .tableArrayItem) v ++ wTables sh key (i + 1) l
/-- The assignments of a regular table (tm 299-314). -/
def wOwn (sh : Sheet) (key : List SKey) : List (Text × TV) → Text
  | [] => []
  | (k, v) :: t =>
    let s := valueStyle sh (key ++ [.name k]) v
    (if s.display = .inline then
      writeKey sh (key ++ [.name k]) key.length .assignment ++ '=' :: wValue sh (key ++ [.name k]) s v ++ ['\n']
    else if s.display = .dotted then wValue sh (key ++ [.name k]) s v
    else []) ++ wOwn sh key t
/-- The other entries of a regular table (tm 317-318). -/
def wDelayed (sh : Sheet) (key : List SKey) : List (Text × TV) → Text
  | [] => []
  | (k, v) :: t =>
    let s := valueStyle sh (key ++ [.name k]) v
    (if s.display = .inline || s.display = .dotted then [] else wValue sh (key ++ [.name k]) s v) ++ wDelayed sh key t
/-- The entries of a hidden table (tm 325-351). A list is written by `_write_table_list`, a table by
`_write_hidden_table` or `_write_regular_table`, by its display. -/
def wHidden (sh : Sheet) (key : List SKey) : List (Text × TV) → Text
  | [] => []
  | (k, v) :: t =>
    let s := hiddenStyle sh (key ++ [.name k]) v
    wValue sh (key ++ [.name k]) (if v.isTable && s.display ≠ .hidden then { s with display := .regular } else s) v ++
      wHidden sh key t
/-- The entries of `_write_inline_table` (tm 353-365). -/
def wInline (sh : Sheet) (key : List SKey) : List (Text × TV) → List Text
  | [] => []
  | (k, v) :: t =>
    (writeKey sh (key ++ [.name k]) key.length .assignment ++ '=' ::
      wValue sh (key ++ [.name k]) (valueStyle sh (key ++ [.name k]) v .inline) v) :: wInline sh key t
/-- The entries of `_write_dotted_table` (tm 367-387): asked for an inline display, no entry has a dotted one. -/
def wDotted (sh : Sheet) (key : List SKey) : List (Text × TV) → List Text
  | [] => []
  | (k, v) :: t =>
    let ks := writeKey sh (key ++ [.name k]) key.length .assignment
    let own := match (keyStyle sh (key ++ [.name k])).str with
      | some x => !x.isEmpty
      | none => false
    ((if own then ks else writeKeyPart (lastName key) ++ '.' :: ks) ++ '=' ::
      wValue sh (key ++ [.name k]) (valueStyle sh (key ++ [.name k]) v .inline) v) :: wDotted sh key t
/-- `'\n'.join(...)`. -/
def lines : List Text → Text
  | [] => []
  | [t] => t
  | t :: ts => t ++ '\n' :: lines ts
end

/-- The writer that `loads` returns (tm 164-166, 729). -/
def write (sh : Sheet) (data : List (Text × TV)) : Text :=
  rstrip (wValue sh [] (valueStyle sh [] (.table data)) (.table data))

end TomlStyle
end Pkm
