import Verif.Tags.Model
import Verif.Dict
/-
Model of the reading of the table of compatibility from the web:
/repo/repositories/download-torch-pkm-repo/src/download_torch_pkm_repo/utils/html.py (`ht` below) and
cuda_compatibility.py 71-108 (`cc`).

Simplifications:
* `HTMLParser.feed` calls `handle_starttag`, `handle_endtag` and `handle_data`; a page is the list of these calls. `<a/>` gives
  a start and an end, as `handle_startendtag` is inherited; comments, declarations and so on are ignored, as inherited.
* The stack of `_lookup` gets a bound on the number of rounds, which is shown to be enough (`html_select_one`).
-/
namespace Pkm.Html
open Tags

/-- `Element` (ht 10-14). -/
inductive Elem where
  | mk (tag : Text) (attrs : Dict Text Text) (children : List Elem)
  deriving Repr

def Elem.tag : Elem → Text
  | .mk t _ _ => t
def Elem.attrs : Elem → Dict Text Text
  | .mk _ a _ => a
def Elem.children : Elem → List Elem
  | .mk _ _ c => c

mutual
/-- The number of elements. -/
def Elem.size : Elem → Nat
  | .mk _ _ cs => sizes cs + 1
def sizes : List Elem → Nat
  | [] => 0
  | e :: es => e.size + sizes es
end

/-- `data` (ht 16-17); `KeyError` if a `data` element has no value. -/
def dataOf : List Elem → Option Text
  | [] => some []
  | e :: es =>
    if e.tag = t!"data" then
      match Dict.get e.attrs t!"value" with
      | none => none
      | some v => match dataOf es with
        | none => none
        | some r => some (v ++ r)
    else dataOf es

/-- `_lookup` (ht 19-30): `nodes` is the stack, its top first. -/
def lookup (m : Elem → Bool) (roots : Bool) : Nat → List Elem → List Elem
  | 0, _ => []
  | _, [] => []
  | n + 1, e :: nodes =>
    if m e then e :: (if roots then lookup m roots n nodes else lookup m roots n (e.children.reverse ++ nodes))
    else lookup m roots n (e.children.reverse ++ nodes)

/-- `select` (ht 32-38). -/
def select : List (Elem → Bool) → Elem → List Elem
  | [], _ => []  -- `IndexError` in the code
  | [m], e => lookup m false (e.size + 1) [e]
  | m :: ms, e => (lookup m true (e.size + 1) [e]).flatMap (select ms)

/-- A call of the parser. -/
inductive Event where
  | start (tag : Text) (attrs : List (Text × Option Text))
  | stop (tag : Text)
  | data (text : Text)

inductive PErr where
  /-- `IllegalStateException` -/
  | nesting
  /-- `IndexError`: the root was closed -/
  | index
  deriving DecidableEq, Repr

/-- The attributes of a start tag (ht 49-51). -/
def attrDict (attrs : List (Text × Option Text)) : Dict Text Text :=
  attrs.foldl (fun d a => Dict.put d a.1 (a.2.getD t!"true")) []

/-- One call (ht 48-66); the stack `_node`, its top first. -/
def handle : List Elem → Event → Except PErr (List Elem)
  | st, .start tag attrs => .ok (.mk tag (attrDict attrs) [] :: st)
  | [], .stop _ => .error .index
  | e :: st, .stop tag =>
    if e.tag ≠ tag then .error .nesting
    else match st with
      | [] => .error .index
      | p :: st => .ok (.mk p.tag p.attrs (p.children ++ [e]) :: st)
  | [], .data _ => .error .index
  | p :: st, .data text => .ok (.mk p.tag p.attrs (p.children ++ [.mk t!"data" [(t!"value", text)] []]) :: st)

/-- All calls. -/
def handleAll : List Elem → List Event → Except PErr (List Elem)
  | st, [] => .ok st
  | st, e :: es => match handle st e with
    | .error x => .error x
    | .ok st => handleAll st es

/-- `parser.dom` after `feed`: the last of the stack. -/
def parse (es : List Event) : Except PErr (Option Elem) :=
  match handleAll [.mk t!"root" [] []] es with
  | .error x => .error x
  | .ok st => .ok st.getLast?

/-- The rows of the table (cc 86-90). -/
def rows (dom : Elem) : List Elem :=
  select [fun e => Dict.get e.attrs t!"id" == some t!"cuda-major-component-versions__table-cuda-toolkit-driver-versions",
    fun e => e.tag == t!"tbody", fun e => e.tag == t!"tr"] dom

/-- The texts of the cells of a row (cc 93). -/
def columns : List Elem → Option (List Text)
  | [] => some []
  | e :: es =>
    if e.tag = t!"td" then
      match dataOf e.children with
      | none => none
      | some d => match columns es with
        | none => none
        | some r => some (d :: r)
    else columns es

/-- One row (cc 93-98); the parsers of versions and of specifiers are parameters (C05, C07). -/
def rowSpec {V S : Type} (pv : Text → Option V) (ps : Text → Option S) (row : Elem) : Option (V × S × S) :=
  match columns row.children with
  | some (c0 :: c1 :: c2 :: _) => match (splitOn ' ' c0)[1]? with
    | none => none
    | some t => match pv t with
      | none => none
      | some v => match ps c1 with
        | none => none
        | some l => match ps c2 with
          | none => none
          | some w => some (v, l, w)
  | _ => none

def rowSpecs {V S : Type} (pv : Text → Option V) (ps : Text → Option S) : List Elem → Option (List (V × S × S))
  | [] => some []
  | r :: rs => match rowSpec pv ps r with
    | none => none
    | some x => match rowSpecs pv ps rs with
      | none => none
      | some xs => some (x :: xs)

/-- `load` with a file (cc 77-107): the table used, and the content of the file afterwards. `page` is what the web gives,
`none` if it cannot be had; `backup` is the content of the file. -/
def load {V S : Type} (pv : Text → Option V) (ps : Text → Option S) (page : Option (List Event)) (backup : List (V × S × S)) :
    List (V × S × S) × List (V × S × S) :=
  match page with
  | none => (backup, backup)
  | some es => match parse es with
    | .error _ => (backup, backup)
    | .ok none => (backup, backup)
    | .ok (some dom) => match rowSpecs pv ps (rows dom) with
      | none => (backup, backup)
      | some l => (l, l)

end Pkm.Html
