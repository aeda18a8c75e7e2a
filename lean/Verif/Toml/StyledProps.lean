import Verif.Toml.StyledWriting
import Verif.Toml.Props
set_option linter.unusedVariables false
/-
Property C116: editing a TOML file keeps everything that is not edited.
-/
namespace Pkm
namespace TomlStyle
open Toml
open Spec Spec.Styled

/-- C116 (edits). From any text of a tidy file its data is read, and whatever is then done to it - values changed, lines
and tables removed, added or reordered, in any number and combination - what is written is the file in which exactly this
has been done: every line that is kept has its comments, blanks and spellings as before, a changed line keeps all that
stands before its value, a list keeps the elements that are kept at their
places as they were, removed lines and tables take only their own comments with them, and the comments at the start and
the end stay. Missing: the white space at the end of the file, and files or edits of other kinds, see below. -/
theorem styled_edit_partial (d : Doc) (t : Text) (hd : d.Tidy) (ht : d.IsText t) :
    ∃ sh, loadsS t = some (d.data, sh) ∧
      ∀ items : List Item, allOf true d.root d.tables items → write sh (entries items) = rstrip (d.edited items).text :=
  ⟨docSheet d, loadsS_doc d t hd ht, fun items h => write_items d hd _ (docSheet_knows d hd) items h⟩

theorem rstrip_newline (t : Text) : rstrip (t ++ ['\n']) = rstrip t := by
  unfold rstrip
  rw [List.reverse_append]
  show (List.dropWhile isSpace ('\n' :: t.reverse)).reverse = _
  rw [List.dropWhile_cons, if_pos (by decide)]

/-- The edit that keeps lines. -/
def keepLines (ls : List Line) : List Item := ls.map (fun l => .row (.kept l))

mutual
/-- The edit that keeps a table. -/
def keepNode : Node → Item
  | .mk n h ls ss => .table (.mk n h ls ss) (keepLines ls ++ keepAll ss)
/-- Several tables. -/
def keepAll : List Node → List Item
  | [] => []
  | n :: ns => keepNode n :: keepAll ns
end

theorem entries_append (a b : List Item) : entries (a ++ b) = entries a ++ entries b := by
  induction a with
  | nil => rfl
  | cons i a ih => simp [entries, ih]

theorem linesOf_keep (ls : List Line) (b : List Item) : linesOf (keepLines ls ++ b) = ls ++ linesOf b := by
  induction ls with
  | nil => rfl
  | cons l ls ih => show l :: linesOf (keepLines ls ++ b) = _; rw [ih]; rfl

theorem nodesOf_keep (ls : List Line) (b : List Item) : nodesOf (keepLines ls ++ b) = nodesOf b := by
  induction ls with
  | nil => rfl
  | cons l ls ih =>
    show nodesOf (.row (.kept l) :: (keepLines ls ++ b)) = _
    rw [nodesOf, ih]; simp [Item.node]

theorem entries_keep (ls : List Line) : entries (keepLines ls) = values ls := by
  induction ls with
  | nil => rfl
  | cons l ls ih =>
    show entries (.row (.kept l) :: keepLines ls) = _
    rw [entries, ih]; simp [Item.entry, values, Row.line]

theorem allOf_append (root : Bool) (ls : List Line) (ts : List Node) (a b : List Item) (h1 : allOf root ls ts a) (h2 : allOf root ls ts b) :
    allOf root ls ts (a ++ b) := by
  induction a with
  | nil => exact h2
  | cons i a ih => simp only [List.cons_append, allOf] at h1 ⊢; exact ⟨h1.1, ih h1.2⟩

theorem allOf_keep (root : Bool) (all : List Line) (ts : List Node) (ls : List Line) (h : ∀ l ∈ ls, l ∈ all) :
    allOf root all ts (keepLines ls) := by
  induction ls with
  | nil => simp [keepLines, allOf]
  | cons l ls ih =>
    show allOf root all ts (.row (.kept l) :: keepLines ls)
    simp only [allOf, Item.Of, Row.Of]
    exact ⟨h l List.mem_cons_self, ih (fun x hx => h x (List.mem_cons_of_mem _ hx))⟩

theorem keepAll_tables (ns : List Node) : linesOf (keepAll ns) = [] ∧ ∀ i ∈ keepAll ns, i.isTable = true := by
  induction ns with
  | nil => exact ⟨rfl, by simp [keepAll]⟩
  | cons n ns ih =>
    cases n
    simp only [keepAll, keepNode, linesOf, List.mem_cons]
    refine ⟨ih.1, ?_⟩
    rintro i (rfl | hi)
    · rfl
    · exact ih.2 i hi

mutual
theorem keepNode_all : ∀ n : Node, n.Ok → (keepNode n).entry = n.data ∧ (keepNode n).node = [n] ∧
    ∀ root ls ts, n ∈ ts → (keepNode n).Of root ls ts
  | .mk n h ls ss, hok => by
    simp only [Node.Ok] at hok
    obtain ⟨-, -, hno, -, -, hss⟩ := hok
    obtain ⟨h1, h2, h3⟩ := keepAll_all ss hss
    refine ⟨?_, ?_, ?_⟩
    · simp only [keepNode, Item.entry, Node.data, Node.name, entries_append, entries_keep, h1]
    · simp only [keepNode, Item.node, Node.name, Node.head, linesOf_keep, nodesOf_keep, h2, (keepAll_tables ss).1, List.append_nil]
      cases h with
      | none => rw [if_pos (hno rfl).1]
      | some x => split <;> rfl
    · intro root ls' ts hm
      simp only [keepNode, Item.Of, Node.head, Node.lines, Node.subs]
      refine ⟨hm, ?_, allOf_append _ _ _ _ _ (allOf_keep _ _ _ _ (fun l hl => hl)) (h3 _ _ _ (fun n hn => hn))⟩
      intro hh
      left
      rw [linesOf_keep, (hno hh).1, (keepAll_tables ss).1]
      rfl
theorem keepAll_all : ∀ ns : List Node, allOk ns → entries (keepAll ns) = allData ns ∧ nodesOf (keepAll ns) = ns ∧
    ∀ root ls ts, (∀ n ∈ ns, n ∈ ts) → allOf root ls ts (keepAll ns)
  | [], _ => ⟨rfl, rfl, by intro root ls ts _; simp [keepAll, allOf]⟩
  | n :: ns, hok => by
    simp only [allOk] at hok
    obtain ⟨a1, a2, a3⟩ := keepNode_all n hok.1
    obtain ⟨h1, h2, h3⟩ := keepAll_all ns hok.2
    refine ⟨?_, ?_, ?_⟩
    · simp only [keepAll, entries, allData, a1, h1]
    · simp only [keepAll, nodesOf, a2, h2, List.singleton_append]
    · intro root ls ts hm
      simp only [keepAll, allOf]
      exact ⟨a3 root ls ts (hm n List.mem_cons_self), h3 root ls ts (fun x hx => hm x (List.mem_cons_of_mem _ hx))⟩
end

/-- C116 (nothing edited). A tidy file that is loaded and saved stays as it is, but for white space at its end. -/
theorem styled_unchanged_partial (d : Doc) (t : Text) (hd : d.Tidy) (ht : d.IsText t) :
    ∃ sh, loadsS t = some (d.data, sh) ∧ write sh d.data = rstrip t := by
  obtain ⟨sh, h1, h2⟩ := styled_edit_partial d t hd ht
  refine ⟨sh, h1, ?_⟩
  obtain ⟨k1, k2, k3⟩ := keepAll_all d.tables hd.tables
  have h3 := h2 (keepLines d.root ++ keepAll d.tables)
    (allOf_append _ _ _ _ _ (allOf_keep _ _ _ _ (fun l hl => hl)) (k3 _ _ _ (fun n hn => hn)))
  have e1 : entries (keepLines d.root ++ keepAll d.tables) = d.data := by
    rw [entries_append, entries_keep, k1]; rfl
  have e2 : d.edited (keepLines d.root ++ keepAll d.tables) = d := by
    simp only [Doc.edited, linesOf_keep, nodesOf_keep, k2, (keepAll_tables d.tables).1, List.append_nil]
  rw [e1, e2] at h3
  rw [h3]
  rcases ht with rfl | ⟨-, e⟩
  · rfl
  · rw [← e, rstrip_newline]

/-! ### Reading what was saved -/

theorem same_refl (a : List (Text × TV)) : SameData a a := by
  induction a with
  | nil => exact .nil
  | cons x a ih => exact .value x.1 x.2 ih

theorem same_move (x : Text × TV) (ls : List Line) (b : List (Text × TV)) : SameData (x :: (values ls ++ b)) (values ls ++ x :: b) := by
  induction ls with
  | nil => exact same_refl _
  | cons l ls ih => exact .trans (.swap x (l.name, l.value.value) (values ls ++ b)) (.value _ _ ih)

theorem items_same : ∀ items : List Item, SameData (entries items) (values (linesOf items) ++ allData (nodesOf items))
  | [] => .nil
  | .row r :: items => .value _ _ (items_same items)
  | .table t its :: items => by
    have h1 := items_same its
    have h2 := items_same items
    refine .trans ?_ (same_move (t.name, .table (values (linesOf its) ++ allData (nodesOf its))) (linesOf items) (allData (nodesOf items)))
    exact .table _ h1 h2
  | .newTable n rows :: items => by
    have h2 := items_same items
    have e : allData (nodesOf (.newTable n rows :: items)) = (n, .table (values (rows.map Row.line))) :: allData (nodesOf items) := by
      simp [nodesOf, Item.node, allData, Node.data]
    rw [e]
    exact .trans (.value _ _ h2) (same_move _ (linesOf items) (allData (nodesOf items)))

theorem rstrip_split (t : Text) : ∃ w, (∀ c ∈ w, isSpace c = true) ∧ rstrip t ++ w = t := by
  refine ⟨(t.reverse.takeWhile isSpace).reverse, ?_, ?_⟩
  · intro c hc
    exact List.all_eq_true.1 List.all_takeWhile c (List.mem_reverse.1 hc)
  · unfold rstrip
    rw [← List.reverse_append, List.takeWhile_append_dropWhile, List.reverse_reverse]

/-- C116 (reading again). From what is written after an edit, with the white space at the end that the writer took away,
exactly the edited data is read, provided that the edited file is tidy, as the original was. -/
theorem styled_read_back_partial (d : Doc) (t : Text) (hd : d.Tidy) (ht : d.IsText t) :
    ∃ sh, loadsS t = some (d.data, sh) ∧
      ∀ items : List Item, allOf true d.root d.tables items → (d.edited items).Tidy →
        ∃ w data sh', (∀ c ∈ w, isSpace c = true) ∧ loadsS (write sh (entries items) ++ w) = some (data, sh') ∧
          SameData (entries items) data := by
  obtain ⟨sh, h1, h2⟩ := styled_edit_partial d t hd ht
  refine ⟨sh, h1, ?_⟩
  intro items h he
  obtain ⟨w, hw, e⟩ := rstrip_split (d.edited items).text
  refine ⟨w, (d.edited items).data, docSheet (d.edited items), hw, ?_, items_same items⟩
  rw [h2 items h, e]
  exact loadsS_doc _ _ he (Or.inl rfl)

/-! ### A file and an edit -/

namespace Example
open TomlExample

/-- The line `needs` with a list over several lines. -/
def needs : Line :=
  { name := txt "needs"
    value := .list
      [{ lead := { lines := [([], none)], indent := [' ', ' '] }, value := .quoted (txt "a>1") },
       { lead := { lines := [([], some (txt " fast")), ([], none)], indent := [' ', ' '] }, value := .literal (txt "b") }]
      (some { lines := [([], none)] }) }

/-- The table `[tool]` with comments and lines; in it, the table `[tool.x]`. -/
def tool : Node :=
  .mk (txt "tool") (some { gap := { lines := [([], some (txt "tools"))] }, tail := ['\t'] })
    [{ name := txt "on", value := .scalar (.bool true) },
     { gap := { lines := [([' '], some (txt " why"))] }, name := txt "path", value := .scalar (.quoted (txt "c:\\x")) }, needs]
    [.mk (txt "x") (some { comment := some (txt " deep") }) [{ name := txt "y", value := .scalar (.number 1) }] []]

/-- The table `a` that has no header, and the table `[a."b c"]` in it. -/
def outer : Node :=
  .mk (txt "a") none []
    [.mk (txt "b c") (some {}) [{ name := txt "v", value := .scalar (.literal (txt "w")) }, { name := txt "z", value := .scalar (.bool false) }] []]

/-- `name = 'x' # the name`, two tables with tables in them, and a comment at the end. -/
def file : Doc where
  start := { lines := [([], some (txt " settings")), ([], none)] }
  root := [{ name := txt "name", value := .scalar (.literal (txt "x")), tail := [' '], comment := some (txt " the name") },
           { gap := { indent := [' '] }, name := txt "a b", before := [], value := .scalar (.number (-3)) }]
  tables := [tool, outer]
  last := { lines := [([], some (txt " end"))] }

theorem blanks_nil : Blanks [] := by intro c h; simp at h
theorem blanks_one : Blanks [' '] := by intro c h; simp at h; exact Or.inl h
theorem blanks_tab : Blanks ['\t'] := by intro c h; simp at h; exact Or.inr h
theorem comment_none : CommentOk none := by intro t h; simp at h
theorem comment_some {t : Text} (h : '\n' ∉ t) : CommentOk (some t) := by intro u e; simp at e; rw [← e]; exact h
theorem gap_nil : Gap.Ok {} := ⟨by simp, blanks_nil⟩

theorem list_ok : Value.Ok (.list
    [{ lead := { lines := [([], none)], indent := [' ', ' '] }, value := .quoted (txt "a>1") },
     { lead := { lines := [([], some (txt " fast")), ([], none)], indent := [' ', ' '] }, value := .literal (txt "b") }]
    (some { lines := [([], none)] })) := by
  have two : Blanks [' ', ' '] := by intro c h; simp at h; exact Or.inl h
  constructor
  · intro e he
    simp only [List.mem_cons, List.not_mem_nil, or_false] at he
    rcases he with rfl | rfl
    · refine ⟨⟨?_, two⟩, ⟨by decide +kernel, by decide +kernel⟩, gap_nil, by decide +kernel, Or.inl rfl, by decide +kernel⟩
      intro l hl; simp at hl; subst hl; exact ⟨blanks_nil, comment_none⟩
    · refine ⟨⟨?_, two⟩, by show '\'' ∉ txt "b"; decide +kernel, gap_nil, by decide +kernel, Or.inl rfl, by decide +kernel⟩
      intro l hl
      simp at hl
      rcases hl with rfl | rfl
      · exact ⟨blanks_nil, comment_some (by decide +kernel)⟩
      · exact ⟨blanks_nil, comment_none⟩
  · intro g hg
    simp at hg
    subst hg
    refine ⟨?_, blanks_nil⟩
    intro l hl; simp at hl; subst hl; exact ⟨blanks_nil, comment_none⟩

theorem line_plain {n : Text} {v : Scalar} (h : ReadableStr n) (hv : Scalar.Ok v) : Line.Ok { name := n, value := .scalar v } :=
  ⟨gap_nil, h, blanks_one, blanks_one, hv, blanks_nil, comment_none, by simp [Value.isList]⟩

theorem tool_ok : tool.Ok := by
  unfold tool
  simp only [Node.Ok, allOk]
  refine ⟨⟨by decide +kernel, by decide +kernel⟩, ?_, by simp, ?_, by decide +kernel, ⟨⟨by decide +kernel, by decide +kernel⟩, ?_, by simp, ?_,
    by decide +kernel, trivial⟩, trivial⟩
  · intro x hx
    simp at hx; subst hx
    refine ⟨⟨⟨?_, blanks_nil⟩, blanks_tab, comment_none⟩, by simp⟩
    intro l hl; simp at hl; subst hl; exact ⟨blanks_nil, comment_some (by decide +kernel)⟩
  · intro l hl
    simp only [List.mem_cons, List.not_mem_nil, or_false] at hl
    rcases hl with rfl | rfl | rfl
    · exact line_plain ⟨by decide +kernel, by decide +kernel⟩ trivial
    · refine ⟨⟨?_, blanks_nil⟩, ⟨by decide +kernel, by decide +kernel⟩, blanks_one, blanks_one,
        ⟨by decide +kernel, by decide +kernel⟩, blanks_nil, comment_none, by simp [Value.isList]⟩
      intro l hl; simp at hl; subst hl; exact ⟨blanks_one, comment_some (by decide +kernel)⟩
    · exact ⟨gap_nil, ⟨by decide +kernel, by decide +kernel⟩, blanks_one, blanks_one, list_ok, blanks_nil, comment_none,
        by simp [needs, Value.isList]⟩
  · intro x hx
    simp at hx; subst hx
    exact ⟨⟨gap_nil, blanks_nil, comment_some (by decide +kernel)⟩, by simp⟩
  · intro l hl
    simp at hl; subst hl
    exact line_plain ⟨by decide +kernel, by decide +kernel⟩ trivial

theorem outer_ok : outer.Ok := by
  unfold outer
  simp only [Node.Ok, allOk]
  refine ⟨⟨by decide +kernel, by decide +kernel⟩, by simp, by simp, by simp, by decide +kernel, ⟨⟨by decide +kernel, by decide +kernel⟩, ?_,
    by simp, ?_, by decide +kernel, trivial⟩, trivial⟩
  · intro x hx
    simp at hx; subst hx
    exact ⟨⟨gap_nil, blanks_nil, comment_none⟩, by simp⟩
  · intro l hl
    simp only [List.mem_cons, List.not_mem_nil, or_false] at hl
    rcases hl with rfl | rfl
    · exact line_plain ⟨by decide +kernel, by decide +kernel⟩ (by show '\'' ∉ txt "w"; decide +kernel)
    · exact line_plain ⟨by decide +kernel, by decide +kernel⟩ trivial

theorem file_tidy : file.Tidy where
  start := ⟨by
    intro l hl
    simp [file] at hl
    rcases hl with rfl | rfl
    · exact ⟨blanks_nil, comment_some (by decide +kernel)⟩
    · exact ⟨blanks_nil, comment_none⟩, blanks_nil⟩
  root := by
    intro l hl
    simp [file] at hl
    rcases hl with rfl | rfl
    · exact ⟨gap_nil, ⟨by decide +kernel, by decide +kernel⟩, blanks_one, blanks_one, by show '\'' ∉ txt "x"; decide +kernel, blanks_one,
        comment_some (by decide +kernel), by simp [Value.isList]⟩
    · exact ⟨⟨by simp, blanks_one⟩, ⟨by decide +kernel, by decide +kernel⟩, blanks_nil, blanks_one, trivial, blanks_nil, comment_none,
        by simp [Value.isList]⟩
  tables := ⟨tool_ok, outer_ok, trivial⟩
  last := ⟨by intro l hl; simp [file] at hl; subst hl; exact ⟨blanks_nil, comment_some (by decide +kernel)⟩, blanks_nil⟩
  names := by decide +kernel
  some := Or.inl (by simp [file])
  first := by intro l hl; simp [file] at hl; subst hl; rfl
  firstSection := by intro h; simp [file] at h

/-- The text of the file. -/
example : file.text = txt ("# settings\n\nname = 'x' # the name\n \"a b\"= -3\n\n#tools\n[tool]\t\non = true\n # why\n" ++
    "path = \"c:\\\\x\"\nneeds = [\n  \"a>1\", # fast\n\n  'b',\n]\n\n[tool.x]# deep\ny = 1\n\n[a.\"b c\"]\nv = 'w'\nz = false\n\n# end\n") := by
  decide +kernel

/-- An edit: the line of the root with the number is removed, `on` becomes a text, the list gets a new second element and
a third one, a line is added, `[tool.x]` gets a line, `[a."b c"]` loses one and gets a table, `a` gets a line, and a table
is added. -/
def edit : List Item :=
  (file.root.take 1).map (fun l => .row (.kept l)) ++
  [.table tool
    [.row (.changed { name := txt "on", value := .scalar (.bool true) } (.scalar (.quoted (txt "yes")))),
     .table (.mk (txt "x") (some { comment := some (txt " deep") }) [{ name := txt "y", value := .scalar (.number 1) }] [])
       [.row (.kept { name := txt "y", value := .scalar (.number 1) }), .row (.added (txt "k") (.scalar (.number 2)))],
     .row (.relisted needs
      [{ lead := { lines := [([], none)], indent := [' ', ' '] }, value := .quoted (txt "a>1") },
       { value := .quoted (txt "c") }, { value := .number 5 }]),
     .row (.added (txt "new") (.scalar (.number 7)))],
   .newTable (txt "more") [.added (txt "x") (.list [{ value := .bool false }, { value := .bool true }] none)],
   .table outer [.row (.added (txt "t") (.scalar (.bool true))), .row (.added (txt "u") (.list [] none)), .table (.mk (txt "b c") (some {})
      [{ name := txt "v", value := .scalar (.literal (txt "w")) }, { name := txt "z", value := .scalar (.bool false) }] [])
      [.row (.kept { name := txt "v", value := .scalar (.literal (txt "w")) }),
       .newTable (txt "c") [.added (txt "x") (.list [{ value := .number 4 }] none)]]]]

theorem edit_of : allOf true file.root file.tables edit := by
  simp only [edit, file, List.take, List.map_cons, List.map_nil, List.cons_append, List.nil_append, allOf, Item.Of, Row.Of, and_true]
  refine ⟨by simp, ⟨by simp, by simp [tool, Node.head], ⟨by decide +kernel, by simp [Differ, Scalar.value, Same], by simp [Value.Plain]⟩,
    ⟨by simp [tool, Node.subs], by simp [Node.head], by simp [Node.lines], by decide +kernel, by simp [Node.subs], by simp [Value.Plain]⟩,
    ⟨by decide +kernel, _, _, rfl, ?_, Or.inr (by simp)⟩, by decide +kernel, by decide +kernel, by simp [Value.Plain]⟩,
    ⟨Or.inl trivial, by decide +kernel, by decide +kernel, by simp, ?_⟩, by simp, ?_, ⟨by decide +kernel, by decide +kernel, by simp [Value.Plain]⟩,
    ⟨by decide +kernel, by decide +kernel, by simp [Value.Plain]⟩, by simp [outer, Node.subs], by simp [Node.head], by simp [Node.lines],
    Or.inr (Or.inr ?_), by decide +kernel, by simp [Node.subs], by simp, ?_⟩
  · intro i e hi
    rcases i with _ | _ | _ | i
    · left; simpa using hi
    · right; simp at hi; subst hi; exact ⟨by intro o ho; simp at ho; subst ho; simp [Same, Scalar.value]; decide +kernel, rfl, by simp⟩
    · right; simp at hi; subst hi; exact ⟨by simp, rfl, by simp⟩
    · simp at hi
  · intro r hr
    simp only [List.mem_cons, List.not_mem_nil, or_false] at hr
    subst hr
    exact ⟨by simp, by simp, by simp [Value.Plain]⟩
  · intro _; right; exact ⟨_, List.mem_cons_self, by simp [Row.line, Value.value, Scalar.value]⟩
  · exact ⟨_, List.mem_cons_self, trivial⟩
  · intro r hr
    simp only [List.mem_cons, List.not_mem_nil, or_false] at hr
    subst hr
    exact ⟨by simp, by simp, by simp [Value.Plain]⟩

/-- The file and the edit meet the hypotheses, and this is what is written. -/
example : ∃ sh, loadsS file.text = some (file.data, sh) ∧ write sh (entries edit) =
    txt ("# settings\n\nname = 'x' # the name\n\n#tools\n[tool]\t\non = \"yes\"\nneeds = [\n  \"a>1\", \"c\", 5,\n]\n" ++
      "new = 7\n\n[tool.x]# deep\ny = 1\nk = 2\n\n[more]\nx = [false, true]\n\n[a]\nt = true\nu = []\n\n[a.\"b c\"]\nv = 'w'\n\n[a.\"b c\".c]\nx = [4]\n\n# end") := by
  obtain ⟨sh, h1, h2⟩ := styled_edit_partial file file.text file_tidy (Or.inl rfl)
  refine ⟨sh, h1, ?_⟩
  rw [h2 edit edit_of]
  decide +kernel

/-- Another edit: only the first line and the table `a` are kept, with a line added behind the table in it. -/
def edit2 : List Item :=
  [.table outer [.table (.mk (txt "b c") (some {})
      [{ name := txt "v", value := .scalar (.literal (txt "w")) }, { name := txt "z", value := .scalar (.bool false) }] [])
      [.row (.kept { name := txt "v", value := .scalar (.literal (txt "w")) })],
    .row (.added (txt "t") (.scalar (.bool true)))],
   .row (.kept { name := txt "name", value := .scalar (.literal (txt "x")), tail := [' '], comment := some (txt " the name") })]

theorem edit2_of : allOf true file.root file.tables edit2 := by
  simp only [edit2, file, allOf, Item.Of, Row.Of, and_true]
  refine ⟨⟨by simp, ?_, ⟨by simp [outer, Node.subs], by simp [Node.head], by simp [Node.lines]⟩, by decide +kernel, by decide +kernel,
    by simp [Value.Plain]⟩, by simp⟩
  intro _; right; exact ⟨_, List.mem_cons_self, by simp [Row.line, Value.value, Scalar.value]⟩

theorem edit2_tidy : (file.edited edit2).Tidy where
  start := file_tidy.start
  root := by
    intro l hl
    simp [Doc.edited, edit2, linesOf, Row.line] at hl
    subst hl
    exact file_tidy.root _ (by simp [file])
  tables := by
    have e : (file.edited edit2).tables = [.mk (txt "a") (some {}) [{ name := txt "t", value := .scalar (.bool true) }]
        [.mk (txt "b c") (some {}) [{ name := txt "v", value := .scalar (.literal (txt "w")) }] []]] := by
      simp [Doc.edited, edit2, nodesOf, Item.node, linesOf, Row.line, outer, Node.name, Node.head, Gap.text]
    rw [e]
    simp only [allOk, Node.Ok]
    refine ⟨⟨⟨by decide +kernel, by decide +kernel⟩, ?_, by simp, ?_, by decide +kernel, ⟨⟨by decide +kernel, by decide +kernel⟩, ?_,
      by simp, ?_, by decide +kernel, trivial⟩, trivial⟩, trivial⟩
    · intro x hx; simp at hx; subst hx; exact ⟨⟨gap_nil, blanks_nil, comment_none⟩, by simp⟩
    · intro l hl; simp at hl; subst hl; exact line_plain ⟨by decide +kernel, by decide +kernel⟩ trivial
    · intro x hx; simp at hx; subst hx; exact ⟨⟨gap_nil, blanks_nil, comment_none⟩, by simp⟩
    · intro l hl; simp at hl; subst hl
      exact line_plain ⟨by decide +kernel, by decide +kernel⟩ (by show '\'' ∉ txt "w"; decide +kernel)
  last := file_tidy.last
  names := by decide +kernel
  some := Or.inl (by simp [Doc.edited, edit2, linesOf])
  first := by intro l hl; simp [Doc.edited, edit2, linesOf, Row.line] at hl; subst hl; rfl
  firstSection := by intro h; simp [Doc.edited, edit2, linesOf] at h

/-- The file and this edit meet the hypotheses of `styled_read_back_partial`. -/
example : ∃ sh w data sh', loadsS file.text = some (file.data, sh) ∧ loadsS (write sh (entries edit2) ++ w) = some (data, sh') ∧
    SameData (entries edit2) data := by
  obtain ⟨sh, h1, h2⟩ := styled_read_back_partial file file.text file_tidy (Or.inl rfl)
  obtain ⟨w, data, sh', -, h3, h4⟩ := h2 edit2 edit2_of edit2_tidy
  exact ⟨sh, w, data, sh', h1, h3, h4⟩

/-- So does the file that is only saved. -/
example : ∃ sh, loadsS file.text = some (file.data, sh) ∧ write sh file.data = rstrip file.text :=
  styled_unchanged_partial file _ file_tidy (Or.inl rfl)

end Example
open TomlExample

/-! ### What fails -/

/-- A text that is loaded, edited and written. -/
def saved (t : Text) (edit : List (Text × TV) → List (Text × TV)) : Option Text :=
  (loadsS t).map (fun x => write x.2 (edit x.1))

/-- C116, what fails: a comment behind a list or an inline table gets lost, though nothing was edited. -/
theorem styled_comment_violated :
    saved (txt "a = [true] # why\n") id = some (txt "a = [true]") ∧
    saved (txt "a = {b = true} # why\n") id = some (txt "a = {b = true}") := by decide +kernel

/-- C116, what fails: saving turns a dotted key of three parts into another key, though nothing was edited. -/
theorem styled_dotted_violated :
    loads (txt "a.b.c = true\n") = some [(txt "a", .table [(txt "b", .table [(txt "c", .bool true)])])] ∧
    saved (txt "a.b.c = true\n") id = some (txt "a.b = {a.b.c = true}") ∧
    loads (txt "a.b = {a.b.c = true}") =
      some [(txt "a", .table [(txt "b", .table [(txt "a", .table [(txt "b", .table [(txt "c", .bool true)])])])])] := by decide +kernel

/-- C116, what fails: a number that is edited to a truth value Python calls equal to it is not edited. -/
theorem styled_truth_violated :
    saved (txt "a = 1\n") (fun _ => [(txt "a", .bool true)]) = some (txt "a = 1") ∧
    saved (txt "a = false\n") (fun _ => [(txt "a", .int 0)]) = some (txt "a = false") := by decide +kernel

/-- C116, what fails: a table that is replaced by a value, and a value that is replaced by a table, are written in a way
that cannot be read. -/
theorem styled_retyped_violated :
    saved (txt "[a]\nb = true\n") (fun _ => [(txt "a", .str (txt "x"))]) = some (txt "[a] = \"x\"") ∧
    loads (txt "[a] = \"x\"") = none ∧
    saved (txt "a = 'x'\n") (fun _ => [(txt "a", .table [(txt "b", .bool true)])]) = some (txt "a \nb = true") ∧
    loads (txt "a \nb = true") = none := by decide +kernel

/-- C116, what fails: a file with a comment or a number at its end is saved without the line feed, and then it cannot be
loaded any more (on the comment the reader never ends, C34). -/
theorem styled_end_violated :
    saved (txt "a = true\n\n# end\n") id = some (txt "a = true\n\n# end") ∧ loads (txt "a = true\n\n# end") = none ∧
    saved (txt "a = 1\n") id = some (txt "a = 1") ∧ loads (txt "a = 1") = none := by decide +kernel

/-- C116, what fails: a list with a comma before its closing bracket keeps the comma when it gets empty, and then cannot
be read; a comment between an element and its comma gets lost. -/
theorem styled_list_violated :
    saved (txt "a = [\n  'x',\n]\n") (fun _ => [(txt "a", .list [])]) = some (txt "a = [,\n]") ∧
    loads (txt "a = [,\n]") = none ∧
    saved (txt "a = [\n  'x' # why\n]\n") id = some (txt "a = [\n  'x'\n]") := by decide +kernel

/-- C116, what fails: an empty list that is added to a table without header, and an empty table that is added anywhere at
the top, are not written. -/
theorem styled_empty_violated :
    saved (txt "[a.b]\nx = true\n") (fun _ => [(txt "a", .table [(txt "y", .list []), (txt "b", .table [(txt "x", .bool true)])])]) =
      some (txt "[a.b]\nx = true") ∧
    saved (txt "x = true\n") (fun _ => [(txt "x", .bool true), (txt "a", .table [])]) = some (txt "x = true") := by decide +kernel

/-- C116, what fails: a table that is named after a table in it replaces all that was read of it, and is saved so. -/
theorem styled_super_violated :
    saved (txt "[a.b]\nx = true\n\n[a]\ny = true\n") id = some (txt "[a]\ny = true") := by decide +kernel

/-- C116, what fails: blanks in lists and empty lines between tables are changed, though nothing was edited. -/
theorem styled_layout_violated :
    saved (txt "a = [ true,false ]\n[b]\nc = true\n") id = some (txt "a = [true, false]\n\n[b]\nc = true") := by decide +kernel

end TomlStyle
end Pkm
