import Verif.Torch.Html
set_option linter.unusedVariables false
set_option linter.unusedSimpArgs false
/-
C92: reading the table of compatibility from a page.
-/
namespace Pkm
open Tags Html

namespace Spec

/-- `x` is `e` or below it. -/
inductive Below : Elem → Elem → Prop where
  | refl (e : Elem) : Below e e
  | child {e c x : Elem} : c ∈ e.children → Below c x → Below e x

/-- `x` has the property, and none of the elements from `e` down to it has. -/
inductive Topmost (m : Elem → Bool) : Elem → Elem → Prop where
  | here {e : Elem} : m e = true → Topmost m e e
  | child {e c x : Elem} : m e = false → c ∈ e.children → Topmost m c x → Topmost m e x

/-- What a chain of conditions selects: all but the last choose topmost elements, the last any element. -/
def Selected : List (Elem → Bool) → Elem → Elem → Prop
  | [], _, _ => False
  | [m], e, x => Below e x ∧ m x = true
  | m :: ms, e, x => ∃ y, Topmost m e y ∧ Selected ms y x

/-- A document: texts and elements, properly nested. -/
inductive Doc where
  | text (t : Text)
  | elem (tag : Text) (attrs : List (Text × Option Text)) (children : List Doc)

mutual
/-- What the parser sees of a document. -/
def Doc.events : Doc → List Event
  | .text t => [.data t]
  | .elem tag attrs cs => .start tag attrs :: (eventsOf cs ++ [.stop tag])
def eventsOf : List Doc → List Event
  | [] => []
  | d :: ds => d.events ++ eventsOf ds
end

mutual
/-- The document as elements; an attribute without a value has the value `true`. -/
def Doc.toElem : Doc → Elem
  | .text t => .mk t!"data" [(t!"value", t)] []
  | .elem tag attrs cs => .mk tag (attrs.foldl (fun d a => Dict.put d a.1 (a.2.getD t!"true")) []) (elemsOf cs)
def elemsOf : List Doc → List Elem
  | [] => []
  | d :: ds => d.toElem :: elemsOf ds
end

/-- The texts directly in a cell, one after the other. -/
def directText : List Doc → Text
  | [] => []
  | .text t :: ds => t ++ directText ds
  | .elem _ _ _ :: ds => directText ds

/-- The texts of the cells of a row; what is not a cell is passed over. -/
def cellTexts : List Doc → List Text
  | [] => []
  | .elem tag _ cs :: ds => if tag = t!"td" then directText cs :: cellTexts ds else cellTexts ds
  | .text _ :: ds => cellTexts ds

/-- No element with the name that the parser gives to texts is directly in a cell. -/
def NoData (row : List Doc) : Prop :=
  ∀ attrs cs, Doc.elem t!"td" attrs cs ∈ row → ∀ as ds, Doc.elem t!"data" as ds ∉ cs

end Spec
open Spec

namespace Html

theorem sizes_append (a b : List Elem) : sizes (a ++ b) = sizes a + sizes b := by
  induction a with
  | nil => simp [sizes]
  | cons e a ih => simp only [List.cons_append, sizes, ih]; omega

theorem sizes_reverse (a : List Elem) : sizes a.reverse = sizes a := by
  induction a with
  | nil => rfl
  | cons e a ih => simp only [List.reverse_cons, sizes_append, sizes, ih]; omega

theorem size_children (e : Elem) : e.size = sizes e.children + 1 := by
  cases e with
  | mk t a c => simp [Elem.size, Elem.children]

theorem below_self_or (e x : Elem) : Below e x ↔ x = e ∨ ∃ c ∈ e.children, Below c x := by
  constructor
  · intro h
    cases h with
    | refl => exact .inl rfl
    | child hc h => exact .inr ⟨_, hc, h⟩
  · rintro (rfl | ⟨c, hc, h⟩)
    · exact .refl _
    · exact .child hc h

theorem topmost_iff (m : Elem → Bool) (e x : Elem) :
    Topmost m e x ↔ (m e = true ∧ x = e) ∨ (m e = false ∧ ∃ c ∈ e.children, Topmost m c x) := by
  constructor
  · intro h
    cases h with
    | here h => exact .inl ⟨h, rfl⟩
    | child h hc ht => exact .inr ⟨h, _, hc, ht⟩
  · rintro (⟨h, rfl⟩ | ⟨h, c, hc, ht⟩)
    · exact .here h
    · exact .child h hc ht

theorem lookup_all (m : Elem → Bool) : ∀ (n : Nat) (nodes : List Elem), sizes nodes < n →
    ∀ x, x ∈ lookup m false n nodes ↔ ∃ e ∈ nodes, Below e x ∧ m x = true
  | 0, _, h => by omega
  | n + 1, [], _ => by simp [lookup]
  | n + 1, e :: nodes, h => by
    intro x
    have hsz : sizes (e.children.reverse ++ nodes) < n := by
      rw [sizes_append, sizes_reverse]
      simp only [sizes] at h
      rw [size_children] at h
      omega
    have ih := lookup_all m n (e.children.reverse ++ nodes) hsz x
    have hst : (∃ e' ∈ e :: nodes, Below e' x ∧ m x = true) ↔
        (x = e ∧ m x = true) ∨ ∃ e' ∈ e.children.reverse ++ nodes, Below e' x ∧ m x = true := by
      simp only [List.mem_cons, List.mem_append, List.mem_reverse]
      constructor
      · rintro ⟨e', rfl | h1, h2, h3⟩
        · rcases (below_self_or _ _).mp h2 with h4 | ⟨c, hc, h4⟩
          · exact .inl ⟨h4, h3⟩
          · exact .inr ⟨c, .inl hc, h4, h3⟩
        · exact .inr ⟨e', .inr h1, h2, h3⟩
      · rintro (⟨rfl, h3⟩ | ⟨c, h1 | h1, h2, h3⟩)
        · exact ⟨_, .inl rfl, .refl _, h3⟩
        · exact ⟨e, .inl rfl, .child h1 h2, h3⟩
        · exact ⟨c, .inr h1, h2, h3⟩
    simp only [lookup, Bool.false_eq_true, if_false]
    rw [hst, ← ih]
    split
    · rename_i hm
      rw [List.mem_cons]
      constructor
      · rintro (rfl | h1)
        · exact .inl ⟨rfl, hm⟩
        · exact .inr h1
      · rintro (⟨rfl, _⟩ | h1)
        · exact .inl rfl
        · exact .inr h1
    · rename_i hm
      constructor
      · exact fun h1 => .inr h1
      · rintro (⟨rfl, h1⟩ | h1)
        · exact absurd h1 hm
        · exact h1

theorem lookup_roots (m : Elem → Bool) : ∀ (n : Nat) (nodes : List Elem), sizes nodes < n →
    ∀ x, x ∈ lookup m true n nodes ↔ ∃ e ∈ nodes, Topmost m e x
  | 0, _, h => by omega
  | n + 1, [], _ => by simp [lookup]
  | n + 1, e :: nodes, h => by
    intro x
    simp only [sizes] at h
    rw [size_children] at h
    simp only [lookup, if_true]
    split
    · rename_i hm
      rw [List.mem_cons, lookup_roots m n nodes (by omega) x]
      simp only [List.mem_cons]
      constructor
      · rintro (rfl | ⟨e', h1, h2⟩)
        · exact ⟨_, .inl rfl, .here hm⟩
        · exact ⟨e', .inr h1, h2⟩
      · rintro ⟨e', rfl | h1, h2⟩
        · rcases (topmost_iff _ _ _).mp h2 with ⟨_, h3⟩ | ⟨h3, _⟩
          · exact .inl h3
          · rw [hm] at h3; cases h3
        · exact .inr ⟨e', h1, h2⟩
    · rename_i hm
      have hm' : m e = false := by simpa using hm
      rw [lookup_roots m n (e.children.reverse ++ nodes) (by rw [sizes_append, sizes_reverse]; omega) x]
      simp only [List.mem_append, List.mem_reverse, List.mem_cons]
      constructor
      · rintro ⟨c, h1 | h1, h2⟩
        · exact ⟨e, .inl rfl, .child hm' h1 h2⟩
        · exact ⟨c, .inr h1, h2⟩
      · rintro ⟨e', rfl | h1, h2⟩
        · rcases (topmost_iff _ _ _).mp h2 with ⟨h3, _⟩ | ⟨_, c, hc, h4⟩
          · exact absurd h3 hm
          · exact ⟨c, .inl hc, h4⟩
        · exact ⟨e', .inr h1, h2⟩

theorem handleAll_append : ∀ (a b : List Event) (st : List Elem),
    handleAll st (a ++ b) = match handleAll st a with
      | .error x => .error x
      | .ok st => handleAll st b
  | [], b, st => by simp [handleAll]
  | e :: a, b, st => by
    simp only [List.cons_append, handleAll]
    cases handle st e with
    | error x => rfl
    | ok st' => exact handleAll_append a b st'

theorem mk_eta (e : Elem) : Elem.mk e.tag e.attrs e.children = e := by
  cases e; rfl

mutual
theorem handle_doc : ∀ (d : Doc) (p : Elem) (st : List Elem),
    handleAll (p :: st) d.events = .ok (.mk p.tag p.attrs (p.children ++ [d.toElem]) :: st)
  | .text t, p, st => by
    simp [Doc.events, handleAll, handle, Doc.toElem]
  | .elem tag attrs cs, p, st => by
    simp only [Doc.events, handleAll, handle]
    rw [handleAll_append, handle_docs cs (.mk tag (attrDict attrs) []) (p :: st)]
    simp only [handleAll, handle, Elem.tag, ne_eq, not_true_eq_false, if_false, Elem.children, List.nil_append, Doc.toElem,
      Elem.attrs]
    rfl
theorem handle_docs : ∀ (ds : List Doc) (p : Elem) (st : List Elem),
    handleAll (p :: st) (eventsOf ds) = .ok (.mk p.tag p.attrs (p.children ++ elemsOf ds) :: st)
  | [], p, st => by
    simp [eventsOf, handleAll, elemsOf, mk_eta]
  | d :: ds, p, st => by
    simp only [eventsOf]
    rw [handleAll_append, handle_doc d p st]
    simp only
    rw [handle_docs ds _ st]
    simp [elemsOf, Elem.tag, Elem.attrs, Elem.children]
end

end Html

/-- **C92.** Selection finds exactly the elements described: below each other in the order of the conditions. -/
theorem html_select (ms : List (Elem → Bool)) (e x : Elem) : x ∈ select ms e ↔ Selected ms e x := by
  induction ms generalizing e x with
  | nil => simp [select, Selected]
  | cons m ms ih =>
    cases ms with
    | nil =>
      simp only [select, Selected]
      rw [lookup_all m _ _ (by simp [sizes])]
      simp
    | cons m' ms =>
      simp only [select, Selected, List.mem_flatMap]
      constructor
      · rintro ⟨y, h1, h2⟩
        rw [lookup_roots m _ _ (by simp [sizes])] at h1
        obtain ⟨e', he, h1⟩ := h1
        simp only [List.mem_singleton] at he
        subst he
        exact ⟨y, h1, (ih _ _).mp h2⟩
      · rintro ⟨y, h1, h2⟩
        refine ⟨y, ?_, (ih _ _).mpr h2⟩
        rw [lookup_roots m _ _ (by simp [sizes])]
        exact ⟨e, by simp, h1⟩

/-- **C92.** A properly nested document is read as it is. -/
theorem html_round_trip (ds : List Doc) : parse (eventsOf ds) = .ok (some (.mk t!"root" [] (elemsOf ds))) := by
  unfold parse
  rw [handle_docs ds _ []]
  simp [Elem.tag, Elem.attrs, Elem.children]

/-- `<table id="x"><tbody><tr><td>CUDA 11.1</td><td>a</td><td>b</td></tr></tbody></table>` -/
def samplePage : List Doc :=
  [.elem t!"h1" [] [.text t!"Notes"],
    .elem t!"table" [(t!"id", some t!"cuda-major-component-versions__table-cuda-toolkit-driver-versions")]
      [.elem t!"tbody" [(t!"hidden", none)]
        [.elem t!"tr" [] [.elem t!"td" [] [.text t!"CUDA 11.1"], .elem t!"td" [] [.text t!"a"], .elem t!"td" [] [.text t!"b"]],
         .elem t!"tr" [] [.elem t!"td" [] [.text t!"CUDA 9"], .elem t!"td" [] [.text t!"c"], .elem t!"td" [] [.text t!"d"]]]]]

example : load some some (some (eventsOf samplePage)) [] =
    ([(t!"9", t!"c", t!"d"), (t!"11.1", t!"a", t!"b")], [(t!"9", t!"c", t!"d"), (t!"11.1", t!"a", t!"b")]) := by rfl

namespace Html

theorem handleAll_stop_error (tag : Text) (e : Elem) (st : List Elem) (rest : List Event) (h : e.tag ≠ tag) :
    handleAll (e :: st) (.stop tag :: rest) = .error .nesting := by
  simp [handleAll, handle, h]

theorem rowSpecs_iff {V S : Type} (pv : Text → Option V) (ps : Text → Option S) : ∀ (rs : List Elem),
    (∀ l, rowSpecs pv ps rs = some l → rs.map (rowSpec pv ps) = l.map some) ∧
    (rowSpecs pv ps rs = none ↔ ∃ r ∈ rs, rowSpec pv ps r = none)
  | [] => by simp [rowSpecs]
  | r :: rs => by
    obtain ⟨h1, h2⟩ := rowSpecs_iff pv ps rs
    simp only [rowSpecs]
    cases hr : rowSpec pv ps r with
    | none => simp [hr]
    | some x =>
      cases hrs : rowSpecs pv ps rs with
      | none =>
        obtain ⟨r', hr', e⟩ := h2.mp hrs
        simp only [reduceCtorEq, false_imp_iff, implies_true, true_and, List.mem_cons, true_iff]
        exact ⟨r', .inr hr', e⟩
      | some xs =>
        have hno : ¬ ∃ r ∈ rs, rowSpec pv ps r = none := fun h => by rw [h2.mpr h] at hrs; cases hrs
        simp only [Option.some.injEq, List.map_cons, reduceCtorEq, false_iff]
        refine ⟨?_, ?_⟩
        · intro l hl
          subst hl
          rw [List.map_cons, hr, h1 xs hrs]
        · rintro ⟨r', hm, e⟩
          rcases List.mem_cons.mp hm with rfl | hm
          · rw [hr] at e; cases e
          · exact hno ⟨r', hm, e⟩

end Html

namespace Spec

/-- The rows of the table of a document: the `tr` in a topmost `tbody` in the topmost element with the identifier. -/
def TableRow (ds : List Doc) (row : Elem) : Prop :=
  Selected [fun e => Dict.get e.attrs t!"id" == some t!"cuda-major-component-versions__table-cuda-toolkit-driver-versions",
    fun e => e.tag == t!"tbody", fun e => e.tag == t!"tr"] (.mk t!"root" [] (elemsOf ds)) row

end Spec
open Spec

variable {V S : Type}

/-- **C92.** From a properly nested page whose rows can all be read the table is made of exactly these rows, and saved. -/
theorem cuda_load_partial (pv : Text → Option V) (ps : Text → Option S) (ds : List Doc) (backup : List (V × S × S))
    (h : ∀ r, TableRow ds r → rowSpec pv ps r ≠ none) :
    (load pv ps (some (eventsOf ds)) backup).2 = (load pv ps (some (eventsOf ds)) backup).1 ∧
    ∀ x, x ∈ (load pv ps (some (eventsOf ds)) backup).1 ↔ ∃ r, TableRow ds r ∧ rowSpec pv ps r = some x := by
  simp only [load, html_round_trip]
  obtain ⟨h1, h2⟩ := rowSpecs_iff pv ps (rows (.mk t!"root" [] (elemsOf ds)))
  have hrow : ∀ r, r ∈ rows (.mk t!"root" [] (elemsOf ds)) ↔ TableRow ds r := fun r => html_select _ _ _
  cases hs : rowSpecs pv ps (rows (.mk t!"root" [] (elemsOf ds))) with
  | none =>
    obtain ⟨r, hr, e⟩ := h2.mp hs
    exact absurd e (h r ((hrow r).mp hr))
  | some l =>
    refine ⟨rfl, ?_⟩
    intro x
    have e := h1 l hs
    constructor
    · intro hx
      have : some x ∈ l.map some := List.mem_map.mpr ⟨x, hx, rfl⟩
      rw [← e] at this
      obtain ⟨r, hr, hx⟩ := List.mem_map.mp this
      exact ⟨r, (hrow r).mp hr, hx⟩
    · rintro ⟨r, hr, hx⟩
      have : some x ∈ (rows (.mk t!"root" [] (elemsOf ds))).map (rowSpec pv ps) :=
        List.mem_map.mpr ⟨r, (hrow r).mpr hr, hx⟩
      rw [e] at this
      obtain ⟨y, hy, hxy⟩ := List.mem_map.mp this
      cases hxy
      exact hy

/-- **C92.** All or nothing: one row that cannot be read, a page that is not properly nested or that cannot be had, and the
saved table is used and kept. -/
theorem cuda_load_backup (pv : Text → Option V) (ps : Text → Option S) (page : Option (List Event)) (backup : List (V × S × S))
    (h : page = none ∨ (∃ es x, page = some es ∧ parse es = .error x) ∨
      ∃ ds r, page = some (eventsOf ds) ∧ TableRow ds r ∧ rowSpec pv ps r = none) :
    load pv ps page backup = (backup, backup) := by
  rcases h with rfl | ⟨es, x, rfl, hx⟩ | ⟨ds, r, rfl, hr, hn⟩
  · rfl
  · simp only [load, hx]
  · simp only [load, html_round_trip]
    rw [(rowSpecs_iff pv ps (rows (.mk t!"root" [] (elemsOf ds)))).2.mpr ⟨r, (html_select _ _ _).mpr hr, hn⟩]

example : load (fun _ => (none : Option Nat)) some (some (eventsOf samplePage)) [(1, t!"a", t!"b")] =
    ([(1, t!"a", t!"b")], [(1, t!"a", t!"b")]) := by rfl

/-- **C92 (violated).** A page without the table, say because its identifier has changed, is not recognised: the table is then
empty, and replaces the saved one. -/
theorem cuda_load_empty_violated (pv : Text → Option V) (ps : Text → Option S) (ds : List Doc) (backup : List (V × S × S))
    (h : ∀ x, Below (.mk t!"root" [] (elemsOf ds)) x →
      Dict.get x.attrs t!"id" ≠ some t!"cuda-major-component-versions__table-cuda-toolkit-driver-versions") :
    load pv ps (some (eventsOf ds)) backup = ([], []) := by
  have top : ∀ m (e x : Elem), Topmost m e x → Below e x ∧ m x = true := by
    intro m e x ht
    induction ht with
    | here hm => exact ⟨.refl _, hm⟩
    | child _ hc _ ih => exact ⟨.child hc ih.1, ih.2⟩
  have hno : rows (.mk t!"root" [] (elemsOf ds)) = [] := by
    rw [List.eq_nil_iff_forall_not_mem]
    intro r hr
    have : TableRow ds r := (html_select _ _ _).mp hr
    obtain ⟨y, hy, _⟩ := this
    obtain ⟨h1, h2⟩ := top _ _ _ hy
    exact h y h1 (by simpa using h2)
  simp only [load, html_round_trip, hno, rowSpecs]

example : load (some : Text → Option Text) some (some (eventsOf [.elem t!"html" [] [.text t!"moved"]])) [(t!"9", t!"c", t!"d")] =
    ([], []) := by rfl

/-- **C92 (violated).** A page with an element that has no end, such as `<br>` or `<meta>`, inside another one cannot be read,
so that the saved table is used: every ordinary page. -/
theorem html_void_violated (before inside after : List Doc) (tag void : Text) (attrs vattrs : List (Text × Option Text))
    (rest : List Event) (h : void ≠ tag) :
    parse (eventsOf before ++ .start tag attrs :: (eventsOf inside ++ .start void vattrs :: (eventsOf after ++ .stop tag :: rest))) =
      .error .nesting := by
  unfold parse
  rw [handleAll_append, handle_docs]
  simp only [handleAll, handle]
  rw [handleAll_append, handle_docs]
  simp only [handleAll, handle]
  rw [handleAll_append, handle_docs]
  simp only
  rw [handleAll_stop_error _ _ _ _ (by simpa [Elem.tag] using h)]

/-- **C92 (violated).** What follows a start without an end is lost, without an error. -/
theorem html_unclosed_violated (before inside : List Doc) (tag : Text) (attrs : List (Text × Option Text)) :
    parse (eventsOf before ++ .start tag attrs :: eventsOf inside) = parse (eventsOf before) := by
  rw [html_round_trip]
  unfold parse
  rw [handleAll_append, handle_docs]
  simp only [handleAll, handle]
  rw [handle_docs]
  simp [Elem.tag, Elem.attrs, Elem.children]

/-- **C92 (violated).** An element `data` of the page is taken for a text, and one without a value makes the texts of its
parent unreadable. -/
theorem html_data_violated (t : Text) (e : Elem) (he : e.tag = t!"data") (hv : Dict.get e.attrs t!"value" = none) (es es' : List Elem) :
    parse (eventsOf [.elem t!"data" [(t!"value", some t)] []]) = parse (eventsOf [.text t]) ∧
    dataOf (es ++ e :: es') = none := by
  refine ⟨by rfl, ?_⟩
  induction es with
  | nil => simp [dataOf, he, hv]
  | cons f es ih =>
    simp only [List.cons_append, dataOf, ih]
    split
    · cases Dict.get f.attrs t!"value" <;> rfl
    · rfl

namespace Html

theorem dataOf_docs : ∀ (cs : List Doc), (∀ as ds, Doc.elem t!"data" as ds ∉ cs) → dataOf (elemsOf cs) = some (directText cs)
  | [], _ => rfl
  | .text t :: cs, h => by
    have ih := dataOf_docs cs (fun as ds hm => h as ds (by simp [hm]))
    simp only [elemsOf, Doc.toElem, dataOf, Elem.tag, Elem.attrs, if_pos, ih, directText]
    rfl
  | .elem tag attrs cs' :: cs, h => by
    have ih := dataOf_docs cs (fun as ds hm => h as ds (by simp [hm]))
    have hne : tag ≠ t!"data" := fun e => h attrs cs' (by simp [e])
    simp only [elemsOf, Doc.toElem, dataOf, Elem.tag, if_neg hne, ih, directText]

theorem columns_docs : ∀ (cs : List Doc), NoData cs → columns (elemsOf cs) = some (cellTexts cs)
  | [], _ => rfl
  | .text t :: cs, h => by
    have ih := columns_docs cs (fun a b hm => h a b (by simp [hm]))
    have hne : ¬ (t!"data" : Text) = t!"td" := by decide
    simp only [elemsOf, Doc.toElem, columns, Elem.tag, if_neg hne, ih, cellTexts]
  | .elem tag attrs cs' :: cs, h => by
    have ih := columns_docs cs (fun a b hm => h a b (by simp [hm]))
    by_cases hne : tag = t!"td"
    · subst hne
      have hd := dataOf_docs cs' (h attrs cs' (by simp))
      simp only [elemsOf, Doc.toElem, columns, Elem.tag, if_pos, Elem.children, hd, ih, cellTexts]
    · simp only [elemsOf, Doc.toElem, columns, Elem.tag, if_neg hne, ih, cellTexts]

end Html

/-- **C92.** A row is read from the texts of its first three cells: the second word of the first one is the version, the others
are the versions of the driver. A row with fewer cells, or with texts that are no versions, is not read. -/
theorem cuda_row {V S : Type} (pv : Text → Option V) (ps : Text → Option S) (tag : Text) (attrs : List (Text × Option Text))
    (cells : List Doc) (h : NoData cells) (v : V) (l win : S) :
    rowSpec pv ps (Doc.toElem (.elem tag attrs cells)) = some (v, l, win) ↔
      ∃ c0 c1 c2 more, cellTexts cells = c0 :: c1 :: c2 :: more ∧
        (∃ t, (splitOn ' ' c0)[1]? = some t ∧ pv t = some v) ∧ ps c1 = some l ∧ ps c2 = some win := by
  simp only [rowSpec, Doc.toElem, Elem.children, columns_docs cells h]
  constructor
  · intro hr
    split at hr
    · rename_i c0 c1 c2 more hc
      simp only [Option.some.injEq] at hc
      split at hr
      · cases hr
      rename_i t ht
      split at hr
      · cases hr
      rename_i v' hv
      split at hr
      · cases hr
      rename_i l' hl
      split at hr
      · cases hr
      rename_i w' hw
      simp only [Option.some.injEq, Prod.mk.injEq] at hr
      obtain ⟨rfl, rfl, rfl⟩ := hr
      exact ⟨c0, c1, c2, more, hc, ⟨t, ht, hv⟩, hl, hw⟩
    · cases hr
  · rintro ⟨c0, c1, c2, more, hc, ⟨t, ht, hv⟩, hl, hw⟩
    simp only [hc, ht, hv, hl, hw]

example : rowSpec some some (Doc.toElem (.elem t!"tr" [] [.text t!" ", .elem t!"td" [] [.text t!"CUDA ", .elem t!"b" [] [.text t!"x"], .text t!"12.1 GA"],
      .elem t!"th" [] [], .elem t!"td" [] [.text t!">=1"], .elem t!"td" [] [.text t!">=2"]])) =
    some (t!"12.1", t!">=1", t!">=2") ∧
    NoData [.elem t!"td" [] [.text t!"CUDA 12"]] := by
  refine ⟨by rfl, ?_⟩
  intro attrs cs hm as ds hd
  simp only [List.mem_singleton, Doc.elem.injEq] at hm
  rw [hm.2.2] at hd
  simp at hd

/-- **C92.** An end without a start cannot be read, so that the saved table is kept: also the end of the element that the parser
itself opens. -/
theorem html_extra_end (before : List Doc) (tag : Text) (rest : List Event) :
    ∃ x, parse (eventsOf before ++ .stop tag :: rest) = .error x := by
  unfold parse
  rw [handleAll_append, handle_docs]
  simp only [handleAll, handle, Elem.tag]
  by_cases e : t!"root" = tag
  · exact ⟨.index, by simp [e]⟩
  · exact ⟨.nesting, by simp [e]⟩

example : load (some : Text → Option Text) some (some (eventsOf samplePage ++ [.stop t!"root"])) [(t!"9", t!"c", t!"d")] =
    ([(t!"9", t!"c", t!"d")], [(t!"9", t!"c", t!"d")]) := by rfl

end Pkm
