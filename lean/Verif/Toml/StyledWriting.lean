import Verif.Toml.StyledReading
set_option linter.unusedVariables false
set_option linter.unusedSimpArgs false
/-
Lemmas for C116: writing with the styles of a file.
-/
namespace Pkm
namespace TomlStyle
open Toml
open Spec Spec.Styled

theorem similar_not {a b : Scalar} (h : ¬ Same a.value b.value) : similar (some a.value) b.value = false := by
  cases a <;> cases b <;> simp_all [Scalar.value, similar, number, Same] <;> (try (intro e; simp_all)) <;>
    (rename_i x y; cases x <;> cases y <;> simp_all)

theorem plain_text (sh : Sheet) (key : List SKey) (v : Scalar) (h : ∀ s, v ≠ .literal s) :
    wValue sh key { display := .inline, prolog := [' '] } v.value = ' ' :: v.text := by
  cases v with
  | quoted s => simp [Scalar.value, Scalar.text, wValue, scalarText]
  | literal s => exact absurd rfl (h s)
  | bool b => simp [Scalar.value, Scalar.text, wValue, scalarText]
  | number n => simp [Scalar.value, Scalar.text, wValue, scalarText]

theorem autoDisplay_value (sh : Sheet) (key : List SKey) (v : Value) : autoDisplay sh key v.value = .inline := by
  cases v with
  | scalar v => cases v <;> rfl
  | list es c =>
    cases es with
    | nil => rfl
    | cons e es => cases h : e.value <;> simp [Value.value, autoDisplay, allTables, Scalar.value, TV.isTable, h]

/-! Blanks at the ends -/

theorem stripBlanks_keep (t : Text) (h1 : t.head? ≠ some ' ') (h2 : t.getLast? ≠ some ' ') : stripBlanks t = t := by
  have key : ∀ u : Text, u.head? ≠ some ' ' → u.dropWhile (· == ' ') = u := by
    intro u h
    cases u with
    | nil => rfl
    | cons c u => rw [List.dropWhile_cons, if_neg (by simpa using h)]
  unfold stripBlanks
  rw [key t h1, key t.reverse (by rw [List.head?_reverse]; exact h2), List.reverse_reverse]

theorem stripBlanks_blank (t : Text) : stripBlanks (' ' :: t) = stripBlanks t := by
  unfold stripBlanks
  rw [List.dropWhile_cons, if_pos (by decide)]

theorem scalar_head (v : Scalar) : v.text.head? ≠ some ' ' := by
  obtain ⟨c, r, h, hs, -⟩ := scalar_solid v
  rw [h]
  intro e
  simp at e
  rw [e] at hs
  revert hs; decide

theorem scalar_last (v : Scalar) : v.text ≠ [] ∧ v.text.getLast? ≠ some ' ' := by
  have hne : v.text ≠ [] := by
    obtain ⟨c, r, h, -⟩ := scalar_solid v
    rw [h]; simp
  refine ⟨hne, ?_⟩
  cases v with
  | quoted s =>
    have e : (Scalar.quoted s).text = ('"' :: escape s) ++ ['"'] := rfl
    rw [e, List.getLast?_append]; simp
  | literal s => simp only [Scalar.text]; rw [List.getLast?_append]; simp
  | bool b => cases b <;> simp [Scalar.text]
  | number n =>
    have hd : ∀ m, (showNat m).getLast? ≠ some ' ' := by
      intro m e
      have := showNat_digits m ' ' (List.mem_of_getLast? e)
      revert this; decide
    cases n with
    | ofNat m => exact hd m
    | negSucc m =>
      obtain ⟨x, xs, hx, hxd⟩ := showNat_cons (m + 1)
      have := hd (m + 1)
      simp only [Scalar.text, showInt]
      rw [hx] at this ⊢
      rw [List.getLast?_cons_cons]; exact this

theorem elem_strip (e : Elem) (h : e.Ok) : stripBlanks e.text = e.text := by
  obtain ⟨h1, h2, h3, h4, h5, h6⟩ := h
  obtain ⟨hn, hl⟩ := scalar_last e.value
  have hh := scalar_head e.value
  apply stripBlanks_keep
  · rw [Elem.text, List.append_assoc]
    cases hlt : e.lead.text with
    | nil =>
      rw [List.nil_append]
      cases hv : e.value.text with
      | nil => exact absurd hv hn
      | cons c u => rw [hv] at hh; simpa using hh
    | cons c u => rw [hlt] at h4; simpa using h4
  · rw [Elem.text]
    by_cases ht : e.trail.text = []
    · rw [ht, List.append_nil, List.getLast?_append]
      cases hg : e.value.text.getLast? with
      | none => exact absurd (List.getLast?_eq_none_iff.1 hg) hn
      | some c => rw [hg] at hl; simpa using hl
    · rw [List.getLast?_append]
      cases hg : e.trail.text.getLast? with
      | none => exact absurd (List.getLast?_eq_none_iff.1 hg) ht
      | some c => rw [hg] at h6; simpa using h6

/-- What is known of an element that is written. -/
def ElemKnown (sh : Sheet) (key : List SKey) (e : Elem) : Prop :=
  (Dict.get sh.values key = some (elemStyle e) ∧ e.Ok) ∨
  ((∀ s, Dict.get sh.values key = some s → ∃ o : Elem, s = elemStyle o ∧ ¬ Same o.value.value e.value.value) ∧
    e = { value := e.value } ∧ ∀ s, e.value ≠ .literal s)

theorem elem_written (sh : Sheet) (key : List SKey) (e : Elem) (h : ElemKnown sh key e) :
    stripBlanks (wValue sh key (valueStyle sh key e.value.value .inline) e.value.value) = e.text := by
  rcases h with ⟨h, hok⟩ | ⟨h, hpl, hlit⟩
  · have hs : valueStyle sh key e.value.value .inline = elemStyle e := by
      simp [valueStyle, predefined, h, elemStyle, similar_self]
    rw [hs]
    have : wValue sh key (elemStyle e) e.value.value = e.text := by
      cases hv : e.value <;> simp [Scalar.value, Scalar.text, wValue, scalarText, elemStyle, hv, Elem.text]
    rw [this, elem_strip e hok]
  · have hs : valueStyle sh key e.value.value .inline = { display := .inline, prolog := [' '] } := by
      have hp : predefined sh key e.value.value = {} := by
        unfold predefined
        cases hg : Dict.get sh.values key with
        | none => rfl
        | some s =>
          obtain ⟨o, rfl, hno⟩ := h s hg
          simp [elemStyle, similar_not hno]
      simp [valueStyle, hp]
    rw [hs, plain_text sh key e.value hlit, stripBlanks_blank, stripBlanks_keep _ (scalar_head _) (scalar_last _).2, hpl]
    simp [Elem.text, Gap.text]

theorem elems_written (sh : Sheet) (key : List SKey) (es : List Elem) : ∀ i : Nat,
    (∀ j e, es[j]? = some e → ElemKnown sh (key ++ [.idx (i + j)]) e) →
    wItems sh key i (es.map (fun e => e.value.value)) = es.map Elem.text := by
  induction es with
  | nil => intro i _; simp [wItems]
  | cons e es ih =>
    intro i h
    simp only [List.map_cons, wItems]
    have h0 : ElemKnown sh (key ++ [.idx i]) e := h 0 e rfl
    rw [elem_written sh _ e h0, ih (i + 1) (by
      intro j x hx
      have := h (j + 1) x (by simpa using hx)
      rwa [show i + 1 + j = i + (j + 1) by omega])]

/-- The elements of a new list. -/
theorem plain_known (sh : Sheet) (key : List SKey) (es : List Elem) (c : Option Gap) (h : (Value.list es c).Plain)
    (hn : ∀ i e, es[i]? = some e → ∀ s, Dict.get sh.values (key ++ [.idx i]) = some s →
      ∃ o : Elem, s = elemStyle o ∧ ¬ Same o.value.value e.value.value) :
    ∀ j e, es[j]? = some e → ElemKnown sh (key ++ [.idx (0 + j)]) e := by
  intro j e hj
  have hm := h.2 e (List.mem_of_getElem? hj)
  rw [Nat.zero_add]
  exact Or.inr ⟨hn j e hj, hm.1, hm.2⟩

theorem plain_value (sh : Sheet) (key : List SKey) (v : Value) (h : v.Plain)
    (hn : ∀ i, i < (elems v).length → Dict.get sh.values (key ++ [.idx i]) = none) :
    wValue sh key { display := .inline, prolog := [' '] } v.value = ' ' :: v.text := by
  cases v with
  | scalar v => exact plain_text sh key v h
  | list es c =>
    have hk := plain_known sh key es c h (by
      intro i e hi s hs
      obtain ⟨hlt, -⟩ := List.getElem?_eq_some_iff.1 hi
      rw [hn i hlt] at hs; simp at hs)
    have hw := elems_written sh key es 0 hk
    obtain ⟨rfl, -⟩ := h
    simp [Value.value, Value.text, wValue, hw, closing]

theorem recorded_text (sh : Sheet) (key : List SKey) (l : Line) (hok : l.Ok)
    (hk : ∀ i, Dict.get sh.values (key ++ [.idx i]) = ((elems l.value)[i]?).map elemStyle) :
    wValue sh key (lineStyle l) l.value.value = l.after ++ l.value.text ++ (l.tail ++ comment l.comment) := by
  cases h : l.value with
  | scalar v => cases hv : v <;> simp [Value.value, Value.text, Scalar.value, Scalar.text, wValue, scalarText, lineStyle, h, hv]
  | list es c =>
    have hes : ∀ e ∈ es, e.Ok := by
      have := hok.2.2.2.2.1
      rw [h] at this
      exact this.1
    have hw := elems_written sh key es 0 (by
      intro j e hj
      have := hk j
      rw [h] at this
      simp only [elems, hj, Option.map_some] at this
      rw [Nat.zero_add]
      exact Or.inl ⟨this, hes e (List.mem_of_getElem? hj)⟩)
    simp [Value.value, Value.text, wValue, hw, lineStyle, h, List.append_assoc]

theorem relisted_text (sh : Sheet) (key : List SKey) (l : Line) (hok : l.Ok) (old new : List Elem) (c : Option Gap)
    (hv : l.value = .list old c) (hr : Relisted old new) (hc : c = none ∨ (old = [] ↔ new = []))
    (hk : ∀ i, Dict.get sh.values (key ++ [.idx i]) = ((elems l.value)[i]?).map elemStyle) :
    wValue sh key (lineStyle l) (Value.list new c).value = l.after ++ (Value.list new c).text ++ (l.tail ++ comment l.comment) := by
  have hes : ∀ e ∈ old, e.Ok := by
    have := hok.2.2.2.2.1
    rw [hv] at this
    exact this.1
  have hw := elems_written sh key new 0 (by
    intro j e hj
    have hkj := hk j
    rw [hv] at hkj
    simp only [elems] at hkj
    rw [Nat.zero_add]
    rcases hr j e hj with h | ⟨h1, h2⟩
    · rw [h] at hkj
      exact Or.inl ⟨hkj, hes e (List.mem_of_getElem? h)⟩
    · refine Or.inr ⟨?_, h2⟩
      intro s hs
      rw [hkj] at hs
      cases ho : old[j]? with
      | none => rw [ho] at hs; simp at hs
      | some o => rw [ho] at hs; simp at hs; exact ⟨o, hs.symm, h1 o ho⟩)
  have hcl : closing old c = closing new c := by
    cases c with
    | none => rfl
    | some g =>
      rcases hc with h | h
      · simp at h
      · by_cases ho : old = []
        · simp [closing, ho, h.1 ho]
        · have hn : ¬ new = [] := fun e => ho (h.2 e)
          simp [closing, ho, hn]
  simp [Value.value, Value.text, wValue, hw, lineStyle, hv, hcl, List.append_assoc]

theorem keyPart_ne (k : Text) : (writeKeyPart k).isEmpty = false := by
  obtain ⟨c, r, h, -⟩ := writeKeyPart_solid k
  rw [h]; rfl

/-- What the style sheet has to know about a line of the edited file. -/
def RowKnown (sh : Sheet) (base : List SKey) : Row → Prop
  | .kept l => LineKnown sh (base ++ [.name l.name]) l ∧ l.Ok
  | .changed l v => LineKnown sh (base ++ [.name l.name]) l ∧ l.Ok ∧ Differ l.value v ∧ v.Plain
  | .relisted l es => LineKnown sh (base ++ [.name l.name]) l ∧ l.Ok ∧
      ∃ old c, l.value = .list old c ∧ Relisted old es ∧ (c = none ∨ (old = [] ↔ es = []))
  | .added n v => Unknown sh (base ++ [.name n]) ∧ v.Plain

theorem similar_value (v : Value) : similar (some v.value) v.value = true := by
  cases v with
  | scalar v => exact similar_self v
  | list es c => rfl

theorem similar_differ {a b : Value} (h : Differ a b) : similar (some a.value) b.value = false := by
  cases a with
  | scalar a =>
    cases b with
    | scalar b => exact similar_not h
    | list es c => cases a <;> rfl
  | list es c =>
    cases b with
    | scalar b => cases b <;> rfl
    | list es2 c2 => exact absurd h (by simp [Differ])

theorem row_style (sh : Sheet) (base : List SKey) (r : Row) (h : RowKnown sh base r) :
    valueStyle sh (base ++ [.name r.line.name]) r.line.value.value =
      match r with
      | .kept l => lineStyle l
      | .relisted l _ => lineStyle l
      | _ => { display := .inline, prolog := [' '] } := by
  cases r with
  | kept l =>
    simp only [Row.line, valueStyle, predefined, h.1.2.1]
    simp [lineStyle, similar_value]
  | changed l v =>
    have hs := similar_differ h.2.2.1
    simp only [Row.line, valueStyle, predefined, h.1.2.1]
    simp [lineStyle, hs, autoDisplay_value]
  | relisted l es =>
    obtain ⟨hk, -, old, c, hv, -⟩ := h
    simp only [Row.line, valueStyle, predefined, hk.2.1]
    simp [lineStyle, hv, Value.relist, Value.value, similar]
  | added n v =>
    simp only [Row.line, valueStyle, predefined, h.1.2.1]
    simp [autoDisplay_value]

theorem row_inline (sh : Sheet) (base : List SKey) (r : Row) (h : RowKnown sh base r) :
    (valueStyle sh (base ++ [.name r.line.name]) r.line.value.value).display = .inline := by
  rw [row_style sh base r h]
  cases r <;> rfl

theorem row_text (sh : Sheet) (base : List SKey) (r : Row) (h : RowKnown sh base r) :
    writeKey sh (base ++ [.name r.line.name]) base.length .assignment ++ '=' ::
      wValue sh (base ++ [.name r.line.name]) (valueStyle sh (base ++ [.name r.line.name]) r.line.value.value) r.line.value.value ++
      ['\n'] = r.line.text := by
  rw [row_style sh base r h]
  cases r with
  | kept l =>
    simp only [Row.line, recorded_text sh _ l h.2 h.1.2.2]
    simp [writeKey, keyStyle, h.1.1, lineKey, keyPart_ne, Line.text, List.append_assoc]
  | changed l v =>
    have hp := plain_value sh (base ++ [.name l.name]) v h.2.2.2 (by
      intro i hi
      have hk := h.1.2.2 i
      have hd := h.2.2.1
      cases hv : l.value with
      | scalar a => rw [hk, hv]; rfl
      | list es c =>
        cases v with
        | scalar b => simp [elems] at hi
        | list es2 c2 => rw [hv] at hd; exact absurd hd (by simp [Differ]))
    simp only [Row.line, hp]
    simp [writeKey, keyStyle, h.1.1, lineKey, keyPart_ne, Line.text, List.append_assoc, comment]
  | relisted l es =>
    obtain ⟨hk, hok, old, c, hv, hr, hc⟩ := h
    have ht := relisted_text sh (base ++ [.name l.name]) l hok old es c hv hr hc hk.2.2
    have e : l.value.relist es = .list es c := by rw [hv]; rfl
    simp only [Row.line, e, ht]
    simp [writeKey, keyStyle, hk.1, lineKey, keyPart_ne, Line.text, List.append_assoc]
  | added n v =>
    have hp := plain_value sh (base ++ [.name n]) v h.2 (fun i _ => h.1.2.2 i)
    simp only [Row.line, hp]
    simp [writeKey, keyStyle, h.1.1, namesFrom, dots, Line.text, List.append_assoc, comment, Gap.text]

theorem rows_own (sh : Sheet) (base : List SKey) (rows : List Row) (h : ∀ r ∈ rows, RowKnown sh base r) :
    wOwn sh base (values (rows.map Row.line)) = (rows.map Row.line).flatMap Line.text ∧
    wDelayed sh base (values (rows.map Row.line)) = [] ∧
    (values (rows.map Row.line)).any (isOwn sh base) = !rows.isEmpty := by
  induction rows with
  | nil => exact ⟨by simp [values, wOwn], by simp [values, wDelayed], rfl⟩
  | cons r rows ih =>
    obtain ⟨h1, h2, h3⟩ := ih (fun x hx => h x (List.mem_cons_of_mem _ hx))
    have hr := h r List.mem_cons_self
    have hi := row_inline sh base r hr
    have ht := row_text sh base r hr
    have e : values ((r :: rows).map Row.line) = (r.line.name, r.line.value.value) :: values (rows.map Row.line) := rfl
    rw [e]
    refine ⟨?_, ?_, ?_⟩
    · rw [wOwn]
      simp only [hi, if_true, h1, List.map_cons, List.flatMap_cons]
      rw [← ht]
    · rw [wDelayed]
      simp only [hi, h2, decide_true, Bool.true_or, if_true, List.append_nil]
    · simp only [List.any_cons, isOwn, hi, decide_true, Bool.true_or, List.isEmpty_cons, Bool.not_false]

theorem block_rows (rows : List Row) :
    block (rows.map Row.line) = (rows.map Row.line).flatMap Line.text ++ if (!rows.isEmpty) = true then ['\n'] else [] := by
  cases rows <;> simp [block]

theorem block_lines (ls : List Line) : block ls = ls.flatMap Line.text ++ if (!ls.isEmpty) = true then ['\n'] else [] := by
  cases ls <;> simp [block]

/-- The rows of a table are known. -/
theorem rows_known (d : Doc) (hd : d.Tidy) (sh : Sheet) (hk : Knows d sh) {p : List Text} {ls : List Line} {ts : List Node}
    (hat : At d p ls ts) (r : Row) (h : r.Of ls (ts.map Node.name)) : RowKnown sh (keyOf p) r := by
  have hp := at_place d hd hat
  have e : ∀ n : Text, keyOf (p ++ [n]) = keyOf p ++ [.name n] := fun n => keyOf_append _ _
  have hl : ∀ l ∈ ls, LineKnown sh (keyOf p ++ [.name l.name]) l := fun l hl => by rw [← e]; exact hk.line p ls ts hat l hl
  cases r with
  | kept l => exact ⟨hl l h, hp.lines l h⟩
  | changed l v => exact ⟨hl l h.1, hp.lines l h.1, h.2⟩
  | relisted l es => exact ⟨hl l h.1, hp.lines l h.1, h.2⟩
  | added n v =>
    have hu : ∀ u, _ := fun u => hk.none p ls ts hat n h.1 h.2.1 u
    simp only [e] at hu
    refine ⟨⟨?_, ?_, fun i => (hu [.idx i]).2⟩, h.2.2⟩
    · have := (hu []).1; rwa [List.append_nil] at this
    · have := (hu []).2; rwa [List.append_nil] at this

theorem namesFrom_keyOf (p : List Text) : namesFrom (keyOf p) 0 = p := by
  simp only [namesFrom, List.drop_zero, keyOf, List.filterMap_map]
  exact List.filterMap_some

theorem large_any (rows : List Row) (h : Large rows) :
    (decide ((values (rows.map Row.line)).length > 5) || (values (rows.map Row.line)).any (fun e => isLargeItem e.2)) = true := by
  rcases h with h | ⟨r, hr, h⟩
  · simp [values, h]
  · rw [Bool.or_eq_true]
    right
    rw [List.any_eq_true]
    refine ⟨(r.line.name, r.line.value.value), ?_, ?_⟩
    · simp only [values, List.map_map, List.mem_map]
      exact ⟨r, hr, rfl⟩
    · cases hv : r.line.value with
      | list es c => rfl
      | scalar v => rw [hv] at h; cases v <;> simp_all [Value.isLarge, Value.value, Scalar.value, isLargeItem]

/-- A new table. -/
theorem newTable_text (d : Doc) (sh : Sheet) (hk : Knows d sh) (p : List Text) (ls : List Line) (ts : List Node) (hat : At d p ls ts)
    (root : Bool) (hroot : root = true → p = []) (n : Text) (rows : List Row) (h : (Item.newTable n rows).Of root ls ts) :
    (valueStyle sh (keyOf p ++ [.name n]) (.table (values (rows.map Row.line)))).display = .regular ∧
    wValue sh (keyOf p ++ [.name n]) (valueStyle sh (keyOf p ++ [.name n]) (.table (values (rows.map Row.line))))
      (.table (values (rows.map Row.line))) = (⟨p ++ [n], {}, rows.map Row.line⟩ : Section).text := by
  simp only [Item.Of] at h
  obtain ⟨hbig, hn1, hn2, hne, hr⟩ := h
  have hu : ∀ u, _ := fun u => hk.none p ls ts hat n hn1 hn2 u
  have e : keyOf p ++ [.name n] = keyOf (p ++ [n]) := (keyOf_append p [n]).symm
  rw [e]
  have hkne : keyOf (p ++ [n]) ≠ [] := by simp [keyOf]
  have hsec : ∀ m, Unknown sh (keyOf (p ++ [n]) ++ [.name m]) := fun m =>
    ⟨(hu [.name m]).1, (hu [.name m]).2, fun i => by have := (hu [.name m, .idx i]).2; rw [List.append_assoc]; exact this⟩
  have hno := hu []
  rw [List.append_nil] at hno
  have hot : onlyTables sh (keyOf (p ++ [n])) (values (rows.map Row.line)) = false := by
    cases rows with
    | nil => exact absurd rfl hne
    | cons r rows =>
      have hof := hr r List.mem_cons_self
      cases r with
      | kept l => simp [Row.Of] at hof
      | changed l v => simp [Row.Of] at hof
      | relisted l es => simp [Row.Of] at hof
      | added m v =>
        simp only [onlyTables, values, List.map_cons, List.all_cons, Row.line]
        cases v with
        | scalar v => cases v <;> rfl
        | list es c =>
          have hu := (hsec m).2.1
          have : listDisplay sh (keyOf (p ++ [n]) ++ [.name m]) (es.map (fun e => e.value.value)) = .inline := by
            unfold listDisplay predefined
            rw [hu]
            cases es with
            | nil => simp
            | cons e es => cases he : e.value <;> simp [allTables, Scalar.value, TV.isTable, he]
          simp only [Value.value, this]
          rfl
  have hbig' : ((decide ((values (rows.map Row.line)).length > 5) || (values (rows.map Row.line)).any (fun e => isLargeItem e.2)) ||
      decide ((keyOf (p ++ [n])).length = 1)) = true := by
    rcases hbig with hb | hb
    · rw [hroot hb]; simp [keyOf]
    · rw [large_any rows hb]; rfl
  have hst : valueStyle sh (keyOf (p ++ [n])) (.table (values (rows.map Row.line))) = { display := .regular } := by
    have ha : autoDisplay sh (keyOf (p ++ [n])) (.table (values (rows.map Row.line))) = .regular := by
      simp only [autoDisplay, hot, hbig', List.isEmpty_eq_false_iff.2 hkne]
      rfl
    simp [valueStyle, predefined, hno.2, ha]
  have hkn : ∀ r ∈ rows, RowKnown sh (keyOf (p ++ [n])) r := by
    intro r hm
    have := hr r hm
    cases r with
    | kept l => simp [Row.Of] at this
    | changed l v => simp [Row.Of] at this
    | relisted l es => simp [Row.Of] at this
    | added m v => exact ⟨hsec m, this.2.2⟩
  obtain ⟨h1, h2, h3⟩ := rows_own sh (keyOf (p ++ [n])) rows hkn
  rw [hst]
  refine ⟨rfl, ?_⟩
  rw [wValue]
  simp only [regularText, h1, h2, h3]
  simp [hkne, writeKey, keyStyle, hno.1, tableKey, namesFrom_keyOf, Section.text, Section.header, block_rows, List.append_assoc, Gap.text,
    comment]

/-- What is written for the entries of a table. -/
structure Written (sh : Sheet) (p : List Text) (items : List Item) : Prop where
  own : wOwn sh (keyOf p) (entries items) = (linesOf items).flatMap Line.text
  delayed : wDelayed sh (keyOf p) (entries items) = (allSections p (nodesOf items)).flatMap Section.text
  any : (entries items).any (isOwn sh (keyOf p)) = !(linesOf items).isEmpty
  shown : (∃ l ∈ linesOf items, l.value.value ≠ .list []) → inappropriate (entries items) = true
  hidden : linesOf items = [] → wHidden sh (keyOf p) (entries items) = (allSections p (nodesOf items)).flatMap Section.text ∧
    inappropriate (entries items) = false

theorem allSections_append (p : List Text) (a b : List Node) : allSections p (a ++ b) = allSections p a ++ allSections p b := by
  induction a with
  | nil => rfl
  | cons n a ih => simp [allSections, ih]

mutual
/-- A table. -/
theorem item_text (d : Doc) (hd : d.Tidy) (sh : Sheet) (hk : Knows d sh) (p : List Text) (ls : List Line) (ts : List Node)
    (hat : At d p ls ts) : ∀ (t : Node) (items : List Item), (Item.table t items).Of false ls ts ∨ (Item.table t items).Of true ls ts →
    ((valueStyle sh (keyOf p ++ [.name t.name]) (.table (entries items))).display = .regular ∨
      (valueStyle sh (keyOf p ++ [.name t.name]) (.table (entries items))).display = .hidden) ∧
    wValue sh (keyOf p ++ [.name t.name]) (valueStyle sh (keyOf p ++ [.name t.name]) (.table (entries items))) (.table (entries items)) =
      ((Node.mk t.name (if linesOf items = [] then t.head else some (t.head.getD {})) (linesOf items) (nodesOf items)).sections p).flatMap
        Section.text
  | t, items, h => by
    simp only [Item.Of, or_self] at h
    obtain ⟨ht, hh, hall⟩ := h
    have e : keyOf p ++ [.name t.name] = keyOf (p ++ [t.name]) := (keyOf_append p [t.name]).symm
    have hkne : keyOf (p ++ [t.name]) ≠ [] := by simp [keyOf]
    have w := items_text d hd sh hk (p ++ [t.name]) t.lines t.subs (At.sub hat ht) false (by simp) items hall
    rw [e]
    cases hx : t.head with
    | some x =>
      obtain ⟨k1, k2⟩ := hk.sec p ls ts hat t ht x hx
      have hst : valueStyle sh (keyOf (p ++ [t.name])) (.table (entries items)) = secStyle ⟨p ++ [t.name], x, t.lines⟩ := by
        simp [valueStyle, predefined, k2, secStyle, similar]
      rw [hst]
      refine ⟨Or.inl rfl, ?_⟩
      rw [wValue]
      simp only [show (secStyle ⟨p ++ [t.name], x, t.lines⟩).display = Disp.regular from rfl, regularText, w.own, w.delayed, w.any]
      have hi : (if linesOf items = [] then some x else some ((some x).getD {})) = some x := by split <;> rfl
      rw [hi]
      simp [hkne, writeKey, keyStyle, k1, secKey, tableKey, secStyle, Section.text, Section.header, block_lines, List.append_assoc,
        Node.sections]
    | none =>
      obtain ⟨k1, k⟩ := hk.hidden p ls ts hat t ht hx
      have hst : valueStyle sh (keyOf (p ++ [t.name])) (.table (entries items)) = hiddenMark := by
        simp [valueStyle, predefined, k, hiddenMark, similar]
      rw [hst]
      refine ⟨Or.inr rfl, ?_⟩
      rw [wValue]
      by_cases hl : linesOf items = []
      · obtain ⟨w1, w2⟩ := w.hidden hl
        simp only [show hiddenMark.display = Disp.hidden from rfl, w2, w1]
        simp [Node.sections, hl]
      · have w2 := w.shown ((hh hx).resolve_left hl)
        have hst2 : valueStyle sh (keyOf (p ++ [t.name])) (.table (entries items)) .regular =
            { sig := some (.table []), display := .regular } := by
          simp [valueStyle, predefined, k, hiddenMark, similar]
        simp only [show hiddenMark.display = Disp.hidden from rfl, w2, if_true, hst2, regularText, w.own, w.delayed, w.any, if_neg hl]
        simp [hkne, writeKey, keyStyle, k1, tableKey, namesFrom_keyOf, Section.text, Section.header, block_lines, List.append_assoc,
          Node.sections, Gap.text, comment]
/-- The entries of a table. -/
theorem items_text (d : Doc) (hd : d.Tidy) (sh : Sheet) (hk : Knows d sh) (p : List Text) (ls : List Line) (ts : List Node)
    (hat : At d p ls ts) (root : Bool) (hroot : root = true → p = []) :
    ∀ items : List Item, allOf root ls ts items → Written sh p items
  | [], _ => ⟨by simp [entries, linesOf, wOwn], by simp [entries, nodesOf, allSections, wDelayed], rfl, by simp [linesOf],
      fun _ => ⟨by simp [entries, nodesOf, allSections, wHidden], rfl⟩⟩
  | .row r :: items, h => by
    simp only [allOf, Item.Of] at h
    have w := items_text d hd sh hk p ls ts hat root hroot items h.2
    have hkn := rows_known d hd sh hk hat r h.1
    have hi := row_inline sh (keyOf p) r hkn
    have ht := row_text sh (keyOf p) r hkn
    refine ⟨?_, ?_, ?_, ?_, ?_⟩
    · simp only [entries, Item.entry, wOwn, hi, if_true, w.own, linesOf, List.flatMap_cons]
      rw [← ht]
    · simp only [entries, Item.entry, wDelayed, hi, w.delayed, nodesOf, Item.node, decide_true, Bool.true_or, if_true, List.nil_append]
    · simp only [entries, Item.entry, List.any_cons, isOwn, hi, decide_true, Bool.true_or, linesOf, List.isEmpty_cons, Bool.not_false]
    · rintro ⟨l, hl, hv⟩
      simp only [entries, Item.entry, inappropriate, List.any_cons, Bool.or_eq_true]
      simp only [linesOf, List.mem_cons] at hl
      rcases hl with rfl | hl
      · left
        cases hr : r.line.value with
        | scalar v => cases v <;> rfl
        | list es c =>
          rw [hr] at hv
          cases es with
          | nil => exact absurd rfl hv
          | cons e es => cases he : e.value <;> simp [Value.value, allTables, Scalar.value, TV.isTable, he]
      · right; exact w.shown ⟨l, hl, hv⟩
    · intro ha
      simp [linesOf] at ha
  | .table t its :: items, h => by
    simp only [allOf] at h
    have w := items_text d hd sh hk p ls ts hat root hroot items h.2
    obtain ⟨hdp, htx⟩ := item_text d hd sh hk p ls ts hat t its (by cases root <;> simp_all)
    have hnode : allSections p (nodesOf (.table t its :: items)) =
        (Node.mk t.name (if linesOf its = [] then t.head else some (t.head.getD {})) (linesOf its) (nodesOf its)).sections p ++
          allSections p (nodesOf items) := by
      simp [nodesOf, Item.node, allSections]
    refine ⟨?_, ?_, ?_, ?_, ?_⟩
    · simp only [entries, Item.entry, wOwn, w.own, linesOf]
      rcases hdp with hdp | hdp <;> simp [hdp]
    · rw [hnode, List.flatMap_append, ← htx]
      simp only [entries, Item.entry, wDelayed, w.delayed]
      rcases hdp with hdp | hdp <;> simp [hdp]
    · simp only [entries, Item.entry, List.any_cons, isOwn, w.any, linesOf]
      rcases hdp with hdp | hdp <;> simp [hdp]
    · intro ha
      have := w.shown ha
      simpa [entries, Item.entry, inappropriate] using this
    · intro ha
      obtain ⟨w1, w2⟩ := w.hidden ha
      refine ⟨?_, ?_⟩
      · rw [hnode, List.flatMap_append, ← htx]
        have hs : hiddenStyle sh (keyOf p ++ [.name t.name]) (.table (entries its)) =
            valueStyle sh (keyOf p ++ [.name t.name]) (.table (entries its)) := by
          unfold hiddenStyle
          rcases hdp with hdp | hdp <;> simp [hdp]
        have hs2 : (if (TV.table (entries its)).isTable &&
            decide ((valueStyle sh (keyOf p ++ [.name t.name]) (.table (entries its))).display ≠ .hidden) then
              { valueStyle sh (keyOf p ++ [.name t.name]) (.table (entries its)) with display := .regular }
            else valueStyle sh (keyOf p ++ [.name t.name]) (.table (entries its))) =
            valueStyle sh (keyOf p ++ [.name t.name]) (.table (entries its)) := by
          rcases hdp with hdp | hdp
          · generalize valueStyle sh (keyOf p ++ [.name t.name]) (.table (entries its)) = z at hdp ⊢
            cases z
            simp only at hdp
            subst hdp
            simp
          · simp [hdp]
        simp only [entries, Item.entry, wHidden, w1, hs, hs2]
      · simpa [entries, Item.entry, inappropriate] using w2
  | .newTable n rows :: items, h => by
    simp only [allOf] at h
    have w := items_text d hd sh hk p ls ts hat root hroot items h.2
    obtain ⟨hdp, htx⟩ := newTable_text d sh hk p ls ts hat root hroot n rows h.1
    have hnode : allSections p (nodesOf (.newTable n rows :: items)) =
        ⟨p ++ [n], {}, rows.map Row.line⟩ :: allSections p (nodesOf items) := by
      simp [nodesOf, Item.node, allSections, Node.sections]
    refine ⟨?_, ?_, ?_, ?_, ?_⟩
    · simp [entries, Item.entry, wOwn, w.own, linesOf, hdp]
    · rw [hnode, List.flatMap_cons, ← htx]
      simp [entries, Item.entry, wDelayed, w.delayed, hdp]
    · simp [entries, Item.entry, isOwn, w.any, linesOf, hdp]
    · intro ha
      have := w.shown ha
      simpa [entries, Item.entry, inappropriate] using this
    · intro ha
      obtain ⟨w1, w2⟩ := w.hidden ha
      refine ⟨?_, ?_⟩
      · rw [hnode, List.flatMap_cons, ← htx]
        have hs : hiddenStyle sh (keyOf p ++ [.name n]) (.table (values (rows.map Row.line))) =
            valueStyle sh (keyOf p ++ [.name n]) (.table (values (rows.map Row.line))) := by
          unfold hiddenStyle; simp [hdp]
        have hs2 : (if (TV.table (values (rows.map Row.line))).isTable &&
            decide ((valueStyle sh (keyOf p ++ [.name n]) (.table (values (rows.map Row.line)))).display ≠ .hidden) then
              { valueStyle sh (keyOf p ++ [.name n]) (.table (values (rows.map Row.line))) with display := .regular }
            else valueStyle sh (keyOf p ++ [.name n]) (.table (values (rows.map Row.line)))) =
            valueStyle sh (keyOf p ++ [.name n]) (.table (values (rows.map Row.line))) := by
          generalize valueStyle sh (keyOf p ++ [.name n]) (.table (values (rows.map Row.line))) = z at hdp ⊢
          cases z
          simp only at hdp
          subst hdp
          simp
        simp only [entries, Item.entry, wHidden, w1, hs, hs2]
      · simpa [entries, Item.entry, inappropriate] using w2
end

theorem write_items (d : Doc) (hd : d.Tidy) (sh : Sheet) (hk : Knows d sh) (items : List Item) (h : allOf true d.root d.tables items) :
    write sh (entries items) = rstrip (d.edited items).text := by
  have w := items_text d hd sh hk [] d.root d.tables At.root true (fun _ => rfl) items h
  have hst : valueStyle sh [] (.table (entries items)) =
      { prolog := d.start.text, epilog := d.last.text, sig := some (.table d.data), display := .regular } := by
    simp [valueStyle, predefined, hk.whole, similar]
  have h1 := w.own
  have h2 := w.delayed
  have h3 := w.any
  rw [show keyOf [] = [] from rfl] at h1 h2 h3
  unfold write
  rw [hst, wValue]
  simp only [regularText, h1, h2, h3]
  simp [writeKey, Doc.text, Doc.sections, Doc.edited, block_lines, List.append_assoc]

end TomlStyle
end Pkm
