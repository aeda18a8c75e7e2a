import Verif.Toml.StyledLemmas
set_option linter.unusedVariables false
set_option linter.unusedSimpArgs false
/-
Lemmas for C116: a tidy file is read, and what its style sheet says.
-/
namespace Pkm
namespace TomlStyle
open Toml
open Spec Spec.Styled

/-- Here the assignments of a table end. -/
def Stops (r : Text) : Prop := nonData true false r = some [] ∨ ∃ u, nonData true false r = some ('[' :: u)

theorem scalar_length (v : Scalar) : 0 < v.text.length := by
  obtain ⟨c, r, h, -⟩ := scalar_solid v
  rw [h]; simp

theorem elems_length (es : List Elem) : es.length ≤ (commas (es.map Elem.text)).length := by
  induction es with
  | nil => simp
  | cons e es ih =>
    have h : 0 < e.text.length := by
      have := scalar_length e.value
      simp only [Elem.text, List.length_append]; omega
    cases es with
    | nil => simp only [List.map_cons, List.map_nil, commas, List.length_cons, List.length_nil]; omega
    | cons e2 es =>
      simp only [List.map_cons, commas, List.length_cons, List.length_append] at ih ⊢
      omega

theorem fuel_length (l : Line) : fuelOf l.value ≤ l.text.length + 5 ∧ 0 < l.text.length := by
  refine ⟨?_, by simp [Line.text]; omega⟩
  cases h : l.value with
  | scalar v => simp [fuelOf, elems]
  | list es c =>
    have := elems_length es
    simp only [fuelOf, elems, Line.text, h, Value.text, List.length_append, List.length_cons]
    omega

theorem readAssignmentsS_lines (base : List SKey) (r : Text) (hr : Stops r) (ls : List Line) :
    ∀ (f : Nat) (sh : Sheet) (acc : List (Text × TV)), (ls.flatMap Line.text).length + 6 ≤ f → (∀ l ∈ ls, l.Ok) →
      (acc.map Prod.fst ++ ls.map Line.name).Nodup →
      readAssignmentsS f base false (ls.flatMap Line.text ++ r) sh acc =
        some (acc ++ values ls, dropNl r, ls.foldl (lineSheet base) sh) := by
  induction ls with
  | nil =>
    intro f sh acc hf _ _
    obtain ⟨f, rfl⟩ : ∃ g, f = g + 1 := ⟨f - 1, by omega⟩
    rw [List.flatMap_nil, List.nil_append, readAssignmentsS]
    rcases hr with h | ⟨u, h⟩ <;> simp [h, values]
  | cons l ls ih =>
    intro f sh acc hf hok hnd
    obtain ⟨f, rfl⟩ : ∃ g, f = g + 1 := ⟨f - 1, by omega⟩
    have h1 := fuel_length l
    rw [List.flatMap_cons, List.length_append] at hf
    rw [List.flatMap_cons, List.append_assoc, readAssignmentsS_line f base l _ sh acc (hok l List.mem_cons_self) (by
      intro hm
      rw [List.nodup_append] at hnd
      exact hnd.2.2 _ hm _ (by simp) rfl) (by omega)]
    rw [ih f _ _ (by omega) (fun x hx => hok x (List.mem_cons_of_mem _ hx)) (by simpa using hnd)]
    simp [values]

/-- The table can be read. -/
def Section.Good (s : Section) : Prop :=
  s.path ≠ [] ∧ (∀ k ∈ s.path, ReadableStr k) ∧ s.head.Ok ∧ (∀ l ∈ s.lines, l.Ok) ∧ s.lines ≠ [] ∧ (s.lines.map Line.name).Nodup

/-- The key of a path. -/
def keyOf (p : List Text) : List SKey := p.map SKey.name

/-- The style of the key of a table. -/
def secKey (s : Section) : KStyle :=
  { prolog := [], epilog := s.head.tail ++ comment s.head.comment, str := some ('[' :: (dots (s.path.map writeKeyPart) ++ [']'])),
    display := .table }

/-- The style of a table. -/
def secStyle (s : Section) : VStyle :=
  { prolog := s.head.gap.text, sig := some (.table (values s.lines)), display := .regular }

/-- The style sheet with a table. -/
def secSheet (sh : Sheet) (s : Section) : Sheet :=
  let sh1 := markInternal ⟨Dict.put sh.keys (keyOf s.path) (secKey s), sh.values⟩ [] (keyOf s.path).dropLast .hidden
  let sh2 := s.lines.foldl (lineSheet (keyOf s.path)) sh1
  ⟨sh2.keys, Dict.put sh2.values (keyOf s.path) (secStyle s)⟩

/-- The text from a table on, to the end of the file. -/
def Rest (last : Text) : List Section → Text → Prop
  | [], t => t = last
  | s :: ss, t => ∃ r, t = s.header ++ (s.lines.flatMap Line.text ++ r) ∧
      ((∃ u, r = '\n' :: u ∧ Rest last ss u) ∨ (ss = [] ∧ last = [] ∧ r = []))

theorem header_text (s : Section) (r : Text) : s.header ++ r = s.head.gap.text ++ ('[' :: (dots (s.path.map writeKeyPart) ++ ']' ::
    (s.head.tail ++ (comment s.head.comment ++ '\n' :: r)))) := by
  simp [Section.header, List.append_assoc]

theorem rest_start {last : Text} {ss : List Section} {t : Text} (h : Rest last ss t) (hss : ∀ s ∈ ss, Section.Good s)
    (hlast : nonData true false last = some []) :
    (ss = [] ∧ nonData true false t = some []) ∨ (ss ≠ [] ∧ ∃ u, nonData true false t = some ('[' :: u)) := by
  cases ss with
  | nil => left; rw [show t = last from h]; exact ⟨rfl, hlast⟩
  | cons s ss =>
    right
    obtain ⟨r, rfl, -⟩ := h
    rw [header_text, nonData_gap _ _ (hss s List.mem_cons_self).2.2.1.1, nonData_solid ⟨'[', _, rfl, by decide, by decide⟩]
    exact ⟨by simp, _, rfl⟩

theorem rest_stops {last : Text} {ss : List Section} {t : Text} (h : Rest last ss t) (hss : ∀ s ∈ ss, Section.Good s)
    (hlast : nonData true false last = some []) : Stops t := by
  rcases rest_start h hss hlast with h | h
  · exact Or.inl h.2
  · exact Or.inr h.2

theorem stops_newline {t : Text} (h : Stops t) : Stops ('\n' :: t) := by
  unfold Stops
  rw [nonData_newline]
  exact h

theorem readTableS_section (f : Nat) (s : Section) (r : Text) (sh : Sheet) (hr : Stops r) (hs : Section.Good s)
    (hf : (s.lines.flatMap Line.text).length + 6 ≤ f) :
    readTableS f (s.header ++ (s.lines.flatMap Line.text ++ r)) sh =
      some (keyOf s.path, values s.lines, dropNl r, secSheet sh s) := by
  obtain ⟨hp, hk, ⟨hg, hb, hc⟩, hl, -, hnd⟩ := hs
  unfold readTableS
  rw [header_text, nonData_gap _ _ hg, nonData_solid ⟨'[', _, rfl, by decide, by decide⟩]
  simp only [readKeyS_header s.path s.head.tail s.head.comment _ hp hk hb hc, fullKeyS]
  have e : setKey sh (s.path.map SKey.name) (keyRead ⟨s.path, .table, [], '[' :: (dots (s.path.map writeKeyPart) ++ [']']),
      s.head.tail ++ comment s.head.comment, '\n' :: (s.lines.flatMap Line.text ++ r)⟩) =
      ⟨Dict.put sh.keys (keyOf s.path) (secKey s), sh.values⟩ := rfl
  simp only [e]
  rw [readAssignmentsS_lines (s.path.map SKey.name) r hr s.lines f _ [] hf hl (by simpa using hnd)]
  simp only [Option.map_some, List.nil_append, consumed_append]
  rfl

theorem line_length (l : Line) : 0 < l.text.length := by
  simp [Line.text]; omega

theorem lines_length (ls : List Line) : ls.length ≤ (ls.flatMap Line.text).length := by
  induction ls with
  | nil => simp
  | cons l ls ih =>
    have := line_length l
    rw [List.flatMap_cons, List.length_append, List.length_cons]
    omega

theorem rest_length {last : Text} (ss : List Section) : ∀ {t : Text}, Rest last ss t →
    ss.length ≤ t.length ∧ ∀ s ∈ ss, (s.lines.flatMap Line.text).length + 1 ≤ t.length := by
  induction ss with
  | nil => intro t _; simp
  | cons s ss ih =>
    intro t h
    obtain ⟨r, rfl, h⟩ := h
    have h1 := lines_length s.lines
    have h2 : 0 < s.header.length := by simp [Section.header]; omega
    rcases h with ⟨u, rfl, hu⟩ | ⟨rfl, -, rfl⟩
    · have h3 := ih hu
      refine ⟨?_, ?_⟩
      · simp only [List.length_cons, List.length_append]; omega
      · intro x hx
        simp only [List.length_cons, List.length_append]
        rcases List.mem_cons.1 hx with rfl | hx
        · omega
        · have := h3.2 x hx; omega
    · refine ⟨?_, ?_⟩
      · simp only [List.length_cons, List.length_append, List.length_nil]; omega
      · intro x hx
        rcases List.mem_cons.1 hx with rfl | hx
        · simp only [List.length_append]; omega
        · simp at hx

/-- The data with several tables entered. -/
def enterAll : List Section → List (Text × TV) → Option (List (Text × TV))
  | [], d => some d
  | s :: ss, d =>
    match enter ((keyOf s.path).map partOf) (.table (values s.lines)) d with
    | none => none
    | some d => enterAll ss d

theorem readTablesS_rest (f : Nat) (last : Text) (hlast : nonData true false last = some []) (ss : List Section) :
    ∀ (n : Nat) (t : Text) (sh : Sheet) (data data' : List (Text × TV)), ss.length + 1 ≤ n → Rest last ss t → (∀ s ∈ ss, Section.Good s) →
      (∀ s ∈ ss, (s.lines.flatMap Line.text).length + 6 ≤ f) → enterAll ss data = some data' →
      readTablesS f n t sh data = some (data', last, ss.foldl secSheet sh) := by
  induction ss with
  | nil =>
    intro n t sh data data' hn h _ _ he
    obtain ⟨n, rfl⟩ : ∃ g, n = g + 1 := ⟨n - 1, by simp at hn; omega⟩
    rw [show t = last from h, readTablesS, hlast]
    simp only [enterAll, Option.some.injEq] at he
    simp [he]
  | cons s ss ih =>
    intro n t sh data data' hn h hok hf he
    obtain ⟨n, rfl⟩ : ∃ g, n = g + 1 := ⟨n - 1, by simp at hn; omega⟩
    have hstart := rest_start h hok hlast
    obtain ⟨r, rfl, h⟩ := h
    rcases hstart with ⟨e, -⟩ | ⟨-, u, hu⟩
    · simp at e
    rw [readTablesS, hu]
    simp only
    have hss : ∀ x ∈ ss, Section.Good x := fun x hx => hok x (List.mem_cons_of_mem _ hx)
    have hr : Stops r := by
      rcases h with ⟨w, rfl, hw⟩ | ⟨rfl, -, rfl⟩
      · exact stops_newline (rest_stops hw hss hlast)
      · exact Or.inl rfl
    have hd : Rest last ss (dropNl r) := by
      rcases h with ⟨w, rfl, hw⟩ | ⟨rfl, rfl, rfl⟩
      · exact hw
      · rfl
    rw [readTableS_section f s r sh hr (hok s List.mem_cons_self) (hf s List.mem_cons_self)]
    simp only
    rw [enterAll] at he
    cases hen : enter ((keyOf s.path).map partOf) (.table (values s.lines)) data with
    | none => rw [hen] at he; simp at he
    | some d1 =>
      rw [hen] at he
      simp only at he ⊢
      exact ih n _ _ _ _ (by simp at hn ⊢; omega) hd hss (fun x hx => hf x (List.mem_cons_of_mem _ hx)) he

theorem getLast_split {t : Text} {c : Char} (h : t.getLast? = some c) : t = t.dropLast ++ [c] := by
  have hne : t ≠ [] := by intro e; rw [e] at h; simp at h
  rw [List.getLast?_eq_some_getLast hne] at h
  simp only [Option.some.injEq] at h
  rw [← h]; exact (List.dropLast_concat_getLast hne).symm

theorem rest_full (last : Text) (ss : List Section) (h : ∀ s ∈ ss, s.lines ≠ []) :
    Rest last ss (ss.flatMap Section.text ++ last) := by
  induction ss with
  | nil => rfl
  | cons s ss ih =>
    refine ⟨'\n' :: (ss.flatMap Section.text ++ last), ?_, Or.inl ⟨_, rfl, ih (fun x hx => h x (List.mem_cons_of_mem _ hx))⟩⟩
    have : s.lines.isEmpty = false := by simpa using h s List.mem_cons_self
    simp [Section.text, block, this, List.append_assoc]

theorem rest_short (ss : List Section) (h : ∀ s ∈ ss, s.lines ≠ []) : ∀ (t : Text), ss ≠ [] →
    t ++ ['\n'] = ss.flatMap Section.text → Rest [] ss t := by
  induction ss with
  | nil => intro t hne; exact absurd rfl hne
  | cons s ss ih =>
    intro t _ e
    have hs : s.lines.isEmpty = false := by simpa using h s List.mem_cons_self
    have e1 : t ++ ['\n'] = s.header ++ (s.lines.flatMap Line.text ++ '\n' :: ss.flatMap Section.text) := by
      rw [e]; simp [Section.text, block, hs, List.append_assoc]
    by_cases hss : ss = []
    · subst hss
      have e2 : t ++ ['\n'] = (s.header ++ s.lines.flatMap Line.text) ++ ['\n'] := by rw [e1]; simp
      have e3 := List.append_cancel_right e2
      exact ⟨[], by rw [e3]; simp, Or.inr ⟨rfl, rfl, rfl⟩⟩
    · have hlast : ∃ w, ss.flatMap Section.text = w ++ ['\n'] := by
        have hl : (t ++ ['\n']).getLast? = some '\n' := by simp
        rw [e1] at hl
        have hne : ss.flatMap Section.text ≠ [] := by
          cases ss with
          | nil => exact absurd rfl hss
          | cons s' ss' => simp [Section.text, Section.header]
        have hl2 : (ss.flatMap Section.text).getLast? = some '\n' := by
          rw [List.getLast?_append, List.getLast?_append, List.getLast?_cons] at hl
          cases hg : (ss.flatMap Section.text).getLast? with
          | none => exact absurd (List.getLast?_eq_none_iff.1 hg) hne
          | some c => rw [hg] at hl; simpa using hl
        exact ⟨_, getLast_split hl2⟩
      obtain ⟨w, hw⟩ := hlast
      have e2 : t ++ ['\n'] = (s.header ++ (s.lines.flatMap Line.text ++ '\n' :: w)) ++ ['\n'] := by rw [e1, hw]; simp
      have e3 := List.append_cancel_right e2
      exact ⟨'\n' :: w, e3, Or.inl ⟨w, rfl, ih (fun x hx => h x (List.mem_cons_of_mem _ hx)) w hss hw.symm⟩⟩

/-- The style sheet of a file. -/
def docSheet (d : Doc) : Sheet :=
  setValue (d.sections.foldl secSheet (d.root.foldl (lineSheet []) {})) [] (.table d.data)
    { prolog := d.start.text, epilog := d.last.text, display := .regular }

/-! ### The tables -/

theorem nodup_append_left {α : Type} {a b : List α} (h : (a ++ b).Nodup) : a.Nodup := (List.nodup_append.1 h).1

mutual
theorem node_good (path : List Text) (hp : ∀ k ∈ path, ReadableStr k) : ∀ (n : Node), n.Ok → ∀ s ∈ n.sections path, Section.Good s
  | .mk n h ls ss, hok, s, hs => by
    simp only [Node.Ok] at hok
    obtain ⟨h1, h2, h3, h4, h5, h6⟩ := hok
    have hp' : ∀ k ∈ path ++ [n], ReadableStr k := by
      intro k hk
      rcases List.mem_append.1 hk with hk | hk
      · exact hp k hk
      · simp at hk; rw [hk]; exact h1
    simp only [Node.sections, List.mem_append] at hs
    rcases hs with hs | hs
    · cases h with
      | none => simp at hs
      | some x =>
        simp at hs
        subst hs
        obtain ⟨hx, hne⟩ := h2 x rfl
        exact ⟨by simp, hp', hx, h4, hne, nodup_append_left h5⟩
    · exact nodes_good (path ++ [n]) hp' ss h6 s hs
theorem nodes_good (path : List Text) (hp : ∀ k ∈ path, ReadableStr k) : ∀ (ns : List Node), allOk ns → ∀ s ∈ allSections path ns, Section.Good s
  | [], _, s, hs => by simp [allSections] at hs
  | n :: ns, hok, s, hs => by
    simp only [allOk] at hok
    simp only [allSections, List.mem_append] at hs
    rcases hs with hs | hs
    · exact node_good path hp n hok.1 s hs
    · exact nodes_good path hp ns hok.2 s hs
end

/-- A table below another one. -/
def under (a : Text) (s : Section) : Section := { s with path := a :: s.path }

mutual
theorem node_under (a : Text) (path : List Text) : ∀ n : Node, n.sections (a :: path) = (n.sections path).map (under a)
  | .mk n h ls ss => by
    simp only [Node.sections, List.map_append, List.cons_append]
    rw [nodes_under a (path ++ [n]) ss]
    cases h <;> simp [under]
theorem nodes_under (a : Text) (path : List Text) : ∀ ns : List Node, allSections (a :: path) ns = (allSections path ns).map (under a)
  | [] => by simp [allSections]
  | n :: ns => by
    simp only [allSections, List.map_append]
    rw [node_under a path n, nodes_under a path ns]
end

theorem put_last (d : List (Text × TV)) (k : Text) (v w : TV) (h : k ∉ d.map Prod.fst) : Dict.put (d ++ [(k, v)]) k w = d ++ [(k, w)] := by
  rw [← put_new d k v h, put_put, put_new d k w h]

theorem get_last (d : List (Text × TV)) (k : Text) (v : TV) (h : k ∉ d.map Prod.fst) : Dict.get (d ++ [(k, v)]) k = some v := by
  rw [← put_new d k v h, Dict.get_put, if_pos rfl]

theorem get_new (d : List (Text × TV)) (k : Text) (h : k ∉ d.map Prod.fst) : Dict.get d k = none := by
  induction d with
  | nil => rfl
  | cons e d ih =>
    obtain ⟨a, w⟩ := e
    simp only [List.map_cons, List.mem_cons, not_or] at h
    rw [Dict.get, if_neg (fun e => h.1 e.symm)]
    exact ih h.2

theorem enter_under (a : Text) (p : List Text) (hp : p ≠ []) (v : TV) (d t : List (Text × TV)) (h : a ∉ d.map Prod.fst) :
    enter ((keyOf (a :: p)).map partOf) v (d ++ [(a, .table t)]) =
      (enter ((keyOf p).map partOf) v t).map (fun t' => d ++ [(a, .table t')]) := by
  cases p with
  | nil => exact absurd rfl hp
  | cons b p =>
    simp only [keyOf, List.map_cons, partOf]
    rw [enter]
    · rw [get_last d a _ h]
      simp only
      congr 1
      funext t'
      exact put_last d a _ _ h
    · simp

theorem enter_first (a : Text) (p : List Text) (hp : p ≠ []) (v : TV) (d : List (Text × TV)) (h : a ∉ d.map Prod.fst) :
    enter ((keyOf (a :: p)).map partOf) v d =
      (enter ((keyOf p).map partOf) v []).map (fun t' => d ++ [(a, .table t')]) := by
  cases p with
  | nil => exact absurd rfl hp
  | cons b p =>
    simp only [keyOf, List.map_cons, partOf]
    rw [enter]
    · rw [get_new d a h]
      simp only
      rw [if_neg (by simp), if_neg (by simp)]
      congr 1
      funext t'
      exact put_new d a _ h
    · simp

theorem enterAll_append (xs ys : List Section) : ∀ d, enterAll (xs ++ ys) d = (enterAll xs d).bind (enterAll ys) := by
  induction xs with
  | nil => intro d; rfl
  | cons s xs ih =>
    intro d
    simp only [List.cons_append, enterAll]
    cases enter ((keyOf s.path).map partOf) (.table (values s.lines)) d with
    | none => rfl
    | some d1 => exact ih d1

theorem enterAll_under (a : Text) (d : List (Text × TV)) (h : a ∉ d.map Prod.fst) (ss : List Section) : ∀ t t',
    (∀ s ∈ ss, s.path ≠ []) → enterAll ss t = some t' →
    enterAll (ss.map (under a)) (d ++ [(a, .table t)]) = some (d ++ [(a, .table t')]) := by
  induction ss with
  | nil => intro t t' _ he; simp only [enterAll, Option.some.injEq] at he; simp [enterAll, he]
  | cons s ss ih =>
    intro t t' hp he
    rw [enterAll] at he
    cases hen : enter ((keyOf s.path).map partOf) (.table (values s.lines)) t with
    | none => rw [hen] at he; simp at he
    | some t1 =>
      rw [hen] at he
      simp only [List.map_cons, enterAll]
      have : enter ((keyOf (under a s).path).map partOf) (.table (values (under a s).lines)) (d ++ [(a, .table t)]) =
          some (d ++ [(a, .table t1)]) := by
        rw [show (under a s).path = a :: s.path from rfl, show (under a s).lines = s.lines from rfl,
          enter_under a s.path (hp s List.mem_cons_self) _ d t h, hen]
        rfl
      rw [this]
      exact ih t1 t' (fun x hx => hp x (List.mem_cons_of_mem _ hx)) he

theorem enterAll_first (a : Text) (d : List (Text × TV)) (h : a ∉ d.map Prod.fst) (s : Section) (ss : List Section) (t' : List (Text × TV))
    (hp : ∀ x ∈ s :: ss, x.path ≠ []) (he : enterAll (s :: ss) [] = some t') :
    enterAll ((s :: ss).map (under a)) d = some (d ++ [(a, .table t')]) := by
  rw [enterAll] at he
  cases hen : enter ((keyOf s.path).map partOf) (.table (values s.lines)) [] with
  | none => rw [hen] at he; simp at he
  | some t1 =>
    rw [hen] at he
    simp only [List.map_cons, enterAll]
    have : enter ((keyOf (under a s).path).map partOf) (.table (values (under a s).lines)) d = some (d ++ [(a, .table t1)]) := by
      rw [show (under a s).path = a :: s.path from rfl, show (under a s).lines = s.lines from rfl,
        enter_first a s.path (hp s List.mem_cons_self) _ d h, hen]
      rfl
    rw [this]
    exact enterAll_under a d h ss t1 t' (fun x hx => hp x (List.mem_cons_of_mem _ hx)) he

theorem node_data_fst (n : Node) : n.data.1 = n.name := by cases n; rfl

theorem allData_fst (ns : List Node) : (allData ns).map Prod.fst = ns.map Node.name := by
  induction ns with
  | nil => rfl
  | cons n ns ih => simp only [allData, List.map_cons, ih, node_data_fst]

theorem values_fst (ls : List Line) : (values ls).map Prod.fst = ls.map Line.name := by
  simp [values, Function.comp_def]

mutual
theorem node_sections_ne (path : List Text) : ∀ n : Node, n.Ok → n.sections path ≠ []
  | .mk n h ls ss, hok => by
    simp only [Node.Ok] at hok
    cases h with
    | some x => simp [Node.sections]
    | none =>
      simp only [Node.sections, List.nil_append]
      exact nodes_sections_ne _ ss hok.2.2.2.2.2 (hok.2.2.1 rfl).2
theorem nodes_sections_ne (path : List Text) : ∀ ns : List Node, allOk ns → ns ≠ [] → allSections path ns ≠ []
  | [], _, h => absurd rfl h
  | n :: ns, hok, _ => by
    simp only [allOk] at hok
    simp only [allSections]
    intro e
    exact node_sections_ne path n hok.1 (List.append_eq_nil_iff.1 e).1
end

mutual
theorem node_path (path : List Text) : ∀ (n : Node) (s : Section), s ∈ n.sections path → path ++ [n.name] <+: s.path
  | .mk n h ls ss, s, hs => by
    simp only [Node.sections, List.mem_append] at hs
    rcases hs with hs | hs
    · cases h with
      | none => simp at hs
      | some x => simp at hs; subst hs; exact List.prefix_refl _
    · obtain ⟨m, -, h⟩ := nodes_path (path ++ [n]) ss s hs
      exact (List.prefix_append _ _).trans h
theorem nodes_path (path : List Text) : ∀ (ns : List Node) (s : Section), s ∈ allSections path ns →
    ∃ n ∈ ns, path ++ [n.name] <+: s.path
  | [], s, hs => by simp [allSections] at hs
  | n :: ns, s, hs => by
    simp only [allSections, List.mem_append] at hs
    rcases hs with hs | hs
    · exact ⟨n, List.mem_cons_self, node_path path n s hs⟩
    · obtain ⟨m, hm, h⟩ := nodes_path path ns s hs
      exact ⟨m, List.mem_cons_of_mem _ hm, h⟩
end

theorem nodes_path_ne (path : List Text) (ns : List Node) (s : Section) (h : s ∈ allSections path ns) : s.path ≠ [] := by
  obtain ⟨n, -, h⟩ := nodes_path path ns s h
  intro e
  rw [e] at h
  simp at h

mutual
theorem node_enter : ∀ (n : Node) (d : List (Text × TV)), n.Ok → n.name ∉ d.map Prod.fst →
    enterAll (n.sections []) d = some (d ++ [n.data])
  | .mk n h ls ss, d, hok, hd => by
    simp only [Node.Ok] at hok
    obtain ⟨h1, h2, h3, h4, h5, h6⟩ := hok
    simp only [Node.name] at hd
    have hnd := List.nodup_append.1 h5
    simp only [Node.sections, List.nil_append, nodes_under, Node.data]
    cases h with
    | some x =>
      have hsub := nodes_enter ss (values ls) h6 (by rw [values_fst]; exact h5)
      simp only [List.cons_append, List.nil_append, enterAll, keyOf, List.map_cons, List.map_nil, partOf, enter, put_new _ _ _ hd]
      exact enterAll_under n d hd _ _ _ (fun s hs => nodes_path_ne [] ss s hs) hsub
    | none =>
      obtain ⟨rfl, hne⟩ := h3 rfl
      have hsub := nodes_enter ss [] h6 (by simpa using hnd.2.1)
      have hss := nodes_sections_ne [] ss h6 hne
      simp only [List.nil_append]
      cases hs : allSections [] ss with
      | nil => exact absurd hs hss
      | cons s rest =>
        rw [hs] at hsub
        have := enterAll_first n d hd s rest _ (fun x hx => nodes_path_ne [] ss x (by rw [hs]; exact hx)) hsub
        rw [this]; rfl
theorem nodes_enter : ∀ (ns : List Node) (d : List (Text × TV)), allOk ns → (d.map Prod.fst ++ ns.map Node.name).Nodup →
    enterAll (allSections [] ns) d = some (d ++ allData ns)
  | [], d, _, _ => by simp [allSections, enterAll, allData]
  | n :: ns, d, hok, hd => by
    simp only [allOk] at hok
    have h1 : n.name ∉ d.map Prod.fst := by
      intro hm
      rw [List.nodup_append] at hd
      exact hd.2.2 _ hm _ (by simp) rfl
    simp only [allSections, enterAll_append]
    rw [node_enter n d hok.1 h1]
    simp only [Option.bind_some]
    rw [nodes_enter ns (d ++ [n.data]) hok.2 (by simpa [node_data_fst] using hd)]
    simp [allData]
end

theorem gap_end (g : Gap) (h : g.Ok) : nonData true false g.text = some [] := by
  have := nonData_gap g [] h
  rw [List.append_nil] at this
  rw [this]; rfl

/-- A text of the file, in parts. -/
theorem isText_parts (d : Doc) (t : Text) (hd : d.Tidy) (ht : d.IsText t) :
    ∃ r, t = d.start.text ++ (d.root.flatMap Line.text ++ r) ∧ Stops r ∧ Rest d.last.text d.sections (dropNl r) ∧
      nonData true false (d.root.flatMap Line.text ++ r) = some (d.root.flatMap Line.text ++ r) := by
  have hok : ∀ s ∈ d.sections, Section.Good s := nodes_good [] (by simp) d.tables hd.tables
  have hne : ∀ s ∈ d.sections, s.lines ≠ [] := fun s hs => (hok s hs).2.2.2.2.1
  have hgl := gap_end _ hd.last
  by_cases hr : d.root = []
  · have hss : d.sections ≠ [] := by
      rcases hd.some with h | h
      · exact absurd hr h
      · exact nodes_sections_ne [] _ hd.tables h
    have key : ∀ u, Rest d.last.text d.sections u → dropNl u = u ∧ Stops u ∧ nonData true false u = some u := by
      intro u hu
      have h1 := rest_stops hu hok hgl
      cases hs : d.sections with
      | nil => exact absurd hs hss
      | cons s ss =>
        rw [hs] at hu
        obtain ⟨r, rfl, -⟩ := hu
        have hg : s.head.gap = {} := hd.firstSection hr s (by rw [hs]; rfl)
        have e : s.header ++ (s.lines.flatMap Line.text ++ r) = '[' :: (dots (s.path.map writeKeyPart) ++ ']' ::
            (s.head.tail ++ (comment s.head.comment ++ '\n' :: (s.lines.flatMap Line.text ++ r)))) := by
          rw [header_text, hg]; rfl
        rw [e] at h1 ⊢
        exact ⟨rfl, h1, nonData_solid ⟨'[', _, rfl, by decide, by decide⟩⟩
    have hex : ∃ u, t = d.start.text ++ u ∧ Rest d.last.text d.sections u := by
      rcases ht with rfl | ⟨hl, e⟩
      · refine ⟨_, ?_, rest_full _ _ hne⟩
        simp [Doc.text, hr, block]
      · have hl' : d.last.text = [] := by rw [hl]; rfl
        have e1 : t ++ ['\n'] = d.start.text ++ d.sections.flatMap Section.text := by
          rw [e]; simp [Doc.text, hr, block, hl']
        -- the tables end with a line feed
        have hl3 : ∃ w, d.sections.flatMap Section.text = w ++ ['\n'] := by
          have hg : (t ++ ['\n']).getLast? = some '\n' := by simp
          rw [e1, List.getLast?_append] at hg
          have hne2 : d.sections.flatMap Section.text ≠ [] := by
            cases hs : d.sections with
            | nil => exact absurd hs hss
            | cons s' ss' => simp [Section.text, Section.header]
          cases hg2 : (d.sections.flatMap Section.text).getLast? with
          | none => exact absurd (List.getLast?_eq_none_iff.1 hg2) hne2
          | some c =>
            rw [hg2] at hg
            simp at hg
            subst hg
            exact ⟨_, getLast_split hg2⟩
        obtain ⟨w, hw⟩ := hl3
        have e2 : t ++ ['\n'] = (d.start.text ++ w) ++ ['\n'] := by rw [e1, hw]; simp
        refine ⟨w, List.append_cancel_right e2, ?_⟩
        rw [hl']
        exact rest_short _ hne w hss hw.symm
    obtain ⟨u, rfl, hu⟩ := hex
    obtain ⟨h1, h2, h3⟩ := key u hu
    exact ⟨u, by simp [hr], h2, by rw [h1]; exact hu, by simpa [hr] using h3⟩
  · have hrb : d.root.isEmpty = false := by simpa using hr
    have hsol : ∀ r, nonData true false (d.root.flatMap Line.text ++ r) = some (d.root.flatMap Line.text ++ r) := by
      intro r
      cases hroot : d.root with
      | nil => exact absurd hroot hr
      | cons l ls =>
        have hg : l.gap = {} := hd.first l (by rw [hroot]; rfl)
        rw [List.flatMap_cons, List.append_assoc, line_text, hg]
        exact nonData_solid ((writeKeyPart_solid l.name).append)
    rcases ht with rfl | ⟨hl, e⟩
    · have hf := rest_full d.last.text _ hne
      refine ⟨'\n' :: (d.sections.flatMap Section.text ++ d.last.text), ?_, stops_newline (rest_stops hf hok hgl), hf, hsol _⟩
      simp [Doc.text, block, hrb, List.append_assoc]
    · have hl' : d.last.text = [] := by rw [hl]; rfl
      have e1 : t ++ ['\n'] = d.start.text ++ (d.root.flatMap Line.text ++ '\n' :: d.sections.flatMap Section.text) := by
        rw [e]; simp [Doc.text, hrb, block, hl']
      by_cases hss : d.sections = []
      · have e2 : t ++ ['\n'] = (d.start.text ++ d.root.flatMap Line.text) ++ ['\n'] := by rw [e1, hss]; simp
        refine ⟨[], ?_, Or.inl rfl, ?_, hsol _⟩
        · rw [List.append_cancel_right e2]; simp
        · rw [hss, hl']; rfl
      · have hl3 : ∃ w, d.sections.flatMap Section.text = w ++ ['\n'] := by
          have hg : (t ++ ['\n']).getLast? = some '\n' := by simp
          rw [e1, List.getLast?_append, List.getLast?_append, List.getLast?_cons] at hg
          have hne2 : d.sections.flatMap Section.text ≠ [] := by
            cases hs : d.sections with
            | nil => exact absurd hs hss
            | cons s' ss' => simp [Section.text, Section.header]
          cases hg2 : (d.sections.flatMap Section.text).getLast? with
          | none => exact absurd (List.getLast?_eq_none_iff.1 hg2) hne2
          | some c =>
            rw [hg2] at hg
            simp at hg
            subst hg
            exact ⟨_, getLast_split hg2⟩
        obtain ⟨w, hw⟩ := hl3
        have hR := rest_short _ hne w hss hw.symm
        have e2 : t ++ ['\n'] = (d.start.text ++ (d.root.flatMap Line.text ++ '\n' :: w)) ++ ['\n'] := by rw [e1, hw]; simp
        refine ⟨'\n' :: w, List.append_cancel_right e2, stops_newline (rest_stops hR hok rfl), ?_, hsol _⟩
        rw [hl']; exact hR

theorem loadsS_doc (d : Doc) (t : Text) (hd : d.Tidy) (ht : d.IsText t) : loadsS t = some (d.data, docSheet d) := by
  obtain ⟨r, rfl, hstop, hrest, hsol⟩ := isText_parts d t hd ht
  have hl1 := lines_length d.root
  have hl2 := rest_length _ hrest
  have hl3 : (dropNl r).length ≤ r.length := by
    unfold dropNl; split <;> simp
  have hlen : (d.start.text ++ (d.root.flatMap Line.text ++ r)).length =
    d.start.text.length + ((d.root.flatMap Line.text).length + r.length) := by simp
  have hnd := List.nodup_append.1 hd.names
  unfold loadsS
  rw [nonData_gap _ _ hd.start, hsol]
  simp only
  rw [readAssignmentsS_lines [] r hstop d.root _ {} [] (by
    rw [hlen]
    have : 0 < (d.root.flatMap Line.text).length + r.length := by
      rcases hd.some with h | h
      · have : 0 < d.root.length := by cases hr : d.root with | nil => exact absurd hr h | cons _ _ => simp
        omega
      · have hs0 := nodes_sections_ne [] _ hd.tables h
        have : 0 < d.sections.length := by cases hr : d.sections with | nil => exact absurd hr hs0 | cons _ _ => simp
        omega
    omega) hd.root (by simpa using hnd.1)]
  simp only [List.nil_append]
  have hgood : ∀ s ∈ d.sections, Section.Good s := nodes_good [] (by simp) d.tables hd.tables
  have hent : enterAll d.sections (values d.root) = some d.data :=
    nodes_enter d.tables (values d.root) hd.tables (by rw [values_fst]; exact hd.names)
  rw [readTablesS_rest _ d.last.text (gap_end _ hd.last) d.sections _ _ _ _ _ (by rw [hlen]; have := hl2.1; omega) hrest
    hgood (fun s hs => by have := hl2.2 s hs; rw [hlen]; omega) hent]
  simp only [consumed_append]
  rfl

/-! ### What the style sheet says -/

theorem elemsIn_out (key : List SKey) (k : List SKey) (es : List Elem) : ∀ (i : Nat) (d : Dict (List SKey) VStyle),
    (∀ j, i ≤ j → j < i + es.length → k ≠ key ++ [.idx j]) → Dict.get (elemsIn key i es d) k = Dict.get d k := by
  induction es with
  | nil => intro i d _; rfl
  | cons e es ih =>
    intro i d h
    rw [elemsIn, ih (i + 1) _ (fun j h1 h2 => h j (by omega) (by simp; omega)), Dict.get_put,
      if_neg (fun e => h i (Nat.le_refl i) (by simp) e.symm)]

theorem idx_inj {key : List SKey} {a b : Nat} (h : key ++ [SKey.idx a] = key ++ [SKey.idx b]) : a = b := by
  have := List.append_cancel_left h
  simpa using this

theorem elemsIn_at (key : List SKey) (es : List Elem) : ∀ (i j : Nat) (d : Dict (List SKey) VStyle), j < es.length →
    Dict.get (elemsIn key i es d) (key ++ [.idx (i + j)]) = (es[j]?).map elemStyle := by
  induction es with
  | nil => intro i j d h; simp at h
  | cons e es ih =>
    intro i j d h
    rw [elemsIn]
    cases j with
    | zero =>
      rw [elemsIn_out _ _ _ _ _ (by intro j h1 h2 e; have := idx_inj e; omega), Nat.add_zero, Dict.get_put, if_pos rfl]
      rfl
    | succ j =>
      have := ih (i + 1) j (Dict.put d (key ++ [.idx i]) (elemStyle e)) (by simpa using h)
      rw [show i + 1 + j = i + (j + 1) by omega] at this
      rw [this]; rfl

theorem elemsIn_prefix (key k : List SKey) (es : List Elem) (i : Nat) (d : Dict (List SKey) VStyle) (h : ¬ key <+: k) :
    Dict.get (elemsIn key i es d) k = Dict.get d k :=
  elemsIn_out key k es i d (fun j _ _ e => h (by rw [e]; exact List.prefix_append _ _))

theorem elemsIn_self (key : List SKey) (es : List Elem) (i : Nat) (d : Dict (List SKey) VStyle) :
    Dict.get (elemsIn key i es d) key = Dict.get d key :=
  elemsIn_out key key es i d (fun j _ _ e => by
    have := congrArg List.length e
    simp at this)

theorem lines_keys_out (base : List SKey) (k : List SKey) (ls : List Line) : ∀ sh : Sheet,
    (∀ l ∈ ls, ¬ base ++ [.name l.name] <+: k) →
    Dict.get (ls.foldl (lineSheet base) sh).keys k = Dict.get sh.keys k ∧
    Dict.get (ls.foldl (lineSheet base) sh).values k = Dict.get sh.values k := by
  induction ls with
  | nil => intro sh _; exact ⟨rfl, rfl⟩
  | cons l ls ih =>
    intro sh h
    have h1 := ih (lineSheet base sh l) (fun x hx => h x (List.mem_cons_of_mem _ hx))
    have h3 := h l List.mem_cons_self
    have h2 : ¬ base ++ [.name l.name] = k := fun e => h3 (by rw [e]; exact List.prefix_refl _)
    rw [List.foldl_cons, h1.1, h1.2]
    simp only [lineSheet, Dict.get_put, if_neg h2, elemsIn_prefix _ _ _ _ _ h3, and_self]

theorem name_inj {base : List SKey} {a b : Text} (h : base ++ [SKey.name a] = base ++ [SKey.name b]) : a = b := by
  have := List.append_cancel_left h
  simpa using this

/-- The styles of a line are there. -/
def LineKnown (sh : Sheet) (key : List SKey) (l : Line) : Prop :=
  Dict.get sh.keys key = some (lineKey l) ∧ Dict.get sh.values key = some (lineStyle l) ∧
    ∀ i, Dict.get sh.values (key ++ [.idx i]) = ((elems l.value)[i]?).map elemStyle

/-- There are no styles for a name. -/
def Unknown (sh : Sheet) (key : List SKey) : Prop :=
  Dict.get sh.keys key = none ∧ Dict.get sh.values key = none ∧ ∀ i, Dict.get sh.values (key ++ [.idx i]) = none

theorem prefix_name {base : List SKey} {a b : Text} {u : List SKey} (h : base ++ [SKey.name a] <+: base ++ SKey.name b :: u) : a = b := by
  rw [List.prefix_append_right_inj] at h
  simpa using h

theorem lines_keys_in (base : List SKey) (ls : List Line) : ∀ (sh : Sheet) (l : Line), l ∈ ls → (ls.map Line.name).Nodup →
    (∀ i, Dict.get sh.values (base ++ [.name l.name, .idx i]) = none) →
    LineKnown (ls.foldl (lineSheet base) sh) (base ++ [.name l.name]) l := by
  induction ls with
  | nil => intro sh l h; simp at h
  | cons x ls ih =>
    intro sh l hm hnd hi
    rw [List.foldl_cons]
    simp only [List.map_cons, List.nodup_cons] at hnd
    by_cases hl : l ∈ ls
    · refine ih _ l hl hnd.2 ?_
      intro i
      have hne : x.name ≠ l.name := fun e => hnd.1 (List.mem_map.2 ⟨l, hl, e.symm⟩)
      have := (lines_keys_out base (base ++ [.name l.name, .idx i]) [x] sh (by
        intro y hy h
        simp at hy; subst hy
        exact hne (prefix_name h))).2
      rw [← hi i]; exact this
    · rcases List.mem_cons.1 hm with rfl | hm
      · have hout : ∀ u, ∀ y ∈ ls, ¬ base ++ [SKey.name y.name] <+: base ++ SKey.name l.name :: u := by
          intro u y hy h
          exact hnd.1 (List.mem_map.2 ⟨y, hy, prefix_name h⟩)
        have h1 := lines_keys_out base (base ++ [.name l.name]) ls (lineSheet base sh l) (hout [])
        refine ⟨?_, ?_, ?_⟩
        · rw [h1.1]; simp only [lineSheet, Dict.get_put, if_true]
        · rw [h1.2]; simp only [lineSheet, Dict.get_put, if_true]
        · intro i
          have h2 := lines_keys_out base (base ++ [.name l.name, .idx i]) ls (lineSheet base sh l) (hout [.idx i])
          have e : base ++ [SKey.name l.name] ++ [SKey.idx i] = base ++ [.name l.name, .idx i] := by simp
          rw [e, h2.2]
          simp only [lineSheet, Dict.get_put]
          rw [if_neg (by intro e; have := congrArg List.length e; simp at this)]
          by_cases hlt : i < (elems l.value).length
          · have := elemsIn_at (base ++ [.name l.name]) (elems l.value) 0 i sh.values hlt
            rw [Nat.zero_add, e] at this
            exact this
          · rw [elemsIn_out _ _ _ _ _ (by
              intro j _ h2 e2
              rw [← e] at e2
              have := idx_inj e2
              omega), hi i, List.getElem?_eq_none (by omega)]
            rfl
      · exact absurd hm hl

theorem keyOf_append (p q : List Text) : keyOf (p ++ q) = keyOf p ++ keyOf q := List.map_append

theorem keyOf_prefix (p : List Text) : ∀ {q : List Text}, keyOf p <+: keyOf q → p <+: q := by
  induction p with
  | nil => intro q _; exact List.nil_prefix
  | cons a p ih =>
    intro q h
    cases q with
    | nil => simp [keyOf] at h
    | cons b q =>
      simp only [keyOf, List.map_cons, List.cons_prefix_cons, SKey.name.injEq] at h
      rw [h.1, List.cons_prefix_cons]
      exact ⟨rfl, ih h.2⟩

theorem keyOf_inj {p q : List Text} (h : keyOf p = keyOf q) : p = q := by
  have h1 := keyOf_prefix p (q := q) (by rw [h]; exact List.prefix_refl _)
  have h2 := congrArg List.length h
  simp only [keyOf, List.length_map] at h2
  exact h1.eq_of_length h2

theorem keyOf_mono {p q : List Text} (h : p <+: q) : keyOf p <+: keyOf q := by
  obtain ⟨u, rfl⟩ := h
  rw [keyOf_append]; exact List.prefix_append _ _

theorem prefix_snoc {a b : Text} {p q : List Text} (h1 : p ++ [a] <+: q) (h2 : p ++ [b] <+: q) : a = b := by
  obtain ⟨u, rfl⟩ := h1
  rw [List.append_assoc, List.prefix_append_right_inj] at h2
  simp at h2
  exact h2.symm

/-- The style of a table that is there because of the tables in it. -/
def hiddenMark : VStyle := { sig := some (.table []), display := .hidden }

/-- What marking does to a style. -/
def mark : Option VStyle → Option VStyle
  | none => some hiddenMark
  | some s => if s.display = .auto then some { s with display := .hidden } else some s

theorem mark_mark (o : Option VStyle) : mark (mark o) = mark o := by
  cases o with
  | none => rfl
  | some s =>
    by_cases h : s.display = .auto
    · simp [mark, h]
    · simp [mark, h]

theorem update_get (sh : Sheet) (q k : List SKey) :
    (updateDisplay sh q .hidden).keys = sh.keys ∧
    Dict.get (updateDisplay sh q .hidden).values k = if q = k then mark (Dict.get sh.values k) else Dict.get sh.values k := by
  unfold updateDisplay
  by_cases hk : q = k
  · subst hk
    cases hg : Dict.get sh.values q with
    | none => simp [setValue, Dict.get_put, mark, hiddenMark]
    | some s =>
      by_cases hd : s.display = .auto
      · simp [hd, Dict.get_put, mark]
      · simp [hd, hg, mark]
  · cases hg : Dict.get sh.values q with
    | none => simp [setValue, Dict.get_put, hk]
    | some s =>
      by_cases hd : s.display = .auto
      · simp [hd, Dict.get_put, hk]
      · simp [hd, hk]

open Classical in
theorem updates_get (key k : List SKey) (is : List Nat) : ∀ sh : Sheet,
    (is.foldl (fun sh i => updateDisplay sh ([] ++ key.take (i + 1)) .hidden) sh).keys = sh.keys ∧
    Dict.get (is.foldl (fun sh i => updateDisplay sh ([] ++ key.take (i + 1)) .hidden) sh).values k =
      if ∃ i ∈ is, key.take (i + 1) = k then mark (Dict.get sh.values k) else Dict.get sh.values k := by
  induction is with
  | nil => intro sh; simp
  | cons i is ih =>
    intro sh
    obtain ⟨h1, h2⟩ := ih (updateDisplay sh ([] ++ key.take (i + 1)) .hidden)
    obtain ⟨h3, h4⟩ := update_get sh ([] ++ key.take (i + 1)) k
    rw [List.foldl_cons, h1, h2, h3, h4]
    refine ⟨rfl, ?_⟩
    by_cases ha : key.take (i + 1) = k
    · by_cases hb : ∃ i ∈ is, key.take (i + 1) = k
      · rw [if_pos hb, if_pos (by simpa using ha), mark_mark, if_pos ⟨i, List.mem_cons_self, ha⟩]
      · rw [if_neg hb, if_pos (by simpa using ha), if_pos ⟨i, List.mem_cons_self, ha⟩]
    · by_cases hb : ∃ i ∈ is, key.take (i + 1) = k
      · obtain ⟨j, hj, hjk⟩ := hb
        rw [if_pos ⟨j, hj, hjk⟩, if_neg (by simpa using ha), if_pos ⟨j, List.mem_cons_of_mem _ hj, hjk⟩]
      · rw [if_neg hb, if_neg (by simpa using ha), if_neg]
        rintro ⟨j, hj, hjk⟩
        rcases List.mem_cons.1 hj with rfl | hj
        · exact ha hjk
        · exact hb ⟨j, hj, hjk⟩

open Classical in
theorem markInternal_get (sh : Sheet) (key k : List SKey) :
    (markInternal sh [] key .hidden).keys = sh.keys ∧
    Dict.get (markInternal sh [] key .hidden).values k =
      if k ≠ [] ∧ k <+: key then mark (Dict.get sh.values k) else Dict.get sh.values k := by
  obtain ⟨h1, h2⟩ := updates_get key k (List.range key.length) sh
  refine ⟨h1, ?_⟩
  unfold markInternal
  rw [h2]
  by_cases h : k ≠ [] ∧ k <+: key
  · rw [if_pos h, if_pos]
    obtain ⟨hne, hp⟩ := h
    have hl := hp.length_le
    have hpos : 0 < k.length := List.length_pos_iff.2 hne
    refine ⟨k.length - 1, List.mem_range.2 (by omega), ?_⟩
    rw [show k.length - 1 + 1 = k.length by omega]
    exact (List.prefix_iff_eq_take.1 hp).symm
  · rw [if_neg h, if_neg]
    rintro ⟨i, hi, rfl⟩
    apply h
    refine ⟨?_, List.take_prefix _ _⟩
    have := List.mem_range.1 hi
    intro e
    have := congrArg List.length e
    simp at this
    rcases this with h0
    simp_all

/-- A table above which the key stands. -/
def Above (k : List SKey) (s : Section) : Prop := k ≠ [] ∧ k <+: (keyOf s.path).dropLast

/-- The key belongs neither to the table itself nor to a line of it. -/
def Foreign (k : List SKey) (s : Section) : Prop :=
  keyOf s.path ≠ k ∧ ∀ l ∈ s.lines, ¬ keyOf (s.path ++ [l.name]) <+: k

open Classical in
theorem secSheet_foreign (s : Section) (sh : Sheet) (k : List SKey) (h : Foreign k s) :
    Dict.get (secSheet sh s).keys k = Dict.get sh.keys k ∧
    Dict.get (secSheet sh s).values k = if Above k s then mark (Dict.get sh.values k) else Dict.get sh.values k := by
  obtain ⟨h0, h1⟩ := h
  obtain ⟨m1, m2⟩ := markInternal_get ⟨Dict.put sh.keys (keyOf s.path) (secKey s), sh.values⟩ (keyOf s.path).dropLast k
  have h2 := lines_keys_out (keyOf s.path) k s.lines
    (markInternal ⟨Dict.put sh.keys (keyOf s.path) (secKey s), sh.values⟩ [] (keyOf s.path).dropLast .hidden) (by
      intro l hl e
      exact h1 l hl (by rw [keyOf_append]; exact e))
  simp only [secSheet, Dict.get_put]
  rw [if_neg h0, h2.1, h2.2, m1, m2]
  simp only [Dict.get_put, if_neg h0]
  refine ⟨trivial, ?_⟩
  by_cases hab : Above k s
  · rw [if_pos (show k ≠ [] ∧ k <+: (keyOf s.path).dropLast from hab), if_pos hab]
  · rw [if_neg (show ¬ (k ≠ [] ∧ k <+: (keyOf s.path).dropLast) from hab), if_neg hab]

open Classical in
theorem secs_foreign (k : List SKey) (ss : List Section) : ∀ sh : Sheet, (∀ s ∈ ss, Foreign k s) →
    Dict.get (ss.foldl secSheet sh).keys k = Dict.get sh.keys k ∧
    Dict.get (ss.foldl secSheet sh).values k = if ∃ s ∈ ss, Above k s then mark (Dict.get sh.values k) else Dict.get sh.values k := by
  induction ss with
  | nil => intro sh _; simp
  | cons s ss ih =>
    intro sh h
    obtain ⟨h1, h2⟩ := ih (secSheet sh s) (fun x hx => h x (List.mem_cons_of_mem _ hx))
    obtain ⟨h3, h4⟩ := secSheet_foreign s sh k (h s List.mem_cons_self)
    rw [List.foldl_cons, h1, h2, h3, h4]
    refine ⟨rfl, ?_⟩
    by_cases ha : Above k s
    · by_cases hb : ∃ s ∈ ss, Above k s
      · rw [if_pos hb, if_pos ha, mark_mark, if_pos ⟨s, List.mem_cons_self, ha⟩]
      · rw [if_neg hb, if_pos ha, if_pos ⟨s, List.mem_cons_self, ha⟩]
    · by_cases hb : ∃ s ∈ ss, Above k s
      · obtain ⟨j, hj, hjk⟩ := hb
        rw [if_pos ⟨j, hj, hjk⟩, if_neg ha, if_pos ⟨j, List.mem_cons_of_mem _ hj, hjk⟩]
      · rw [if_neg hb, if_neg ha, if_neg]
        rintro ⟨j, hj, hjk⟩
        rcases List.mem_cons.1 hj with rfl | hj
        · exact ha hjk
        · exact hb ⟨j, hj, hjk⟩

theorem secs_untouched (k : List SKey) (ss : List Section) (sh : Sheet) (h : ∀ s ∈ ss, Foreign k s ∧ ¬ k <+: keyOf s.path) :
    Dict.get (ss.foldl secSheet sh).keys k = Dict.get sh.keys k ∧ Dict.get (ss.foldl secSheet sh).values k = Dict.get sh.values k := by
  obtain ⟨h1, h2⟩ := secs_foreign k ss sh (fun s hs => (h s hs).1)
  refine ⟨h1, ?_⟩
  rw [h2, if_neg]
  rintro ⟨s, hs, -, ha⟩
  exact (h s hs).2 (ha.trans (List.dropLast_prefix _))

theorem secSheet_own (s : Section) (sh : Sheet) :
    Dict.get (secSheet sh s).keys (keyOf s.path) = some (secKey s) ∧
    Dict.get (secSheet sh s).values (keyOf s.path) = some (secStyle s) := by
  obtain ⟨m1, m2⟩ := markInternal_get ⟨Dict.put sh.keys (keyOf s.path) (secKey s), sh.values⟩ (keyOf s.path).dropLast (keyOf s.path)
  have h2 := lines_keys_out (keyOf s.path) (keyOf s.path) s.lines
    (markInternal ⟨Dict.put sh.keys (keyOf s.path) (secKey s), sh.values⟩ [] (keyOf s.path).dropLast .hidden) (by
      intro l hl e; have := e.length_le; simp at this; omega)
  simp only [secSheet, Dict.get_put, if_true, and_true]
  rw [h2.1, m1]
  simp [Dict.get_put]

theorem secSheet_in (s : Section) (sh : Sheet) (l : Line) (hl : l ∈ s.lines) (hnd : (s.lines.map Line.name).Nodup)
    (hi : ∀ i, Dict.get sh.values (keyOf (s.path ++ [l.name]) ++ [.idx i]) = none) :
    LineKnown (secSheet sh s) (keyOf (s.path ++ [l.name])) l := by
  have e : keyOf (s.path ++ [l.name]) = keyOf s.path ++ [.name l.name] := keyOf_append _ _
  have hlong : ∀ u, ¬ keyOf s.path ++ SKey.name l.name :: u <+: (keyOf s.path).dropLast := by
    intro u h
    have := h.length_le
    simp at this
    omega
  have h2 := lines_keys_in (keyOf s.path) s.lines
    (markInternal ⟨Dict.put sh.keys (keyOf s.path) (secKey s), sh.values⟩ [] (keyOf s.path).dropLast .hidden) l hl hnd (by
      intro i
      obtain ⟨m1, m2⟩ := markInternal_get ⟨Dict.put sh.keys (keyOf s.path) (secKey s), sh.values⟩ (keyOf s.path).dropLast
        (keyOf s.path ++ [.name l.name, .idx i])
      rw [m2, if_neg (fun h => hlong _ h.2)]
      have := hi i
      rw [e] at this
      simpa using this)
  have hne : ∀ u, ¬ keyOf s.path = keyOf s.path ++ SKey.name l.name :: u := by intro u; simp
  rw [e]
  refine ⟨?_, ?_, ?_⟩
  · exact h2.1
  · simp only [secSheet, Dict.get_put]; rw [if_neg (hne [])]; exact h2.2.1
  · intro i; simp only [secSheet, Dict.get_put]; rw [if_neg (by simp)]; exact h2.2.2 i

/-- The tables do not get into each other's way. -/
structure Apart (ss : List Section) : Prop where
  paths : (ss.map Section.path).Nodup
  lines : ∀ s ∈ ss, ∀ l ∈ s.lines, ∀ s' ∈ ss, ¬ s.path ++ [l.name] <+: s'.path

theorem foreign_line {ss : List Section} (ha : Apart ss) {s s' : Section} (hs : s ∈ ss) (hs' : s' ∈ ss) (hne : s'.path ≠ s.path)
    {l : Line} (hl : l ∈ s.lines) (u : List SKey) (hu : u.length ≤ 1) :
    Foreign (keyOf (s.path ++ [l.name]) ++ u) s' ∧ ¬ keyOf (s.path ++ [l.name]) ++ u <+: keyOf s'.path := by
  have h2 : ¬ keyOf (s.path ++ [l.name]) ++ u <+: keyOf s'.path := fun e =>
    ha.lines s hs l hl s' hs' (keyOf_prefix _ ((List.prefix_append _ _).trans e))
  refine ⟨⟨fun e => h2 (by rw [e]; exact List.prefix_refl _), ?_⟩, h2⟩
  intro l' hl' e
  have h3 : keyOf (s'.path ++ [l'.name]) <+: keyOf (s.path ++ [l.name]) ∨ keyOf (s.path ++ [l.name]) <+: keyOf (s'.path ++ [l'.name]) :=
    List.prefix_or_prefix_of_prefix e (List.prefix_append _ _)
  rcases h3 with h3 | h3
  · have h4 := keyOf_prefix _ h3
    rcases List.prefix_concat_iff.1 h4 with h5 | h5
    · have := List.append_inj' h5 rfl
      exact hne this.1
    · exact ha.lines s' hs' l' hl' s hs h5
  · have h4 := keyOf_prefix _ h3
    rcases List.prefix_concat_iff.1 h4 with h5 | h5
    · have := List.append_inj' h5 rfl
      exact hne this.1.symm
    · exact ha.lines s hs l hl s' hs' h5

theorem split_mem {ss : List Section} {s : Section} (h : s ∈ ss) (hn : (ss.map Section.path).Nodup) :
    ∃ as bs, ss = as ++ s :: bs ∧ (∀ x ∈ as, x ∈ ss ∧ x.path ≠ s.path) ∧ (∀ x ∈ bs, x ∈ ss ∧ x.path ≠ s.path) := by
  obtain ⟨as, bs, rfl⟩ := List.append_of_mem h
  refine ⟨as, bs, rfl, ?_, ?_⟩
  · intro x hx
    refine ⟨List.mem_append_left _ hx, ?_⟩
    simp only [List.map_append, List.map_cons, List.nodup_append] at hn
    exact hn.2.2 _ (List.mem_map.2 ⟨x, hx, rfl⟩) _ List.mem_cons_self
  · intro x hx
    refine ⟨List.mem_append_right _ (List.mem_cons_of_mem _ hx), ?_⟩
    simp only [List.map_append, List.map_cons, List.nodup_append, List.nodup_cons] at hn
    intro e
    exact hn.2.1.1 (List.mem_map.2 ⟨x, hx, e⟩)

theorem secs_own (ss : List Section) (ha : Apart ss) (sh : Sheet) (s : Section) (hs : s ∈ ss) :
    Dict.get (ss.foldl secSheet sh).keys (keyOf s.path) = some (secKey s) ∧
    Dict.get (ss.foldl secSheet sh).values (keyOf s.path) = some (secStyle s) := by
  obtain ⟨as, bs, e, has, hbs⟩ := split_mem hs ha.paths
  have h1 := secs_foreign (keyOf s.path) bs (secSheet (as.foldl secSheet sh) s) (by
    intro x hx
    refine ⟨fun e => (hbs x hx).2 (keyOf_inj e), fun l hl e => ?_⟩
    exact ha.lines x (hbs x hx).1 l hl s hs (keyOf_prefix _ e))
  have h2 := secSheet_own s (as.foldl secSheet sh)
  rw [e, List.foldl_append, List.foldl_cons, h1.1, h1.2, h2.1, h2.2]
  refine ⟨rfl, ?_⟩
  split
  · simp [mark, secStyle]
  · rfl

theorem secs_line (ss : List Section) (ha : Apart ss) (sh : Sheet) (s : Section) (hs : s ∈ ss) (l : Line) (hl : l ∈ s.lines)
    (hnd : (s.lines.map Line.name).Nodup) (hi : ∀ i, Dict.get sh.values (keyOf (s.path ++ [l.name]) ++ [.idx i]) = none) :
    LineKnown (ss.foldl secSheet sh) (keyOf (s.path ++ [l.name])) l := by
  obtain ⟨as, bs, e, has, hbs⟩ := split_mem hs ha.paths
  have h1 : ∀ u : List SKey, u.length ≤ 1 → _ := fun u hu => secs_untouched (keyOf (s.path ++ [l.name]) ++ u) bs
    (secSheet (as.foldl secSheet sh) s) (fun x hx => foreign_line ha hs (hbs x hx).1 (hbs x hx).2 hl u hu)
  have h0 : ∀ u : List SKey, u.length ≤ 1 → _ := fun u hu => secs_untouched (keyOf (s.path ++ [l.name]) ++ u) as sh
    (fun x hx => foreign_line ha hs (has x hx).1 (has x hx).2 hl u hu)
  have h2 := secSheet_in s (as.foldl secSheet sh) l hl hnd (fun i => by rw [(h0 [.idx i] (by simp)).2]; exact hi i)
  rw [e, List.foldl_append, List.foldl_cons]
  have h3 := h1 [] (by simp)
  rw [List.append_nil] at h3
  exact ⟨h3.1.trans h2.1, h3.2.trans h2.2.1, fun i => (h1 [.idx i] (by simp)).2.trans (h2.2.2 i)⟩

/-! ### The tables of a file are apart -/

mutual
theorem node_apart (path : List Text) : ∀ n : Node, n.Ok → Apart (n.sections path)
  | .mk n h ls ss, hok => by
    simp only [Node.Ok] at hok
    obtain ⟨-, h2, h3, -, h5, h6⟩ := hok
    have hnd := List.nodup_append.1 h5
    have ih := nodes_apart (path ++ [n]) ss h6 hnd.2.1
    simp only [Node.sections]
    cases h with
    | none => simpa using ih
    | some x =>
      simp only [List.cons_append, List.nil_append]
      have hlong : ∀ s ∈ allSections (path ++ [n]) ss, ∃ m ∈ ss, path ++ [n] ++ [m.name] <+: s.path := fun s hs => nodes_path _ ss s hs
      refine ⟨?_, ?_⟩
      · rw [List.map_cons, List.nodup_cons]
        refine ⟨?_, ih.paths⟩
        intro hm
        obtain ⟨s, hs, e⟩ := List.mem_map.1 hm
        obtain ⟨m, -, hp⟩ := hlong s hs
        have := hp.length_le
        rw [e] at this
        simp at this
      · intro s hs l hl s' hs' hp
        rcases List.mem_cons.1 hs with rfl | hs
        · rcases List.mem_cons.1 hs' with rfl | hs'
          · have := hp.length_le; simp at this
          · obtain ⟨m, hm, hp'⟩ := hlong s' hs'
            have e := prefix_snoc hp hp'
            exact hnd.2.2 _ (List.mem_map.2 ⟨l, hl, rfl⟩) _ (List.mem_map.2 ⟨m, hm, rfl⟩) e
        · rcases List.mem_cons.1 hs' with rfl | hs'
          · obtain ⟨m, hm, hp'⟩ := hlong s hs
            have h1 := hp'.length_le
            have h2 := hp.length_le
            simp at h1 h2
            omega
          · exact ih.lines s hs l hl s' hs' hp
theorem nodes_apart (path : List Text) : ∀ ns : List Node, allOk ns → (ns.map Node.name).Nodup → Apart (allSections path ns)
  | [], _, _ => ⟨by simp [allSections], by simp [allSections]⟩
  | n :: ns, hok, hnd => by
    simp only [allOk] at hok
    simp only [List.map_cons, List.nodup_cons] at hnd
    have ih1 := node_apart path n hok.1
    have ih2 := nodes_apart path ns hok.2 hnd.2
    have cross : ∀ s ∈ n.sections path, ∀ s' ∈ allSections path ns, ∀ q, s.path <+: q → ¬ s'.path <+: q := by
      intro s hs s' hs' q h1 h2
      obtain ⟨m, hm, hp⟩ := nodes_path path ns s' hs'
      have e := prefix_snoc ((node_path path n s hs).trans h1) (hp.trans h2)
      exact hnd.1 (List.mem_map.2 ⟨m, hm, e.symm⟩)
    simp only [allSections]
    refine ⟨?_, ?_⟩
    · rw [List.map_append, List.nodup_append]
      refine ⟨ih1.paths, ih2.paths, ?_⟩
      intro a ha b hb e
      obtain ⟨s, hs, rfl⟩ := List.mem_map.1 ha
      obtain ⟨s', hs', rfl⟩ := List.mem_map.1 hb
      exact cross s hs s' hs' s.path (List.prefix_refl _) (by rw [e]; exact List.prefix_refl _)
    · intro s hs l hl s' hs' hp
      have hp' : s.path <+: s'.path := (List.prefix_append _ _).trans hp
      rcases List.mem_append.1 hs with hs | hs <;> rcases List.mem_append.1 hs' with hs' | hs'
      · exact ih1.lines s hs l hl s' hs' hp
      · exact cross s hs s' hs' s'.path hp' (List.prefix_refl _)
      · exact cross s' hs' s hs s'.path (List.prefix_refl _) hp'
      · exact ih2.lines s hs l hl s' hs' hp
end

/-! ### Places in a file -/

/-- A place of a file, with the lines and tables that are there. -/
inductive At (d : Doc) : List Text → List Line → List Node → Prop where
  | root : At d [] d.root d.tables
  | sub {p : List Text} {ls : List Line} {ts : List Node} {t : Node} : At d p ls ts → t ∈ ts → At d (p ++ [t.name]) t.lines t.subs

theorem allOk_mem {ns : List Node} (h : allOk ns) {n : Node} (hn : n ∈ ns) : n.Ok := by
  induction ns with
  | nil => simp at hn
  | cons m ns ih =>
    simp only [allOk] at h
    rcases List.mem_cons.1 hn with rfl | hn
    · exact h.1
    · exact ih h.2 hn

theorem allSections_mem {path : List Text} {ns : List Node} {s : Section} :
    s ∈ allSections path ns ↔ ∃ n ∈ ns, s ∈ n.sections path := by
  induction ns with
  | nil => simp [allSections]
  | cons m ns ih => simp [allSections, ih]

theorem node_mem {path : List Text} {t : Node} {s : Section} (h : s ∈ t.sections path) :
    (s.path = path ++ [t.name] ∧ s.lines = t.lines ∧ t.head = some s.head) ∨ s ∈ allSections (path ++ [t.name]) t.subs := by
  cases t with
  | mk n h' ls ss =>
    simp only [Node.sections, List.mem_append] at h
    rcases h with h | h
    · cases h' with
      | none => simp at h
      | some x => simp at h; subst h; exact Or.inl ⟨rfl, rfl, rfl⟩
    · exact Or.inr h

theorem node_own {path : List Text} {t : Node} {x : Head} (h : t.head = some x) : (⟨path ++ [t.name], x, t.lines⟩ : Section) ∈ t.sections path := by
  cases t with
  | mk n h' ls ss => simp only [Node.head] at h; subst h; simp [Node.sections, Node.name, Node.lines]

theorem node_subs {path : List Text} {t : Node} {s : Section} (h : s ∈ allSections (path ++ [t.name]) t.subs) : s ∈ t.sections path := by
  cases t with
  | mk n h' ls ss => simp only [Node.sections, List.mem_append]; exact Or.inr h

theorem node_ok {t : Node} (h : t.Ok) : ReadableStr t.name ∧ (∀ x, t.head = some x → x.Ok ∧ t.lines ≠ []) ∧
    (t.head = none → t.lines = [] ∧ t.subs ≠ []) ∧ (∀ l ∈ t.lines, l.Ok) ∧ (t.lines.map Line.name ++ t.subs.map Node.name).Nodup ∧
    allOk t.subs := by
  cases t; exact h

theorem nodup_name {ts : List Node} (h : (ts.map Node.name).Nodup) {a b : Node} (ha : a ∈ ts) (hb : b ∈ ts) (e : a.name = b.name) : a = b := by
  induction ts with
  | nil => simp at ha
  | cons t ts ih =>
    simp only [List.map_cons, List.nodup_cons] at h
    rcases List.mem_cons.1 ha with ha | ha <;> rcases List.mem_cons.1 hb with hb | hb
    · rw [ha, hb]
    · exact absurd (List.mem_map.2 ⟨b, hb, by rw [← e, ha]⟩) h.1
    · exact absurd (List.mem_map.2 ⟨a, ha, by rw [e, hb]⟩) h.1
    · exact ih h.2 ha hb

structure Place (d : Doc) (p : List Text) (ls : List Line) (ts : List Node) : Prop where
  ok : allOk ts
  lines : ∀ l ∈ ls, l.Ok
  names : (ls.map Line.name ++ ts.map Node.name).Nodup
  sub : ∀ s ∈ allSections p ts, s ∈ d.sections
  all : ∀ s ∈ d.sections, p <+: s.path → (s.path = p ∧ s.lines = ls) ∨ s ∈ allSections p ts
  above : p = [] ∨ ∃ s ∈ d.sections, p <+: s.path

theorem at_place (d : Doc) (hd : d.Tidy) {p : List Text} {ls : List Line} {ts : List Node} (h : At d p ls ts) : Place d p ls ts := by
  induction h with
  | root => exact ⟨hd.tables, hd.root, hd.names, fun s hs => hs, fun s hs _ => Or.inr hs, Or.inl rfl⟩
  | @sub p ls ts t h ht ih =>
    obtain ⟨k1, k2, k3, k4, k5, k6⟩ := node_ok (allOk_mem ih.ok ht)
    have hts := (List.nodup_append.1 ih.names).2.1
    refine ⟨k6, k4, k5, fun s hs => ih.sub s (allSections_mem.2 ⟨t, ht, node_subs hs⟩), ?_, Or.inr ?_⟩
    · intro s hs hp
      rcases ih.all s hs ((List.prefix_append _ _).trans hp) with ⟨e, -⟩ | hm
      · rw [e] at hp
        have := hp.length_le
        simp only [List.length_append, List.length_cons, List.length_nil] at this
        omega
      · obtain ⟨n, hn, hm⟩ := allSections_mem.1 hm
        have e := prefix_snoc (node_path p n s hm) hp
        have := nodup_name hts hn ht e
        subst this
        rcases node_mem hm with h | h
        · exact Or.inl ⟨h.1, h.2.1⟩
        · exact Or.inr h
    · have hne := node_sections_ne p t (allOk_mem ih.ok ht)
      cases hs : t.sections p with
      | nil => exact absurd hs hne
      | cons s rest =>
        have hm : s ∈ t.sections p := by rw [hs]; exact List.mem_cons_self
        exact ⟨s, ih.sub s (allSections_mem.2 ⟨t, ht, hm⟩), node_path p t s hm⟩

/-- What a style sheet has to know about a file. -/
structure Knows (d : Doc) (sh : Sheet) : Prop where
  whole : Dict.get sh.values [] = some { prolog := d.start.text, epilog := d.last.text, sig := some (.table d.data), display := .regular }
  line : ∀ p ls ts, At d p ls ts → ∀ l ∈ ls, LineKnown sh (keyOf (p ++ [l.name])) l
  sec : ∀ p ls ts, At d p ls ts → ∀ t ∈ ts, ∀ x, t.head = some x →
    Dict.get sh.keys (keyOf (p ++ [t.name])) = some (secKey ⟨p ++ [t.name], x, t.lines⟩) ∧
    Dict.get sh.values (keyOf (p ++ [t.name])) = some (secStyle ⟨p ++ [t.name], x, t.lines⟩)
  hidden : ∀ p ls ts, At d p ls ts → ∀ t ∈ ts, t.head = none →
    Dict.get sh.keys (keyOf (p ++ [t.name])) = none ∧ Dict.get sh.values (keyOf (p ++ [t.name])) = some hiddenMark
  none : ∀ p ls ts, At d p ls ts → ∀ n, n ∉ ls.map Line.name → n ∉ ts.map Node.name → ∀ u,
    Dict.get sh.keys (keyOf (p ++ [n]) ++ u) = none ∧ Dict.get sh.values (keyOf (p ++ [n]) ++ u) = none

theorem docSheet_get (d : Doc) (k : List SKey) (hk : k ≠ []) :
    Dict.get (docSheet d).keys k = Dict.get (d.sections.foldl secSheet (d.root.foldl (lineSheet []) {})).keys k ∧
    Dict.get (docSheet d).values k = Dict.get (d.sections.foldl secSheet (d.root.foldl (lineSheet []) {})).values k := by
  simp only [docSheet, setValue, Dict.get_put, if_neg (fun e : [] = k => hk e.symm), and_self]

/-- Lookups below names that no line of the root has. -/
theorem root_out (ls : List Line) (k : List SKey) (hn : ∀ l ∈ ls, ¬ [SKey.name l.name] <+: k) :
    Dict.get (ls.foldl (lineSheet []) {}).keys k = none ∧ Dict.get (ls.foldl (lineSheet []) {}).values k = none := by
  have := lines_keys_out [] k ls {} hn
  rw [this.1, this.2]
  exact ⟨rfl, rfl⟩

theorem docSheet_knows (d : Doc) (hd : d.Tidy) : Knows d (docSheet d) := by
  have hnd := List.nodup_append.1 hd.names
  have ha : Apart d.sections := nodes_apart [] d.tables hd.tables hnd.2.1
  have hgood : ∀ s ∈ d.sections, Section.Good s := nodes_good [] (by simp) d.tables hd.tables
  have hroot : ∀ l ∈ d.root, ∀ s ∈ d.sections, ¬ [l.name] <+: s.path := by
    intro l hl s hs h
    obtain ⟨n, hn, hp⟩ := nodes_path [] d.tables s hs
    have e : l.name = n.name := prefix_snoc (p := []) h hp
    exact hnd.2.2 _ (List.mem_map.2 ⟨l, hl, rfl⟩) _ (List.mem_map.2 ⟨n, hn, rfl⟩) e
  have hroot' : ∀ s ∈ d.sections, ∀ k, k <+: s.path → k ≠ [] → ∀ u, ∀ l ∈ d.root, ¬ [SKey.name l.name] <+: keyOf k ++ u := by
    intro s hs k hk hne u l hl h
    cases k with
    | nil => exact absurd rfl hne
    | cons a k =>
      simp only [keyOf, List.map_cons, List.cons_append, List.cons_prefix_cons, SKey.name.injEq] at h
      apply hroot l hl s hs
      obtain ⟨v, hv⟩ := hk
      rw [← hv, h.1]
      simp
  have hsnoc : ∀ (p : List Text) (n : Text) (u : List SKey), keyOf (p ++ [n]) ++ u ≠ [] := by
    intro p n u; simp [keyOf]
  refine ⟨?_, ?_, ?_, ?_, ?_⟩
  · simp only [docSheet, setValue, Dict.get_put, if_true]
  · intro p ls ts hat l hl
    cases hat with
    | root =>
      have hk := lines_keys_in [] d.root {} l hl hnd.1 (fun i => rfl)
      have hu : ∀ u : List SKey, _ := fun u => secs_untouched (.name l.name :: u) d.sections (d.root.foldl (lineSheet []) {}) (by
        intro s hs
        have hp : ¬ SKey.name l.name :: u <+: keyOf s.path := by
          intro h
          apply hroot l hl s hs
          apply keyOf_prefix
          refine List.IsPrefix.trans ?_ h
          simp [keyOf]
        refine ⟨⟨fun e => hp (by rw [e]; exact List.prefix_refl _), ?_⟩, hp⟩
        intro l' hl' h
        obtain ⟨n, hn, hpn⟩ := nodes_path [] d.tables s hs
        have h1 : keyOf ([] ++ [n.name]) <+: .name l.name :: u := (keyOf_mono (hpn.trans (List.prefix_append _ _))).trans h
        simp only [List.nil_append, keyOf, List.map_cons, List.map_nil, List.cons_prefix_cons, SKey.name.injEq] at h1
        exact hnd.2.2 _ (List.mem_map.2 ⟨l, hl, rfl⟩) _ (List.mem_map.2 ⟨n, hn, rfl⟩) h1.1.symm)
      have hg : ∀ u : List SKey, _ := fun u => docSheet_get d (.name l.name :: u) (by simp)
      exact ⟨((hg []).1.trans (hu []).1).trans hk.1, ((hg []).2.trans (hu []).2).trans hk.2.1,
        fun i => ((hg [.idx i]).2.trans (hu [.idx i]).2).trans (hk.2.2 i)⟩
    | @sub p ls ts t hat ht =>
      have hp := at_place d hd hat
      obtain ⟨k1, k2, k3, k4, k5, k6⟩ := node_ok (allOk_mem hp.ok ht)
      cases hh : t.head with
      | none => rw [(k3 hh).1] at hl; simp at hl
      | some x =>
        have hs : (⟨p ++ [t.name], x, t.lines⟩ : Section) ∈ d.sections := hp.sub _ (allSections_mem.2 ⟨t, ht, node_own hh⟩)
        have hk := secs_line d.sections ha (d.root.foldl (lineSheet []) {}) ⟨p ++ [t.name], x, t.lines⟩ hs l hl
          (List.nodup_append.1 k5).1 (by
            intro i
            refine (root_out d.root _ ?_).2
            show ∀ l' ∈ d.root, ¬ [SKey.name l'.name] <+: keyOf (p ++ [t.name] ++ [l.name]) ++ [.idx i]
            rw [keyOf_append, List.append_assoc]
            exact hroot' _ hs (p ++ [t.name]) (List.prefix_refl _) (by simp) _)
        have hg : ∀ u : List SKey, _ := fun u => docSheet_get d (keyOf (p ++ [t.name] ++ [l.name]) ++ u) (hsnoc _ _ _)
        have h0 := hg []
        rw [List.append_nil] at h0
        exact ⟨h0.1.trans hk.1, h0.2.trans hk.2.1, fun i => (hg [.idx i]).2.trans (hk.2.2 i)⟩
  · intro p ls ts hat t ht x hx
    have hp := at_place d hd hat
    have hs : (⟨p ++ [t.name], x, t.lines⟩ : Section) ∈ d.sections := hp.sub _ (allSections_mem.2 ⟨t, ht, node_own hx⟩)
    have h := secs_own d.sections ha (d.root.foldl (lineSheet []) {}) _ hs
    have hg := docSheet_get d (keyOf (p ++ [t.name])) (by simp [keyOf])
    exact ⟨hg.1.trans h.1, hg.2.trans h.2⟩
  · intro p ls ts hat t ht hx
    have hp := at_place d hd hat
    have hp' := at_place d hd (At.sub hat ht)
    obtain ⟨k1, k2, k3, k4, k5, k6⟩ := node_ok (allOk_mem hp.ok ht)
    have hno : ∀ s ∈ d.sections, s.path ≠ p ++ [t.name] := by
      intro s hs e
      have hpre : p <+: s.path := by rw [e]; exact List.prefix_append _ _
      rcases hp.all s hs hpre with ⟨e2, -⟩ | hm
      · rw [e2] at e; have := congrArg List.length e; simp at this
      · obtain ⟨n, hn, hm⟩ := allSections_mem.1 hm
        have en := prefix_snoc (node_path p n s hm) (by rw [e]; exact List.prefix_refl _)
        have := nodup_name (List.nodup_append.1 hp.names).2.1 hn ht en
        subst this
        rcases node_mem hm with h | h
        · rw [h.2.2] at hx; simp at hx
        · obtain ⟨m, -, hq⟩ := nodes_path _ _ s h
          have := hq.length_le
          rw [e] at this
          simp at this
    obtain ⟨s0, hs0, hps0⟩ : ∃ s ∈ d.sections, p ++ [t.name] <+: s.path := by
      rcases hp'.above with h | h
      · simp at h
      · exact h
    have hf := secs_foreign (keyOf (p ++ [t.name])) d.sections (d.root.foldl (lineSheet []) {}) (by
      intro s hs
      refine ⟨fun e => hno s hs (keyOf_inj e), ?_⟩
      intro l hl e
      exact ha.lines s hs l hl s0 hs0 ((keyOf_prefix _ e).trans hps0))
    have hr := root_out d.root (keyOf (p ++ [t.name])) (by
      have := hroot' s0 hs0 (p ++ [t.name]) hps0 (by simp) []
      rwa [List.append_nil] at this)
    have hg := docSheet_get d (keyOf (p ++ [t.name])) (by simp [keyOf])
    refine ⟨(hg.1.trans hf.1).trans hr.1, ?_⟩
    rw [hg.2, hf.2, if_pos, hr.2]
    · rfl
    · refine ⟨s0, hs0, by simp [keyOf], ?_⟩
      have hlt : (p ++ [t.name]).length < s0.path.length := by
        rcases Nat.lt_or_ge (p ++ [t.name]).length s0.path.length with h | h
        · exact h
        · exact absurd (hps0.eq_of_length_le h).symm (hno s0 hs0)
      have e : (keyOf s0.path).dropLast = keyOf s0.path.dropLast := by simp [keyOf]
      rw [e]
      apply keyOf_mono
      rw [List.dropLast_eq_take, List.prefix_take_iff]
      exact ⟨hps0, by omega⟩
  · intro p ls ts hat n hn1 hn2 u
    have hp := at_place d hd hat
    have hnp : ∀ s ∈ d.sections, ¬ p ++ [n] <+: s.path := by
      intro s hs h
      rcases hp.all s hs ((List.prefix_append _ _).trans h) with ⟨e, -⟩ | hm
      · rw [e] at h; have := h.length_le; simp only [List.length_append, List.length_cons, List.length_nil] at this; omega
      · obtain ⟨m, hm, hq⟩ := nodes_path p ts s hm
        exact hn2 (List.mem_map.2 ⟨m, hm, prefix_snoc hq h⟩)
    have hut := secs_untouched (keyOf (p ++ [n]) ++ u) d.sections (d.root.foldl (lineSheet []) {}) (by
      intro s hs
      have h2 : ¬ keyOf (p ++ [n]) ++ u <+: keyOf s.path := fun e => hnp s hs (keyOf_prefix _ ((List.prefix_append _ _).trans e))
      refine ⟨⟨fun e => h2 (by rw [e]; exact List.prefix_refl _), ?_⟩, h2⟩
      intro l hl e
      have key : s.path ++ [l.name] = p ++ [n] → False := by
        intro e
        have e' := List.append_inj' e rfl
        rcases hp.all s hs (by rw [e'.1]; exact List.prefix_refl _) with ⟨-, hls⟩ | hm
        · rw [hls] at hl
          have : l.name = n := by simpa using e'.2
          exact hn1 (List.mem_map.2 ⟨l, hl, this⟩)
        · obtain ⟨m, -, hq⟩ := nodes_path p ts s hm
          have := hq.length_le
          rw [e'.1] at this; simp only [List.length_append, List.length_cons, List.length_nil] at this; omega
      have h3 : keyOf (s.path ++ [l.name]) <+: keyOf (p ++ [n]) ∨ keyOf (p ++ [n]) <+: keyOf (s.path ++ [l.name]) :=
        List.prefix_or_prefix_of_prefix e (List.prefix_append _ _)
      rcases h3 with h3 | h3
      · rcases List.prefix_concat_iff.1 (keyOf_prefix _ h3) with h5 | h5
        · exact key h5
        · rcases hp.above with h | ⟨s0, hs0, hq⟩
          · rw [h] at h5; simp at h5
          · exact ha.lines s hs l hl s0 hs0 (h5.trans hq)
      · rcases List.prefix_concat_iff.1 (keyOf_prefix _ h3) with h5 | h5
        · exact key h5.symm
        · exact hnp s hs h5)
    have hr := root_out d.root (keyOf (p ++ [n]) ++ u) (by
      rcases hp.above with h | ⟨s0, hs0, hq⟩
      · subst h
        intro l hl h
        simp only [List.nil_append, keyOf, List.map_cons, List.map_nil, List.cons_append, List.cons_prefix_cons, SKey.name.injEq] at h
        generalize hz : ([] : List Text) = z at hat
        cases hat with
        | root => exact hn1 (List.mem_map.2 ⟨l, hl, h.1⟩)
        | sub _ _ => simp at hz
      · by_cases hpe : p = []
        · subst hpe
          intro l hl h
          simp only [List.nil_append, keyOf, List.map_cons, List.map_nil, List.cons_append, List.cons_prefix_cons, SKey.name.injEq] at h
          generalize hz : ([] : List Text) = z at hat
          cases hat with
          | root => exact hn1 (List.mem_map.2 ⟨l, hl, h.1⟩)
          | sub _ _ => simp at hz
        · rw [keyOf_append, List.append_assoc]
          exact hroot' s0 hs0 p hq hpe _)
    have hg := docSheet_get d (keyOf (p ++ [n]) ++ u) (hsnoc _ _ _)
    exact ⟨(hg.1.trans hut.1).trans hr.1, (hg.2.trans hut.2).trans hr.2⟩

end TomlStyle
end Pkm
