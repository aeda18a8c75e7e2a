import Verif.Dist.Metadata
import Verif.Projects.DependenciesProps
set_option linter.unusedVariables false
set_option linter.unusedSimpArgs false
/-
Property C67: package metadata survive saving and loading, and the metadata of a built project are those of the project.
-/
namespace Pkm
namespace Spec
open Meta

/-- The name of a field: printable characters other than blank and colon. -/
def FieldName (k : Text) : Prop := k ≠ [] ∧ ∀ c ∈ k, fieldChar c = true

/-- A field whose value fits the format: a list for the fields that may be repeated, one text for the others, or several. -/
inductive FieldOk (k : Text) : Val → Prop
  | multi (l : List Text) : k ∈ multiFields → l ≠ [] → (∀ x ∈ l, Short k x ∨ x = []) → FieldOk k (.list l)
  | one (s : Text) : k ∉ multiFields → Short k s ∨ s = [] → FieldOk k (.text s)
  | many (a b : Text) (l : List Text) : k ∉ multiFields → (∀ x ∈ a :: b :: l, Short k x) → FieldOk k (.list (a :: b :: l))

/-- Nothing is given for the field. -/
def Absent (v : Val) : Prop := v = .nothing ∨ v = .list []

instance (v : Val) : Decidable (Absent v) := inferInstanceAs (Decidable (_ ∨ _))

/-- The fields for which something is given, except the description. -/
def withoutDescription (d : Data) : Data := d.filter (fun e => decide (e.1 ≠ descriptionKey ∧ ¬ Absent e.2))

end Spec

namespace Meta
open Spec
open Config (splitAt isBreak splitAt_append)

/-! ### Lines -/

/-- The line of a header. -/
def lineOf (h : Text × Text) : Text := if h.2 = [] then h.1 ++ [':'] else h.1 ++ ':' :: ' ' :: h.2

/-- A header that fits. -/
def Good (h : Text × Text) : Prop := FieldName h.1 ∧ (Short h.1 h.2 ∨ h.2 = [])

theorem fold_good (m : Mail) (h : Text × Text) (hg : Good h) : m.fold h.1 h.2 = lineOf h ++ ['\n'] := by
  obtain ⟨k, v⟩ := h
  rcases hg.2 with hs | hs
  · have hv : v ≠ [] := hs.1
    simp only [lineOf, hv, if_false]
    rw [m.short k v hs]
    simp
  · simp only at hs
    subst hs
    simp [lineOf, m.empty]

theorem name_break (k : Text) (h : FieldName k) : '\n' ∉ k := by
  intro hc
  have := h.2 _ hc
  revert this; decide

theorem short_break (k v : Text) (h : Short k v ∨ v = []) : ∀ c ∈ v, isBreak c = false := by
  rcases h with h | rfl
  · intro c hc
    have := h.2.2.1 c hc
    have h1 : ¬ c.toNat ≤ 13 := by omega
    have h2 : ¬ c.toNat ≤ 30 := by omega
    simp [isBreak, h1, h2]
  · simp

theorem line_break (h : Text × Text) (hg : Good h) : '\n' ∉ lineOf h := by
  have h1 := name_break h.1 hg.1
  have h2 : '\n' ∉ h.2 := by
    intro hc
    have := short_break h.1 h.2 hg.2 _ hc
    revert this; decide
  unfold lineOf
  split <;> simp [h1, h2]

theorem split_lines (ls : List Text) (p : Text) (h : ∀ l ∈ ls, '\n' ∉ l) :
    splitAt (· == '\n') (ls.flatMap (fun l => l ++ ['\n']) ++ p) = ls ++ splitAt (· == '\n') p := by
  induction ls with
  | nil => rfl
  | cons l ls ih =>
    have hl : ∀ c ∈ l, (c == '\n') = false := by
      intro c hc; simp; rintro rfl; exact h l (by simp) hc
    have e : (l :: ls).flatMap (fun l => l ++ ['\n']) ++ p = l ++ '\n' :: (ls.flatMap (fun l => l ++ ['\n']) ++ p) := by simp
    rw [e, splitAt_append _ l '\n' _ hl (by decide), ih (fun x hx => h x (by simp [hx]))]
    rfl

theorem dropWhile_name (k r : Text) (h : ∀ c ∈ k, fieldChar c = true) : (k ++ ':' :: r).dropWhile fieldChar = ':' :: r := by
  induction k with
  | nil => simp only [List.nil_append, List.dropWhile]; rw [show fieldChar ':' = false from by decide]
  | cons c k ih => simp [List.dropWhile, h c (by simp), ih (fun x hx => h x (by simp [hx]))]

theorem line_form (h : Text × Text) : ∃ r, lineOf h = h.1 ++ ':' :: r ∧
    (r.dropWhile (fun c => c == ' ' || c == '\t') = h.2.dropWhile (fun c => c == ' ' || c == '\t')) := by
  unfold lineOf
  split
  · rename_i e; exact ⟨[], by simp, by simp [e]⟩
  · exact ⟨' ' :: h.2, rfl, by simp [List.dropWhile]⟩

theorem isHeader_line (h : Text × Text) (hg : FieldName h.1) : isHeader (lineOf h) = true := by
  obtain ⟨r, e, _⟩ := line_form h
  rw [e, isHeader, dropWhile_name _ _ hg.2]
  rfl

theorem not_continuation (h : Text × Text) (hg : FieldName h.1) : isContinuation (lineOf h) = false := by
  obtain ⟨r, e, _⟩ := line_form h
  cases hk : h.1 with
  | nil => exact absurd hk hg.1
  | cons c k =>
    have hc := hg.2 c (by simp [hk])
    have h1 : c ≠ ' ' := by rintro rfl; revert hc; decide
    have h2 : c ≠ '\t' := by rintro rfl; revert hc; decide
    rw [e, hk]
    simp [isContinuation, h1, h2]

theorem takeWhile_colon (k r : Text) (h : ∀ c ∈ k, fieldChar c = true) :
    (k ++ ':' :: r).takeWhile (· != ':') = k ∧ (k ++ ':' :: r).dropWhile (· != ':') = ':' :: r := by
  induction k with
  | nil => simp [List.takeWhile, List.dropWhile]
  | cons c k ih =>
    have hc := h c (by simp)
    have h1 : c ≠ ':' := by rintro rfl; revert hc; decide
    have := ih (fun x hx => h x (by simp [hx]))
    simp [List.takeWhile, List.dropWhile, h1, this.1, this.2]

theorem split_line (h : Text × Text) (hk : FieldName h.1)
    (hv : h.2.dropWhile (fun c => c == ' ' || c == '\t') = h.2) : splitHeader (lineOf h) = h := by
  obtain ⟨r, e, hr⟩ := line_form h
  have := takeWhile_colon h.1 r hk.2
  rw [e]
  simp only [splitHeader, this.1, this.2, List.drop_succ_cons, List.drop_zero]
  rw [hr, hv]

theorem no_lead (v : Text) (h1 : v.head? ≠ some ' ') (h2 : v.head? ≠ some '\t') :
    v.dropWhile (fun c => c == ' ' || c == '\t') = v := by
  cases v with
  | nil => rfl
  | cons c v =>
    have e : (c == ' ' || c == '\t') = false := by
      simp only [List.head?_cons, ne_eq, Option.some.injEq] at h1 h2
      simp [h1, h2]
    simp only [List.dropWhile, e]

theorem split_good (h : Text × Text) (hg : Good h) : splitHeader (lineOf h) = h := by
  refine split_line h hg.1 ?_
  rcases hg.2 with hs | hs
  · refine no_lead _ hs.2.2.2.1 ?_
    intro hc
    have := hs.2.2.1 '\t' (by
      cases hv : h.2 with
      | nil => simp [hv] at hc
      | cons c v => simp [hv] at hc; simp [hc])
    revert this; decide
  · simp [hs]

theorem parse_lines (hs : List (Text × Text)) (h : ∀ x ∈ hs, Good x) : parseHeaders (hs.map lineOf) = hs := by
  induction hs with
  | nil => rfl
  | cons x hs ih =>
    have hg := h x (by simp)
    have hm : (hs.map lineOf).takeWhile isContinuation = [] := by
      cases hs with
      | nil => rfl
      | cons y hs => simp [List.takeWhile, not_continuation y (h y (by simp)).1]
    simp only [List.map_cons, parseHeaders, not_continuation x hg.1, hm, split_good x hg,
      ih (fun y hy => h y (by simp [hy]))]
    simp [hg.1.1]

theorem headerLines_good (hs : List (Text × Text)) (h : ∀ x ∈ hs, Good x) (ls : List Text) :
    headerLines (hs.map lineOf ++ [] :: ls) = hs.map lineOf := by
  induction hs with
  | nil => simp [headerLines, List.takeWhile, isHeader, isContinuation]
  | cons x hs ih =>
    have := ih (fun y hy => h y (by simp [hy]))
    simp only [headerLines] at this ⊢
    simp only [List.map_cons, List.cons_append, List.takeWhile, isHeader_line x (h x (by simp)).1, Bool.true_or, this]

theorem read_good (m : Mail) (hs : List (Text × Text)) (h : ∀ x ∈ hs, Good x) (p : Text) :
    read ((hs.flatMap (fun h => m.fold h.1 h.2)) ++ '\n' :: p) = hs.foldl collectOne [] := by
  have e : hs.flatMap (fun h => m.fold h.1 h.2) = (hs.map lineOf).flatMap (fun l => l ++ ['\n']) := by
    induction hs with
    | nil => rfl
    | cons x hs ih =>
      simp only [List.flatMap_cons, List.map_cons, fold_good m x (h x (by simp)), ih (fun y hy => h y (by simp [hy]))]
  have e2 : splitAt (· == '\n') ('\n' :: p) = [] :: splitAt (· == '\n') p := by simp [splitAt]
  rw [read, e, split_lines _ _ (by
    intro l hl
    obtain ⟨x, hx, rfl⟩ := List.mem_map.1 hl
    exact line_break x (h x hx)), e2, headerLines_good hs h, parse_lines hs h]

/-! ### Fields -/

/-- The headers of a field. -/
def fieldHeaders (e : Text × Val) : List (Text × Text) :=
  match e.2 with
  | .nothing => []
  | .text s => [(e.1, s)]
  | .list l => l.map (fun x => (e.1, x))

theorem storable_short (k v : Text) (h : Short k v ∨ v = []) : storable v = true := by
  have := short_break k v h
  simp only [storable, Bool.not_eq_true', List.any_eq_false]
  intro c hc
  simp [this c (List.dropLast_subset _ hc)]

theorem storeList_ok (k : Text) (l : List Text) (h : ∀ x ∈ l, Short k x ∨ x = []) :
    storeList k l = .ok (l.map (fun x => (k, x))) := by
  induction l with
  | nil => rfl
  | cons x l ih =>
    simp [storeList, storable_short k x (h x (by simp)), ih (fun y hy => h y (by simp [hy])), Except.map]

theorem fieldOk_list {k : Text} {l : List Text} (h : FieldOk k (.list l)) : ∀ x ∈ l, Short k x ∨ x = [] := by
  cases h with
  | multi _ _ _ h => exact h
  | many a b l _ h => exact fun x hx => .inl (h x hx)

theorem headersOf_ok (k : Text) (v : Val) (hk : k ≠ descriptionKey) (h : FieldOk k v) :
    headersOf k v = .ok (fieldHeaders (k, v)) := by
  cases v with
  | nothing => cases h
  | text s =>
    cases h with
    | one _ hm hs => simp [headersOf, hm, hk, storable_short k s hs, fieldHeaders]
  | list l => simp [headersOf, hk, storeList_ok k l (fieldOk_list h), fieldHeaders]

theorem headersOf_absent (k : Text) (v : Val) (h : Absent v) : headersOf k v = .ok [] := by
  rcases h with rfl | rfl
  · rfl
  · simp [headersOf, storeList]

theorem headersOf_description (v : Val) : headersOf descriptionKey v = .ok [] := by
  have : descriptionKey ∉ multiFields := by decide
  cases v <;> simp [headersOf, this]

theorem headers_ok (d : Data) (h : ∀ e ∈ d, e.1 ≠ descriptionKey → ¬ Absent e.2 → FieldName e.1 ∧ FieldOk e.1 e.2) :
    headers d = .ok ((withoutDescription d).flatMap fieldHeaders) := by
  induction d with
  | nil => rfl
  | cons e d ih =>
    obtain ⟨k, v⟩ := e
    have ih := ih (fun x hx => h x (by simp [hx]))
    by_cases hk : k = descriptionKey
    · subst hk
      simp only [headers, headersOf_description, ih, Except.map]
      simp [withoutDescription]
    · by_cases ha : Absent v
      · simp only [headers, headersOf_absent k v ha, ih, Except.map]
        simp [withoutDescription, ha]
      · simp only [headers, headersOf_ok k v hk (h (k, v) (by simp) hk ha).2, ih, Except.map]
        simp [withoutDescription, hk, ha]

theorem fieldHeaders_good (e : Text × Val) (hn : FieldName e.1) (h : FieldOk e.1 e.2) : ∀ x ∈ fieldHeaders e, Good x := by
  obtain ⟨k, v⟩ := e
  intro x hx
  cases v with
  | nothing => cases h
  | text s =>
    cases h with
    | one _ _ hs =>
      simp [fieldHeaders] at hx
      subst hx
      exact ⟨hn, hs⟩
  | list l =>
    simp only [fieldHeaders, List.mem_map] at hx
    obtain ⟨y, hy, rfl⟩ := hx
    exact ⟨hn, fieldOk_list h y hy⟩

theorem get_append_new {V : Type} (d : Dict Text V) (k : Text) (v : V) (h : k ∉ Dict.keys d) :
    Dict.get (d ++ [(k, v)]) k = some v ∧ (∀ w, Dict.put (d ++ [(k, v)]) k w = d ++ [(k, w)]) ∧
    Dict.get d k = none ∧ Dict.put d k v = d ++ [(k, v)] := by
  induction d with
  | nil => simp [Dict.get, Dict.put]
  | cons e d ih =>
    obtain ⟨a, w⟩ := e
    have h1 : ¬ a = k := by rintro rfl; exact h (by simp [Dict.keys])
    have := ih (fun hk => h (by simp [Dict.keys] at hk ⊢; exact .inr hk))
    simp [Dict.get, Dict.put, h1, this]

theorem collect_more (d : Data) (k : Text) (hk : k ∉ Dict.keys d) : ∀ (l acc : List Text),
    (l.map (fun x => (k, x))).foldl collectOne (d ++ [(k, Val.list acc)]) = d ++ [(k, .list (acc ++ l))]
  | [], acc => by simp
  | x :: l, acc => by
    have hg := get_append_new d k (Val.list acc) hk
    have : collectOne (d ++ [(k, Val.list acc)]) (k, x) = d ++ [(k, .list (acc ++ [x]))] := by
      simp only [collectOne, hg.1, hg.2.1]
      split <;> rfl
    simp only [List.map_cons, List.foldl_cons, this]
    rw [collect_more d k hk l (acc ++ [x])]
    simp

theorem collect_field (d : Data) (e : Text × Val) (hk : e.1 ∉ Dict.keys d) (h : FieldOk e.1 e.2) :
    (fieldHeaders e).foldl collectOne d = d ++ [e] := by
  obtain ⟨k, v⟩ := e
  simp only at hk h
  cases h with
  | multi l hm hl hs =>
    cases l with
    | nil => exact absurd rfl hl
    | cons x l =>
      have hg := get_append_new d k (Val.list [x]) hk
      have : collectOne d (k, x) = d ++ [(k, .list [x])] := by simp [collectOne, hm, hg.2.2.1, hg.2.2.2]
      simp only [fieldHeaders, List.map_cons, List.foldl_cons, this]
      rw [collect_more d k hk l [x]]
      rfl
  | one s hm hs =>
    have hg := get_append_new d k (Val.text s) hk
    simp [fieldHeaders, collectOne, hm, hg.2.2.1, hg.2.2.2]
  | many a b l hm hs =>
    have hg := get_append_new d k (Val.text a) hk
    have h1 : collectOne d (k, a) = d ++ [(k, .text a)] := by simp [collectOne, hm, hg.2.2.1, hg.2.2.2]
    have h2 : collectOne (d ++ [(k, .text a)]) (k, b) = d ++ [(k, .list [a, b])] := by
      simp only [collectOne, hm, if_false, hg.1, (hs a (by simp)).1, hg.2.1]
    simp only [fieldHeaders, List.map_cons, List.foldl_cons, h1, h2]
    rw [collect_more d k hk l [a, b]]
    rfl

theorem collect_all (es : Data) : ∀ (d : Data), (Dict.keys (d ++ es)).Nodup → (∀ e ∈ es, FieldOk e.1 e.2) →
    (es.flatMap fieldHeaders).foldl collectOne d = d ++ es := by
  induction es with
  | nil => intro d _ _; simp
  | cons e es ih =>
    intro d hn h
    have hk : e.1 ∉ Dict.keys d := by
      simp only [Dict.keys, List.map_append, List.map_cons, List.nodup_append] at hn
      intro hc
      exact hn.2.2 _ hc e.1 (by simp) rfl
    rw [List.flatMap_cons, List.foldl_append, collect_field d e hk (h e (by simp)),
      ih (d ++ [e]) (by simpa [Dict.keys] using hn) (fun x hx => h x (by simp [hx]))]
    simp

/-- C67: metadata whose values fit the format are read back as they were written, except for the description. What is missing:
the description (`metadata_description_violated`), long values (`metadata_long_violated`), texts for fields
that may be repeated and lists with one element for the others (`metadata_keyword_violated`). -/
theorem metadata_round_trip_partial (m : Mail) (d : Data) (hw : (Dict.keys d).Nodup)
    (h : ∀ e ∈ d, e.1 ≠ descriptionKey → ¬ Absent e.2 → FieldName e.1 ∧ FieldOk e.1 e.2) :
    ∃ text, write m d = .ok text ∧ read text = withoutDescription d := by
  refine ⟨_, by rw [write, headers_ok d h]; rfl, ?_⟩
  have hf : ∀ e ∈ withoutDescription d, FieldName e.1 ∧ FieldOk e.1 e.2 := by
    intro e he
    simp only [withoutDescription, List.mem_filter, decide_eq_true_eq] at he
    exact h e he.1 he.2.1 he.2.2
  rw [read_good m _ (by
    intro x hx
    obtain ⟨e, he, hx⟩ := List.mem_flatMap.1 hx
    exact fieldHeaders_good e (hf e he).1 (hf e he).2 x hx)]
  have hn : (Dict.keys (withoutDescription d)).Nodup :=
    List.Sublist.nodup (List.Sublist.map _ List.filter_sublist) hw
  simpa using collect_all (withoutDescription d) [] (by simpa using hn) (fun e he => (hf e he).2)

theorem short_of (k v : Text) (h : v ≠ [] ∧ k.length + 2 + v.length ≤ 78 ∧ (∀ c ∈ v, 32 ≤ c.toNat ∧ c.toNat ≤ 126) ∧
    v.head? ≠ some ' ' ∧ v.getLast? ≠ some ' ' ∧ ∀ c ∈ v, c ≠ '?') : Short k v := by
  obtain ⟨h1, h2, h3, h4, h5, h6⟩ := h
  refine ⟨h1, h2, h3, h4, h5, ?_⟩
  rintro ⟨a, b, rfl⟩
  exact h6 '?' (by simp) rfl

/-- The metadata of a package with a requirement, two keywords and a description meet the hypotheses. -/
example : let d : Data := [(t!"Name", .text t!"a"), (t!"Description", .text t!"text\nmore"), (t!"Keywords", .list [t!"x", t!"y"]),
      (t!"Classifier", .list []), (t!"Requires-Dist", .list [t!"b >=1"])]
    (Dict.keys d).Nodup ∧ (∀ e ∈ d, e.1 ≠ descriptionKey → ¬ Absent e.2 → FieldName e.1 ∧ FieldOk e.1 e.2) ∧
    withoutDescription d = [(t!"Name", .text t!"a"), (t!"Keywords", .list [t!"x", t!"y"]), (t!"Requires-Dist", .list [t!"b >=1"])] := by
  refine ⟨by decide, ?_, by decide⟩
  intro e he
  simp only [List.mem_cons, List.not_mem_nil, or_false] at he
  rcases he with rfl | rfl | rfl | rfl | rfl <;> intro hd ha
  · exact ⟨⟨by decide, by decide⟩, .one _ (by decide) (.inl (short_of _ _ (by decide)))⟩
  · exact absurd rfl hd
  · refine ⟨⟨by decide, by decide⟩, .many _ _ _ (by decide) ?_⟩
    intro x hx
    simp only [List.mem_cons, List.not_mem_nil, or_false] at hx
    rcases hx with rfl | rfl <;> exact short_of _ _ (by decide)
  · exact absurd (.inr rfl) ha
  · refine ⟨⟨by decide, by decide⟩, .multi _ (by decide) (by decide) ?_⟩
    intro x hx
    simp only [List.mem_cons, List.not_mem_nil, or_false] at hx
    subst hx
    exact .inl (short_of _ _ (by decide))

theorem get_filter (d : Data) (hw : (Dict.keys d).Nodup) (p : Text × Val → Bool) (k : Text) :
    Dict.get (d.filter p) k = (Dict.get d k).bind (fun v => if p (k, v) then some v else none) := by
  induction d with
  | nil => rfl
  | cons e d ih =>
    obtain ⟨a, v⟩ := e
    simp only [Dict.keys, List.map_cons, List.nodup_cons] at hw
    have ih := ih hw.2
    by_cases ha : a = k
    · subst ha
      have hn : Dict.get (d.filter p) a = none := by
        rw [ih, (Dict.get_none_iff d a).2 hw.1]; rfl
      cases hp : p (a, v)
      · rw [List.filter_cons_of_neg (by simp [hp]), hn]
        simp [Dict.get, hp]
      · rw [List.filter_cons_of_pos (by simp [hp])]
        simp [Dict.get, hp]
    · cases hp : p (a, v)
      · rw [List.filter_cons_of_neg (by simp [hp]), ih]
        simp [Dict.get, ha]
      · rw [List.filter_cons_of_pos (by simp [hp])]
        simp only [Dict.get, ha, if_false, ih]

/-- C67 fails for the description: whatever it is, there is none after saving and loading. -/
theorem metadata_description_violated (m : Mail) (d : Data) (hw : (Dict.keys d).Nodup)
    (h : ∀ e ∈ d, e.1 ≠ descriptionKey → ¬ Absent e.2 → FieldName e.1 ∧ FieldOk e.1 e.2) :
    ∃ text, write m d = .ok text ∧ (read text).get descriptionKey = none := by
  obtain ⟨text, h1, h2⟩ := metadata_round_trip_partial m d hw h
  refine ⟨text, h1, ?_⟩
  rw [h2, withoutDescription, get_filter d hw]
  cases Dict.get d descriptionKey <;> simp

/-- C67 fails for a list with one element in a field such as `Keywords`: it becomes a text. -/
theorem metadata_keyword_violated (m : Mail) (x : Text) (h : Short t!"Keywords" x) :
    ∃ text, write m [(t!"Keywords", .list [x])] = .ok text ∧ read text = [(t!"Keywords", .text x)] := by
  have hs := storable_short _ x (.inl h)
  refine ⟨_, by simp [write, headers, headersOf, storeList, hs, descriptionKey, Except.map]; rfl, ?_⟩
  have := read_good m [(t!"Keywords", x)] (by
    intro y hy
    simp at hy
    subst hy
    exact ⟨(by constructor <;> decide : FieldName t!"Keywords"), .inl h⟩) (payload [(t!"Keywords", .list [x])])
  simp only [List.flatMap_cons, List.flatMap_nil, List.append_nil] at this
  rw [this]
  simp [collectOne, Dict.get, Dict.put, multiFields]

theorem read_two (k a b p : Text) (hk : FieldName k) (ha : a ≠ []) (ha1 : a.head? ≠ some ' ' ∧ a.head? ≠ some '\t')
    (ha2 : ∀ c ∈ a, isBreak c = false) (hb2 : ∀ c ∈ b, isBreak c = false) :
    read (k ++ ':' :: ' ' :: (a ++ '\n' :: ' ' :: (b ++ ['\n'])) ++ '\n' :: p) = collectOne [] (k, a ++ '\n' :: ' ' :: b) := by
  have hl : lineOf (k, a) = k ++ ':' :: ' ' :: a := by simp [lineOf, ha]
  have e : k ++ ':' :: ' ' :: (a ++ '\n' :: ' ' :: (b ++ ['\n'])) ++ '\n' :: p =
      [lineOf (k, a), ' ' :: b].flatMap (fun l => l ++ ['\n']) ++ '\n' :: p := by
    rw [hl]; simp
  have hne : ∀ (l : Text), (∀ c ∈ l, isBreak c = false) → '\n' ∉ l := by
    intro l h hc
    have := h _ hc
    revert this; decide
  have e2 : splitAt (· == '\n') ('\n' :: p) = [] :: splitAt (· == '\n') p := by simp [splitAt]
  rw [read, e, split_lines _ _ (by
    intro l hl'
    simp only [List.mem_cons, List.not_mem_nil, or_false] at hl'
    rcases hl' with rfl | rfl
    · rw [hl]
      have h1 := name_break k hk
      have h2 := hne a ha2
      simp [h1, h2]
    · have := hne b hb2
      simp [this]), e2]
  have hc : isContinuation (' ' :: b) = true := rfl
  have h0 : headerLines ([lineOf (k, a), ' ' :: b] ++ [] :: splitAt (· == '\n') p) = [lineOf (k, a), ' ' :: b] := by
    have h1 := isHeader_line (k, a) hk
    have h2 : (isHeader [] || isContinuation []) = false := rfl
    simp only [headerLines, List.cons_append, List.nil_append, List.takeWhile, h1, hc, h2, Bool.true_or, Bool.or_true]
  have hs := split_line (k, a) hk (no_lead a ha1.1 ha1.2)
  have hn := hk.1
  rw [h0]
  simp [parseHeaders, not_continuation (k, a) hk, hc, List.takeWhile, hs, hn]

/-- C67 fails for values that are printed on two lines: the value read back has the line break. If the field may be repeated, what
was read cannot be saved again; otherwise the field is left out then. -/
theorem metadata_long_violated (m : Mail) (k a b : Text) (hk : FieldName k) (hd : k ≠ descriptionKey)
    (ha : a ≠ []) (ha1 : a.head? ≠ some ' ' ∧ a.head? ≠ some '\t') (ha2 : ∀ c ∈ a, isBreak c = false)
    (hb : b ≠ []) (hb2 : ∀ c ∈ b, isBreak c = false)
    (hf : m.fold k (a ++ ' ' :: b) = k ++ ':' :: ' ' :: (a ++ '\n' :: ' ' :: (b ++ ['\n']))) :
    (k ∈ multiFields → ∃ text, write m [(k, .list [a ++ ' ' :: b])] = .ok text ∧
      read text = [(k, .list [a ++ '\n' :: ' ' :: b])] ∧ write m (read text) = .error .lineBreak) ∧
    (k ∉ multiFields → ∃ text, write m [(k, .text (a ++ ' ' :: b))] = .ok text ∧
      read text = [(k, .text (a ++ '\n' :: ' ' :: b))] ∧ write m (read text) = .ok ['\n']) := by
  have hne : a ++ ' ' :: b ≠ [] := by simp
  have hst : storable (a ++ ' ' :: b) = true := by
    simp only [storable, Bool.not_eq_true', List.any_eq_false]
    intro c hc
    have := List.dropLast_subset _ hc
    simp only [List.mem_append, List.mem_cons] at this
    rcases this with h | rfl | h
    · simp [ha2 c h]
    · decide
    · simp [hb2 c h]
  have hns : storable (a ++ '\n' :: ' ' :: b) = false := by
    simp only [storable, Bool.not_eq_false', List.any_eq_true]
    refine ⟨'\n', ?_, by decide⟩
    have : a ++ '\n' :: ' ' :: b = (a ++ ['\n', ' ']) ++ b := by simp
    rw [this, List.dropLast_append_of_ne_nil hb]
    simp
  constructor
  · intro hm
    have hr := read_two k a b [] hk ha ha1 ha2 hb2
    have hr' : collectOne [] (k, a ++ '\n' :: ' ' :: b) = [(k, .list [a ++ '\n' :: ' ' :: b])] := by
      simp [collectOne, hm, Dict.get, Dict.put]
    refine ⟨_, ?_, hr.trans hr', ?_⟩
    · simp [write, headers, headersOf, hd, storeList, hst, Except.map, hf, payload, Dict.get]
    · rw [hr, hr']
      simp [write, headers, headersOf, hd, storeList, hns, Except.map]
  · intro hm
    have hr := read_two k a b [] hk ha ha1 ha2 hb2
    have hr' : collectOne [] (k, a ++ '\n' :: ' ' :: b) = [(k, .text (a ++ '\n' :: ' ' :: b))] := by
      simp [collectOne, hm, Dict.get, Dict.put]
    refine ⟨_, ?_, hr.trans hr', ?_⟩
    · simp [write, headers, headersOf, hd, hm, hst, Except.map, hf, payload, Dict.get]
    · rw [hr, hr']
      simp [write, headers, headersOf, hd, hm, hns, Except.map, payload, Dict.get]

/-- A printer that breaks the lines of two words that do not fit meets the hypothesis, for a long summary. -/
example : ∃ m : Mail, m.fold t!"Summary" (List.replicate 60 'a' ++ ' ' :: List.replicate 60 'b') =
    t!"Summary" ++ ':' :: ' ' :: (List.replicate 60 'a' ++ '\n' :: ' ' :: (List.replicate 60 'b' ++ ['\n'])) := by
  refine ⟨⟨fun k v => if v = [] then k ++ [':', '\n'] else if k.length + 2 + v.length ≤ 78 then k ++ ':' :: ' ' :: (v ++ ['\n'])
      else k ++ ':' :: ' ' :: (v.takeWhile (· != ' ') ++ '\n' :: (v.dropWhile (· != ' ') ++ ['\n'])), ?_, ?_⟩, ?_⟩
  · intro k v h
    simp [h.1, h.2.1]
  · intro k
    simp
  · decide +kernel

/-! ### Projects -/

end Meta

namespace Spec
open Meta Reqs

/-- A text for the field, or none. -/
def Fits (k s : Text) : Prop := Short k s ∨ s = []

/-- A project all of whose texts fit a line, with none or several keywords. -/
structure FitsLines (p : Meta.Project) : Prop where
  name : Fits t!"Name" p.name
  version : Fits t!"Version" p.version
  summary : ∀ s, p.summary = some s → Fits t!"Summary" s
  readmeType : Fits t!"Description-Content-Type" p.readmeType
  keywords : p.keywords.length ≠ 1 ∧ ∀ s ∈ p.keywords, Short t!"Keywords" s
  names : Fits t!"Author" (joinComma (given (p.authors.map (·.1)))) ∧ Fits t!"Maintainer" (joinComma (given (p.authors.map (·.1))))
  emails : Fits t!"Author-email" (joinComma (given (p.authors.map (·.2)))) ∧
    Fits t!"Maintainer-email" (joinComma (given (p.authors.map (·.2))))
  license : Fits t!"License" p.license
  classifiers : ∀ l, p.classifiers = some l → ∀ s ∈ l, Fits t!"Classifier" s
  requiresPython : Fits t!"Requires-Python" p.requiresPython
  extras : ∀ g ∈ p.optional, Fits t!"Provides-Extra" g.1

/-- A requirement that is read as it is printed, on one line. -/
def PlainReq (d : Dep) : Prop := Writable d ∧ PlainSpec d.spec ∧ Short t!"Requires-Dist" d.show

/-- The same requirements, in the same order. -/
inductive SameReqs : List Dep → List Dep → Prop
  | nil : SameReqs [] []
  | cons {a b : Dep} {l m : List Dep} : SameReq a b → SameReqs l m → SameReqs (a :: l) (b :: m)

end Spec

namespace Meta
open Spec Reqs

theorem same_show (a b : Dep) (h : SameReq a b) : a.show = b.show := by
  have hm : showMarker a.marker = showMarker b.marker := by
    have := h.text
    cases ha : a.marker <;> cases hb : b.marker <;> simp [ha, hb] at this <;> simp [showMarker, this]
  simp [Dep.show, h.name, h.extras, h.spec, hm]

theorem same_shows (l m : List Dep) (h : SameReqs l m) : l.map Dep.show = m.map Dep.show := by
  induction h with
  | nil => rfl
  | cons h _ ih => simp [same_show _ _ h, ih]

theorem parse_shows (env : UrlEnv) (l : List Dep) (h : ∀ d ∈ l, PlainReq d) :
    ∃ m, parseDeps env (l.map Dep.show) = .ok m ∧ SameReqs l m := by
  induction l with
  | nil => exact ⟨[], rfl, .nil⟩
  | cons d l ih =>
    obtain ⟨m, h1, h2⟩ := ih (fun x hx => h x (by simp [hx]))
    obtain ⟨d', h3, h4⟩ := requirement_round_trip_partial env d (h d (by simp)).1 (h d (by simp)).2.1
    exact ⟨d' :: m, by simp [parseDeps, h3, h1, Except.map], .cons h4 h2⟩

theorem fieldOk_one (k s : Text) (h : Fits k s) (hk : k ∉ multiFields) : FieldOk k (.text s) := .one s hk h

theorem fieldOk_multi (k : Text) (l : List Text) (h : ∀ s ∈ l, Fits k s) (hk : k ∈ multiFields) (ha : ¬ Absent (.list l)) :
    FieldOk k (.list l) := .multi l hk (fun e => ha (.inr (by rw [e]))) h

theorem project_fields (p : Project) (hp : FitsLines p) (deps : List Dep) (hd : ∀ s ∈ deps.map Dep.show, Fits t!"Requires-Dist" s) :
    ∀ e ∈ projectData p deps, e.1 ≠ descriptionKey → ¬ Absent e.2 → FieldName e.1 ∧ FieldOk e.1 e.2 := by
  intro e he hn ha
  simp only [projectData, List.mem_append, List.mem_cons, List.not_mem_nil, or_false] at he
  rcases he with (((((rfl | rfl | rfl) | he) | (rfl | rfl | rfl | rfl | rfl | rfl | rfl | rfl)) | he) | (rfl | rfl | rfl)) <;> try dsimp only at ha ⊢
  · exact ⟨by constructor <;> decide, fieldOk_one _ _ (.inl (short_of _ _ (by decide))) (by decide)⟩
  · exact ⟨by constructor <;> decide, fieldOk_one _ _ hp.name (by decide)⟩
  · exact ⟨by constructor <;> decide, fieldOk_one _ _ hp.version (by decide)⟩
  · cases hs : p.summary with
    | none => simp [optText, hs] at he
    | some s =>
      simp [optText, hs] at he
      subst he
      dsimp only at ha ⊢
      exact ⟨by constructor <;> decide, fieldOk_one _ _ (hp.summary s hs) (by decide)⟩
  · exact absurd rfl hn
  · exact ⟨by constructor <;> decide, fieldOk_one _ _ hp.readmeType (by decide)⟩
  · refine ⟨by constructor <;> decide, ?_⟩
    have hk := hp.keywords
    match hl : p.keywords with
    | [] => exact absurd (.inr (by rw [hl])) ha
    | [x] => simp [hl] at hk
    | x :: y :: l => exact .many x y l (by decide) (by rw [← hl]; exact hk.2)
  · exact ⟨by constructor <;> decide, fieldOk_one _ _ hp.names.1 (by decide)⟩
  · exact ⟨by constructor <;> decide, fieldOk_one _ _ hp.emails.1 (by decide)⟩
  · exact ⟨by constructor <;> decide, fieldOk_one _ _ hp.names.2 (by decide)⟩
  · exact ⟨by constructor <;> decide, fieldOk_one _ _ hp.emails.2 (by decide)⟩
  · exact ⟨by constructor <;> decide, fieldOk_one _ _ hp.license (by decide)⟩
  · cases hs : p.classifiers with
    | none => simp [optList, hs] at he
    | some s =>
      simp [optList, hs] at he
      subst he
      dsimp only at ha ⊢
      exact ⟨by constructor <;> decide, fieldOk_multi _ _ (hp.classifiers s hs) (by decide) ha⟩
  · exact ⟨by constructor <;> decide, fieldOk_multi _ _ hd (by decide) ha⟩
  · exact ⟨by constructor <;> decide, fieldOk_one _ _ hp.requiresPython (by decide)⟩
  · refine ⟨by constructor <;> decide, fieldOk_multi _ _ ?_ (by decide) ha⟩
    intro s hs
    obtain ⟨g, hg, rfl⟩ := List.mem_map.1 hs
    exact hp.extras g hg

theorem project_keys (p : Project) (deps : List Dep) : (Dict.keys (projectData p deps)).Nodup := by
  have h : ∀ (a b : Bool), ([t!"Metadata-Version", t!"Name", t!"Version"] ++ (if a then [t!"Summary"] else []) ++
      [t!"Description", t!"Description-Content-Type", t!"Keywords", t!"Author", t!"Author-email", t!"Maintainer",
       t!"Maintainer-email", t!"License"] ++ (if b then [t!"Classifier"] else []) ++
      [t!"Requires-Dist", t!"Requires-Python", t!"Provides-Extra"]).Nodup := by decide +kernel
  have h1 : Dict.keys (optText t!"Summary" p.summary) = if p.summary.isSome then [t!"Summary"] else [] := by
    cases p.summary <;> rfl
  have h2 : Dict.keys (optList t!"Classifier" p.classifiers) = if p.classifiers.isSome then [t!"Classifier"] else [] := by
    cases p.classifiers <;> rfl
  have := h p.summary.isSome p.classifiers.isSome
  rw [← h1, ← h2] at this
  simpa only [projectData, Dict.keys, List.map_append, List.map_cons, List.map_nil] using this

theorem get_project (p : Project) (deps : List Dep) :
    Dict.get (projectData p deps) t!"Name" = some (.text p.name) ∧
    Dict.get (projectData p deps) t!"Version" = some (.text p.version) ∧
    Dict.get (projectData p deps) t!"Summary" = p.summary.map Val.text ∧
    Dict.get (projectData p deps) t!"Requires-Python" = some (.text p.requiresPython) ∧
    Dict.get (projectData p deps) t!"Provides-Extra" = some (.list (p.optional.map (·.1))) ∧
    Dict.get (projectData p deps) t!"Requires-Dist" = some (.list (deps.map Dep.show)) := by
  simp only [projectData]
  cases p.summary <;> cases p.classifiers <;>
    simp [optText, optList, Dict.get]

/-- C67: the METADATA file of a built project has the name, version, summary, python constraint and extras of the project, and its
requirements are those of the project, in order. What is missing: lines that do not fit (`metadata_long_violated`), a single keyword,
the maintainers (`project_maintainers_violated`), and the description of what is read. -/
theorem project_metadata_partial (m : Mail) (env : UrlEnv) (p : Project) (hp : FitsLines p) (deps : List Dep)
    (hdeps : Projects.allDependencies p.dependencies p.optional = .ok deps) (hd : ∀ d ∈ deps, PlainReq d) :
    ∃ text, build m env p = .ok text ∧
      (read text).get t!"Name" = some (.text p.name) ∧
      (read text).get t!"Version" = some (.text p.version) ∧
      (read text).get t!"Summary" = p.summary.map Val.text ∧
      (read text).get t!"Requires-Python" = some (.text p.requiresPython) ∧
      (p.optional ≠ [] → (read text).get t!"Provides-Extra" = some (.list (p.optional.map (·.1)))) ∧
      ∃ ds, loadDeps env (read text) = .ok ds ∧ SameReqs deps ds := by
  obtain ⟨m1, h1, h2⟩ := parse_shows env deps hd
  have hsh := same_shows deps m1 h2
  obtain ⟨text, h3, h4⟩ := metadata_round_trip_partial m (projectData p m1) (project_keys p m1)
    (project_fields p hp m1 (by
      rw [← hsh]
      intro s hs
      obtain ⟨d, hd', rfl⟩ := List.mem_map.1 hs
      exact .inl (hd d hd').2.2))
  obtain ⟨g1, g2, g3, g4, g5, g6⟩ := get_project p m1
  have hg : ∀ k, (read text).get k = (Dict.get (projectData p m1) k).bind
      (fun v => if decide (k ≠ descriptionKey ∧ ¬ Absent v) then some v else none) := fun k => by
    rw [h4, withoutDescription]; exact get_filter _ (project_keys p m1) _ k
  refine ⟨text, by simp [build, hdeps, h1, h3], ?_, ?_, ?_, ?_, ?_, ?_⟩
  · rw [hg, g1]; simp [descriptionKey, Absent]
  · rw [hg, g2]; simp [descriptionKey, Absent]
  · rw [hg, g3]; cases p.summary <;> simp [descriptionKey, Absent]
  · rw [hg, g4]; simp [descriptionKey, Absent]
  · intro hne
    rw [hg, g5]; simp [descriptionKey, Absent, hne]
  · cases hl : deps with
    | nil =>
      refine ⟨[], ?_, .nil⟩
      have : m1.map Dep.show = [] := by rw [← hsh, hl]; rfl
      have e : (read text).get t!"Requires-Dist" = none := by
        rw [hg, g6, this]; simp [descriptionKey, Absent]
      simp [loadDeps, e]
    | cons d l =>
      rw [← hl]
      have e : (read text).get t!"Requires-Dist" = some (.list (deps.map Dep.show)) := by
        rw [hg, g6, ← hsh]; simp [descriptionKey, Absent, hl]
      exact ⟨m1, by simp only [loadDeps, e]; exact h1, h2⟩

/-- C67 fails for maintainers: the METADATA file does not depend on them. -/
theorem project_maintainers_violated (m : Mail) (env : UrlEnv) (p : Project) (ms : List (Option Text × Option Text)) :
    build m env { p with maintainers := ms } = build m env p := rfl

/-- C67 fails for authors with a name and an address (PEP 621 wants `name <address>` in `Author-email`): which address belongs to
whom cannot be told from the file. -/
theorem project_authors_violated (m : Mail) (env : UrlEnv) (p : Project) (a b x y : Text) (ha : a ≠ []) (hb : b ≠ []) (hx : x ≠ [])
    (hy : y ≠ []) :
    build m env { p with authors := [(some a, some x), (some b, some y)] } =
    build m env { p with authors := [(some a, none), (some b, some x), (none, some y)] } := by
  have h : ∀ deps, projectData { p with authors := [(some a, some x), (some b, some y)] } deps =
      projectData { p with authors := [(some a, none), (some b, some x), (none, some y)] } deps := by
    intro deps
    have e : given [some a, some b] = given [some a, some b, none] ∧ given [some x, some y] = given [none, some x, some y] := by
      simp [given]
    simp only [projectData, List.map_cons, List.map_nil, e.1, e.2]
  simp only [build, h]

theorem applicable_same (c : Markers.Ctx) (l m : List Dep) (h : SameReqs l m) (r : List Dep)
    (ha : Projects.applicable c l = .ok r) : ∃ r', Projects.applicable c m = .ok r' ∧ r'.map required = r.map required := by
  induction h generalizing r with
  | nil => exact ⟨[], rfl, by simp [Projects.applicable] at ha; simp [← ha]⟩
  | cons hab hlm ih =>
    rename_i a b l m
    have hb : Projects.isApplicable c b = Projects.isApplicable c a := by
      have ht := hab.text
      cases hx : a.marker <;> cases hy : b.marker <;> simp [hx, hy] at ht
      · simp [Projects.isApplicable, hx, hy]
      · simp only [Projects.isApplicable, hx, hy]
        exact (hab.value _ _ hx hy c).symm
    have hr : required b = required a := by simp [required, hab.name, hab.spec, hab.extras]
    simp only [Projects.applicable, hb] at ha ⊢
    cases hi : Projects.isApplicable c a with
    | error e => simp [hi] at ha
    | ok t =>
      cases t with
      | false =>
        simp only [hi] at ha ⊢
        exact ih r ha
      | true =>
        simp only [hi] at ha ⊢
        cases hl : Projects.applicable c l with
        | error e => simp [hl, Except.map] at ha
        | ok r0 =>
          simp [hl, Except.map] at ha
          subst ha
          obtain ⟨r', h1, h2⟩ := ih r0 hl
          exact ⟨b :: r', by simp [h1, Except.map], by simp [hr, h2]⟩

/-- C63 and C67 together: whoever installs what was built needs exactly what the project needs. -/
theorem built_dependencies_partial (m : Mail) (env : UrlEnv) (p : Project) (hp : FitsLines p) (deps : List Dep)
    (hdeps : Projects.allDependencies p.dependencies p.optional = .ok deps) (hr : ∀ d ∈ deps, PlainReq d)
    (c : Markers.Ctx) (hd : ∀ d, d ∈ p.dependencies → Defined c d)
    (ho : ∀ g, g ∈ p.optional → ExtraGroup g.1 ∧ ∀ d, d ∈ g.2 → OfGroup g.1 d ∧ Defined c d) :
    ∃ text ds l, build m env p = .ok text ∧ loadDeps env (read text) = .ok ds ∧ Projects.applicable c ds = .ok l ∧
      l.map required = (needed c p.dependencies p.optional).map required := by
  obtain ⟨text, h1, _, _, _, _, _, ds, h2, h3⟩ := project_metadata_partial m env p hp deps hdeps hr
  obtain ⟨l, h4, h5⟩ := Projects.project_dependencies_partial c p.dependencies p.optional hd ho
  simp only [Projects.projectDependencies, hdeps] at h4
  obtain ⟨r', h6, h7⟩ := applicable_same c deps ds h3 l h4
  exact ⟨text, ds, r', h1, h2, h6, h7.trans h5⟩

/-- A project with a requirement, an extra and an author meets the hypotheses. -/
example (env : UrlEnv) (c : Markers.Ctx) :
    let p : Project := { name := t!"prj", version := t!"1.0", summary := some t!"A project", authors := [(some t!"An Author", none)],
                         dependencies := [{ name := t!"b" }], optional := [(t!"test", [{ name := t!"c" }])] }
    FitsLines p ∧ (∃ deps, Projects.allDependencies p.dependencies p.optional = .ok deps ∧ ∀ d ∈ deps, PlainReq d) ∧
      (∀ d, d ∈ p.dependencies → Defined c d) ∧
      (∀ g, g ∈ p.optional → ExtraGroup g.1 ∧ ∀ d, d ∈ g.2 → OfGroup g.1 d ∧ Defined c d) := by
  have hg : ExtraGroup t!"test" := by unfold ExtraGroup; decide
  obtain ⟨m, h1, h2, h3⟩ := Markers.marker_precedence (Projects.clauseExpr t!"test") (Projects.clause_ok _ hg) [] (Or.inl rfl)
  rw [Projects.clause_text] at h1 h2
  have hm : MarkerOk m := by
    refine ⟨?_, _, Projects.clause_ok _ hg, by rw [h2, Projects.clause_text], h3⟩
    rw [h2]; simp [NoLead, Projects.extraClause]; decide
  have ho : Projects.optionalDep t!"test" { name := t!"c" } = .ok { name := t!"c", marker := some m } := by
    simp only [List.append_nil] at h1
    simp [Projects.optionalDep, Projects.keepsMarker, Projects.newMarkerText, Markers.parseMarker, h1, Except.map]
  refine ⟨?_, ⟨[{ name := t!"b" }, { name := t!"c", marker := some m }], ?_, ?_⟩, ?_, ?_⟩
  · constructor
    · exact .inl (short_of _ _ (by decide))
    · exact .inl (short_of _ _ (by decide))
    · rintro s ⟨⟩; exact .inl (short_of _ _ (by decide))
    · exact .inl (short_of _ _ (by decide))
    · simp
    · exact ⟨.inl (short_of _ _ (by decide)), .inl (short_of _ _ (by decide))⟩
    · exact ⟨.inr rfl, .inr rfl⟩
    · exact .inr rfl
    · rintro l ⟨⟩
    · exact .inr rfl
    · intro g hg
      simp at hg
      subst hg
      exact .inl (short_of _ _ (by decide))
  · simp [Projects.allDependencies, Projects.optionalDeps, Projects.groupDeps, ho, Except.map]
  · intro d hd
    simp at hd
    rcases hd with rfl | rfl
    · refine ⟨⟨by decide, ⟨'b', [], rfl, by decide⟩, by simp, by simp⟩, .all, short_of _ _ (by decide)⟩
    · refine ⟨⟨(by decide : normalizeName t!"c" = some t!"c"), ⟨'c', [], rfl, by decide⟩, by simp, ?_⟩, .all, short_of _ _ ?_⟩
      · rintro x ⟨⟩; exact hm
      · have : Dep.show { name := t!"c", marker := some m } = t!"c;extra=='test'" := by
          simp [Dep.show, Reqs.showExtras, showSpec, showMarker, h2, Projects.extraClause]
        rw [this]; decide
  · simp [Defined]
  · intro g hg'
    simp at hg'
    subst hg'
    refine ⟨hg, ?_⟩
    intro d hd
    simp at hd
    subst hd
    exact ⟨.plain rfl, by simp [Defined]⟩

end Meta
end Pkm
