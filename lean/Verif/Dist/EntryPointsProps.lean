import Verif.Dist.EntryPoints
import Verif.Collections.Props
set_option linter.unusedVariables false
set_option linter.unusedSimpArgs false
/-
C62: entry points are read back as they were written.
-/
namespace Pkm

namespace Spec
open Entry

/-- A text on one line that neither starts nor ends with a blank. -/
structure OneLine (s : Text) : Prop where
  ne : s ≠ []
  line : '\n' ∉ s
  first : ∀ c, s.head? = some c → isSpace c = false
  last : ∀ c, s.getLast? = some c → isSpace c = false

/-- The name of a group: it fits between brackets. -/
structure GroupName (s : Text) : Prop where
  line : OneLine s
  bracket : ']' ∉ s
  special : s ≠ defaultName

/-- The name of an entry point: it fits before the equals sign. -/
structure EntryName (s : Text) : Prop where
  line : OneLine s
  equals : '=' ∉ s
  colon : ':' ∉ s
  open_ : s.head? ≠ some '['
  comment : s.head? ≠ some '#' ∧ s.head? ≠ some ';'

/-- A reference `module` or `module:object` without extras. -/
structure PlainRef (r : Ref) : Prop where
  module : OneLine r.module ∧ ':' ∉ r.module ∧ '%' ∉ r.module
  object : ∀ o, r.object = some o → OneLine o ∧ '[' ∉ o ∧ '%' ∉ o
  extras : r.extras = none

/-- An entry point with names that can be written and without extras. -/
structure PlainEntry (e : EntryPoint) : Prop where
  group : GroupName e.group
  name : EntryName e.name
  ref : PlainRef e.ref

/-- An extra as it may be listed between brackets. -/
structure ExtraName (s : Text) : Prop where
  line : OneLine s
  comma : ',' ∉ s
  bracket : ']' ∉ s

end Spec
open Spec

namespace Entry
open Config (splitAt stripText lstrip strip_id splitAt_none splitAt_append)

/-! ### References -/

theorem takeWhile_all {p : Char → Bool} : ∀ (a : Text) (b : Text), (∀ c ∈ a, p c = true) → (∀ c, b.head? = some c → p c = false) →
    (a ++ b).takeWhile p = a ∧ (a ++ b).dropWhile p = b
  | [], [], _, _ => by simp
  | [], c :: b, _, hb => by simp [List.takeWhile, List.dropWhile, hb c rfl]
  | c :: a, b, ha, hb => by
    have := takeWhile_all a b (fun d hd => ha d (by simp [hd])) hb
    simp [List.takeWhile, List.dropWhile, ha c (by simp), this]

theorem ne_of_not_mem {c : Char} {s : Text} (h : c ∉ s) : ∀ d ∈ s, (d != c) = true := by
  intro d hd
  simp
  rintro rfl
  exact h hd

/-- C62: a reference without extras is read back as it was written. -/
theorem reference_round_trip (r : Ref) (h : PlainRef r) : Ref.parse r.show = r := by
  obtain ⟨m, o, x⟩ := r
  have hx : x = none := h.extras
  subst hx
  have hm := ne_of_not_mem h.module.2.1
  cases o with
  | none =>
    have := takeWhile_all m [] hm (by simp)
    simp only [List.append_nil] at this
    simp [Ref.parse, Ref.show, showObject, showExtras, this, parseRest]
  | some o =>
    have ho := h.object o rfl
    have h1 := takeWhile_all m (':' :: o) hm (by simp)
    have h2 := takeWhile_all o [] (ne_of_not_mem ho.2.1) (by simp)
    simp only [List.append_nil] at h2
    simp [Ref.parse, Ref.show, showObject, showExtras, ho.1.ne, h1, parseRest, h2, parseExtras]

theorem strip_of_line {s : Text} (h : OneLine s) : stripText s = s := strip_id s h.first h.last

theorem strip_blank_line {s : Text} (h : OneLine s) : stripText (' ' :: s) = s := by
  have : lstrip (' ' :: s) = lstrip s := by
    have : isSpace ' ' = true := by decide
    simp [lstrip, List.dropWhile, this]
  have e := strip_of_line h
  unfold stripText at *
  rw [this]; exact e

theorem joinComma_split : ∀ (l : List Text) (e : Text), (∀ x ∈ e :: l, ExtraName x) →
    (splitAt (· == ',') (joinComma (e :: l))).map stripText = e :: l ∧
    (splitAt (· == ',') (' ' :: joinComma (e :: l))).map stripText = e :: l
  | [], e, h => by
    have he := h e (by simp)
    have hc : ∀ c ∈ e, (c == ',') = false := by
      intro c hc; simp; rintro rfl; exact he.comma hc
    simp only [joinComma]
    rw [splitAt_none _ e hc, splitAt_none _ (' ' :: e) (by
      intro c hc'; simp at hc'
      rcases hc' with rfl | hc'
      · decide
      · exact hc c hc')]
    simp [strip_of_line he.line, strip_blank_line he.line]
  | f :: l, e, h => by
    have he := h e (by simp)
    have hc : ∀ c ∈ e, (c == ',') = false := by
      intro c hc; simp; rintro rfl; exact he.comma hc
    have ih := joinComma_split l f (fun x hx => h x (by simp at hx ⊢; right; exact hx))
    simp only [joinComma]
    have h2 := splitAt_append (· == ',') (' ' :: e) ',' (' ' :: joinComma (f :: l)) (by
      intro c hc'; simp at hc'
      rcases hc' with rfl | hc'
      · decide
      · exact hc c hc') (by decide)
    simp only [List.cons_append] at h2
    rw [splitAt_append _ e ',' _ hc (by decide), h2]
    simp only [List.map_cons, ih.2, strip_of_line he.line, strip_blank_line he.line, and_self]

theorem joinComma_head (l : List Text) (e : Text) (h : ∀ x ∈ e :: l, ExtraName x) :
    joinComma (e :: l) ≠ [] ∧ (joinComma (e :: l)).head? = e.head? := by
  have he := (h e (by simp)).line.ne
  cases e with
  | nil => exact absurd rfl he
  | cons c e => cases l <;> simp [joinComma]

theorem joinComma_last : ∀ (l : List Text) (e : Text), (∀ x ∈ e :: l, ExtraName x) →
    ∀ c, (joinComma (e :: l)).getLast? = some c → isSpace c = false
  | [], e, h, c, hc => (h e (by simp)).line.last c (by simpa [joinComma] using hc)
  | f :: l, e, h, c, hc => by
    have ih := joinComma_last l f (fun x hx => h x (by simp at hx ⊢; right; exact hx)) c
    have hne := (joinComma_head l f (fun x hx => h x (by simp at hx ⊢; right; exact hx))).1
    apply ih
    simp only [joinComma] at hc
    rw [List.getLast?_append] at hc
    have : (',' :: ' ' :: joinComma (f :: l)).getLast? = (joinComma (f :: l)).getLast? := by
      cases hj : joinComma (f :: l) with
      | nil => exact absurd hj hne
      | cons a t => simp [List.getLast?_cons_cons]
    rw [this] at hc
    cases hl : (joinComma (f :: l)).getLast? with
    | none => simp at hl; exact absurd hl hne
    | some d => rw [hl] at hc; simpa using hc

theorem joinComma_bracket : ∀ (l : List Text), (∀ x ∈ l, ExtraName x) → ']' ∉ joinComma l
  | [], _ => by simp [joinComma]
  | [e], h => by simpa [joinComma] using (h e (by simp)).bracket
  | e :: f :: l, h => by
    have ih := joinComma_bracket (f :: l) (fun x hx => h x (by simp at hx ⊢; right; exact hx))
    simp only [joinComma]
    simp only [List.mem_append, List.mem_cons, not_or]
    exact ⟨(h e (by simp)).bracket, by decide, by decide, ih⟩

/-- C62: what is read back from a reference with extras: the module and the extras are the same, but the object has a blank at its
end, which no attribute has. -/
theorem reference_extras_partial (m o : Text) (e : Text) (l : List Text) (hm : ':' ∉ m) (ho : o ≠ [] ∧ '[' ∉ o)
    (hl : ∀ x ∈ e :: l, ExtraName x) :
    Ref.parse (Ref.show ⟨m, some o, some (e :: l)⟩) = ⟨m, some (o ++ [' ']), some (e :: l)⟩ := by
  have h1 := takeWhile_all m (':' :: (o ++ ' ' :: '[' :: (joinComma (e :: l) ++ [']']))) (ne_of_not_mem hm) (by simp)
  have h2 := takeWhile_all (o ++ [' ']) ('[' :: (joinComma (e :: l) ++ [']'])) (by
    intro c hc
    simp only [List.mem_append, List.mem_singleton] at hc
    rcases hc with hc | rfl
    · exact ne_of_not_mem ho.2 c hc
    · decide) (by simp)
  simp only [List.append_assoc, List.cons_append, List.nil_append] at h2
  have hj := joinComma_head l e hl
  have hs : lstrip (joinComma (e :: l) ++ [']']) = joinComma (e :: l) ++ [']'] := by
    apply Config.lstrip_id
    intro c hc
    apply (hl e (by simp)).line.first
    rw [← hj.2]
    cases hjj : joinComma (e :: l) with
    | nil => exact absurd hjj hj.1
    | cons a t => rw [hjj] at hc; simpa using hc
  have h3 := takeWhile_all (joinComma (e :: l)) [']'] (ne_of_not_mem (joinComma_bracket _ hl)) (by simp)
  have h4 : stripText (joinComma (e :: l)) = joinComma (e :: l) :=
    strip_id _ (fun c hc => (hl e (by simp)).line.first c (by rw [← hj.2]; exact hc)) (joinComma_last l e hl)
  have h5 : (joinComma (e :: l) ++ [']']).any (· == ']') = true := by simp
  have h6 : parseExtras ('[' :: (joinComma (e :: l) ++ [']'])) = some (e :: l) := by
    simp only [parseExtras, hs, h5, if_true, h3.1, hj.1, if_false, h4, (joinComma_split l e hl).1]
  have h7 : Ref.show ⟨m, some o, some (e :: l)⟩ = m ++ ':' :: (o ++ ' ' :: '[' :: (joinComma (e :: l) ++ [']'])) := by
    simp [Ref.show, showObject, showExtras, ho.1]
  unfold Ref.parse
  rw [h7, h1.1, h1.2]
  simp only [parseRest]
  rw [h2.1, h2.2, h6]

/-! ### Values -/

theorem interpolate_plain : ∀ (s : Text), '%' ∉ s → interpolate s = .ok s
  | [], _ => rfl
  | c :: s, h => by
    simp only [List.mem_cons, not_or] at h
    have ih := interpolate_plain s h.2
    have hc : c ≠ '%' := fun e => h.1 e.symm
    rw [interpolate]
    · rw [ih]; rfl
    · rintro s' rfl; exact absurd rfl hc
    · rintro s' rfl; exact absurd rfl hc
    · rintro rfl; exact absurd rfl hc

theorem dropPairs_plain : ∀ (s : Text), '%' ∉ s → dropPairs s = s
  | [], _ => rfl
  | c :: s, h => by
    simp only [List.mem_cons, not_or] at h
    rw [dropPairs]
    · rw [dropPairs_plain s h.2]
    · rintro s' rfl; exact absurd rfl h.1

theorem dropRefs_plain (n : Nat) : ∀ (s : Text), '%' ∉ s → dropRefs n s = s := by
  induction n with
  | zero => intro s _; rfl
  | succ n ih =>
    intro s h
    cases s with
    | nil => rfl
    | cons c s =>
      simp only [List.mem_cons, not_or] at h
      have : afterRef (c :: s) = none := by
        rw [afterRef]
        intro s' e; exact h.1 (List.cons.inj e).1.symm
      simp [dropRefs, this, ih s h.2]

theorem settable_plain (s : Text) (h : '%' ∉ s) : settable s = true := by
  unfold settable
  rw [dropPairs_plain s h, dropRefs_plain _ s h]
  simpa using h

theorem indentLines_plain : ∀ (s : Text), '\n' ∉ s → indentLines s = s
  | [], _ => rfl
  | c :: s, h => by
    simp only [List.mem_cons, not_or] at h
    have hc : ¬ c = '\n' := fun e => h.1 e.symm
    simp [indentLines, hc, indentLines_plain s h.2]

theorem joinLines_empty : ∀ (ls : List Text), ls ≠ [] → joinLines (ls ++ [[]]) = joinLines ls ++ ['\n']
  | [], h => absurd rfl h
  | [l], _ => by simp [joinLines]
  | l :: m :: ls, _ => by
    have ih := joinLines_empty (m :: ls) (by simp)
    simp only [List.cons_append] at ih
    simp only [List.cons_append, joinLines, ih]
    simp

theorem joinValue_empty (ls : List Text) (h : ls ≠ []) : joinValue (ls ++ [[]]) = joinValue ls := by
  unfold joinValue
  rw [joinLines_empty ls h]
  unfold rstrip
  rw [List.reverse_append]
  have : isSpace '\n' = true := by decide
  simp [lstrip, List.dropWhile, this]

theorem rstrip_line {s : Text} (h : OneLine s) : rstrip s = s := by
  unfold rstrip
  rw [Config.lstrip_id]
  · simp
  · simpa [List.head?_reverse] using h.last

/-! ### Dictionaries -/

section
variable {K V : Type} [DecidableEq K]

theorem put_fresh (d : Dict K V) (k : K) (v : V) (h : k ∉ Dict.keys d) : d.put k v = d ++ [(k, v)] := by
  induction d with
  | nil => rfl
  | cons p d ih =>
    obtain ⟨a, w⟩ := p
    simp [Dict.keys] at h
    have : ¬ a = k := fun e => h.1 e.symm
    simp [Dict.put, this, ih (by simpa [Dict.keys] using h.2)]

theorem put_last (d : Dict K V) (k : K) (v w : V) (h : k ∉ Dict.keys d) : Dict.put (d ++ [(k, w)]) k v = d ++ [(k, v)] := by
  induction d with
  | nil => simp [Dict.put]
  | cons p d ih =>
    obtain ⟨a, x⟩ := p
    simp [Dict.keys] at h
    have : ¬ a = k := fun e => h.1 e.symm
    simp [Dict.put, this, ih (by simpa [Dict.keys] using h.2)]

theorem get_last (d : Dict K V) (k : K) (w : V) (h : k ∉ Dict.keys d) : Dict.get (d ++ [(k, w)]) k = some w := by
  induction d with
  | nil => simp [Dict.get]
  | cons p d ih =>
    obtain ⟨a, x⟩ := p
    simp [Dict.keys] at h
    have : ¬ a = k := fun e => h.1 e.symm
    simp [Dict.get, this, ih (by simpa [Dict.keys] using h.2)]

theorem has_fresh (d : Dict K V) (k : K) (h : k ∉ Dict.keys d) : d.has k = false := by
  simp [Dict.has, (Dict.get_none_iff d k).2 h]
end

/-! ### The reader on written lines -/

/-- A value that can be written on the line of its key. -/
structure Value (v : Text) : Prop where
  line : OneLine v
  percent : '%' ∉ v

/-- The options as they will be read in the end. -/
def joined (d : Dict Text (List Text)) : Dict Text Text := d.map (fun kv => (kv.1, joinValue kv.2))

theorem joined_keys (d : Dict Text (List Text)) : Dict.keys (joined d) = Dict.keys d := by simp [joined, Dict.keys]

/-- In the middle of a section. -/
structure At (st : Ini) (ds : Dict Text (Dict Text (List Text))) (n : Text) (raw : Dict Text (List Text)) : Prop where
  defaults : st.defaults = []
  sections : st.sections = ds ++ [(n, raw)]
  cur : st.cur = some n
  indent : st.indent = 0
  fresh : n ∉ Dict.keys ds
  special : n ≠ defaultName

/-- Between sections. -/
structure Done (st : Ini) (ds : Dict Text (Dict Text (List Text))) : Prop where
  defaults : st.defaults = []
  sections : st.sections = ds
  indent : st.indent = 0

theorem indent_of {l : Text} (h : ∀ c, l.head? = some c → isSpace c = false) : indentOf l = 0 := by
  cases l with
  | nil => rfl
  | cons c l => simp [indentOf, List.takeWhile, h c rfl]

/-- A line that is not a comment, not blank and not indented is a header. -/
theorem step_header (st : Ini) (l v : Text) (hs : stripText l = v) (hv : v ≠ []) (hc : isComment v = false) (hi : indentOf l = 0)
    (hst : st.indent = 0) : st.step l = st.header v := by
  unfold Ini.step
  rw [hs]
  simp only [hc, Bool.false_eq_true, if_false, hv, hi, hst, Nat.lt_irrefl]
  have : ({ st with indent := 0 } : Ini) = st := by rw [← hst]
  rw [this]
  cases st.place with
  | none => rfl
  | some p => rfl

theorem step_section_line (st : Ini) (n : Text) (hi : st.indent = 0) (hn : GroupName n) :
    st.step ('[' :: (n ++ [']'])) = st.enter n := by
  have hl : ∀ c, ('[' :: (n ++ [']'])).head? = some c → isSpace c = false := by
    intro c hc; simp at hc; subst hc; decide
  have hs : stripText ('[' :: (n ++ [']'])) = '[' :: (n ++ [']']) := by
    refine strip_id _ hl ?_
    intro c hc
    have : ('[' :: (n ++ [']'])).getLast? = some ']' := by
      rw [← List.cons_append, List.getLast?_append]; simp
    rw [this] at hc; simp at hc; subst hc; decide
  rw [step_header st _ _ hs (by simp) (by simp [isComment]) (indent_of hl) hi]
  have h1 := takeWhile_all n [']'] (ne_of_not_mem hn.bracket) (by simp)
  have h2 : (n ++ [']']).head? ≠ some ']' := by
    cases hnn : n with
    | nil => exact absurd hnn hn.line.ne
    | cons c t =>
      simp
      rintro rfl
      exact hn.bracket (by simp [hnn])
  have hsec : sectionHeader ('[' :: (n ++ [']'])) = some n := by
    have h3 : (n ++ [']']).any (· == ']') = true := by simp
    have h4 : ((n ++ [']']).head? != some ']') = true := by simpa using h2
    simp only [sectionHeader, h3, h4, Bool.and_self, if_true, h1.1]
  unfold Ini.header
  rw [hsec]

theorem step_section (st : Ini) (ds : Dict Text (Dict Text (List Text))) (n : Text) (hst : Done st ds) (hn : GroupName n)
    (hf : n ∉ Dict.keys ds) : ∃ st', st.step ('[' :: (n ++ [']'])) = .ok st' ∧ At st' ds n [] ∧ st'.opt = none := by
  rw [step_section_line st n hst.indent hn]
  simp only [Ini.enter, hst.sections, has_fresh ds n hf, hn.special, if_false, Bool.false_eq_true]
  refine ⟨_, rfl, ⟨hst.defaults, ?_, rfl, hst.indent, hf, hn.special⟩, rfl⟩
  simp only [hst.sections]
  exact put_fresh ds n [] hf

theorem optionLine_written (k v : Text) (hk : EntryName k) (hv : OneLine v) :
    optionLine (k ++ ' ' :: '=' :: ' ' :: v) = some (k, v) := by
  have h := takeWhile_all (p := fun c => c != '=' && c != ':') (k ++ [' ']) ('=' :: ' ' :: v) (by
    intro c hc
    simp only [List.mem_append, List.mem_singleton] at hc
    rcases hc with hc | rfl
    · have h1 := ne_of_not_mem hk.equals c hc
      have h2 := ne_of_not_mem hk.colon c hc
      simp [h1, h2]
    · decide) (by simp)
  simp only [List.append_assoc, List.cons_append, List.nil_append] at h
  have hks : stripText (k ++ [' ']) = k := by
    unfold stripText
    have h1 : lstrip (k ++ [' ']) = k ++ [' '] := by
      apply Config.lstrip_id
      intro c hc
      apply hk.line.first
      cases hkk : k with
      | nil => exact absurd hkk hk.line.ne
      | cons a t => rw [hkk] at hc; simpa using hc
    rw [h1, List.reverse_append]
    have hsp : isSpace ' ' = true := by decide
    have h2 : lstrip ([' '].reverse ++ k.reverse) = k.reverse := by
      have : lstrip (' ' :: k.reverse) = lstrip k.reverse := by simp [lstrip, List.dropWhile, hsp]
      simp only [List.reverse_singleton, List.cons_append, List.nil_append]
      rw [this, Config.lstrip_id]
      simpa [List.head?_reverse] using hk.line.last
    rw [h2]; simp
  unfold optionLine
  rw [h.2, h.1]
  simp only [hks, strip_blank_line hv]

/-- The line of an option in the middle of a section. -/
theorem step_option_line (st : Ini) (ds : Dict Text (Dict Text (List Text))) (n : Text) (raw : Dict Text (List Text)) (k v : Text)
    (hst : At st ds n raw) (hk : EntryName k) (hv : OneLine v) :
    st.step (k ++ ' ' :: '=' :: ' ' :: v) = st.option n (some (k, v)) ∧ st.options n = raw := by
  have hhd : ∀ t, (k ++ t).head? = k.head? := by
    intro t
    cases hkk : k with
    | nil => exact absurd hkk hk.line.ne
    | cons a t => simp
  have hl : ∀ c, (k ++ ' ' :: '=' :: ' ' :: v).head? = some c → isSpace c = false := by
    intro c hc; rw [hhd] at hc; exact hk.line.first c hc
  have hs : stripText (k ++ ' ' :: '=' :: ' ' :: v) = k ++ ' ' :: '=' :: ' ' :: v := by
    refine strip_id _ hl ?_
    intro c hc
    rw [List.getLast?_append] at hc
    have : (' ' :: '=' :: ' ' :: v).getLast? = v.getLast? := by
      cases hvv : v with
      | nil => exact absurd hvv hv.ne
      | cons a t => simp [List.getLast?_cons_cons]
    rw [this] at hc
    cases hvl : v.getLast? with
    | none => simp at hvl; exact absurd hvl hv.ne
    | some d => rw [hvl] at hc; simp at hc; subst hc; exact hv.last d hvl
  have hcom : isComment (k ++ ' ' :: '=' :: ' ' :: v) = false := by
    have := hk.comment
    simp only [isComment, hhd]
    simp [this.1, this.2]
  rw [step_header st _ _ hs (by simp) hcom (indent_of hl) hst.indent]
  have hsec : sectionHeader (k ++ ' ' :: '=' :: ' ' :: v) = none := by
    cases hkk : k with
    | nil => exact absurd hkk hk.line.ne
    | cons a t =>
      have ha : a ≠ '[' := by
        have := hk.open_
        rw [hkk] at this
        simpa using this
      simp only [List.cons_append]
      rw [sectionHeader]
      intro s' e; exact ha (List.cons.inj e).1
  have hopt : st.options n = raw := by
    simp [Ini.options, hst.special, hst.sections, get_last ds n raw hst.fresh]
  refine ⟨?_, hopt⟩
  unfold Ini.header
  rw [hsec, hst.cur]
  simp only [optionLine_written k v hk hv]

theorem step_option (st : Ini) (ds : Dict Text (Dict Text (List Text))) (n : Text) (raw : Dict Text (List Text)) (k v : Text)
    (hst : At st ds n raw) (hk : EntryName k) (hv : OneLine v) (hf : k ∉ Dict.keys raw) :
    ∃ st', st.step (k ++ ' ' :: '=' :: ' ' :: v) = .ok st' ∧ At st' ds n (raw ++ [(k, [v])]) ∧ st'.opt = some k := by
  obtain ⟨hstep, hopt⟩ := step_option_line st ds n raw k v hst hk hv
  rw [hstep]
  simp only [Ini.option, hk.line.ne, if_false, hopt, has_fresh raw k hf, Bool.false_eq_true]
  refine ⟨_, rfl, ⟨?_, ?_, ?_, ?_, hst.fresh, hst.special⟩, rfl⟩
  · simp [Ini.setOption, hst.special, hst.defaults]
  · simp only [Ini.setOption, hst.special, if_false, hopt, hst.sections]
    rw [put_last ds n _ _ hst.fresh, put_fresh raw k _ hf]
  · simp [Ini.setOption, hst.special, hst.cur]
  · simp [Ini.setOption, hst.special, hst.indent]

/-- The options of a section. -/
theorem run_options (kvs : Dict Text Text) : ∀ (st : Ini) (ds : Dict Text (Dict Text (List Text))) (n : Text)
    (raw : Dict Text (List Text)) (rest : List Text), At st ds n raw → (∀ k ∈ Dict.keys kvs, EntryName k) →
    (∀ v ∈ Dict.values kvs, OneLine v) → (Dict.keys raw ++ Dict.keys kvs).Nodup →
    (st.opt = none ∧ raw = [] ∨ ∃ r k ls, raw = r ++ [(k, ls)] ∧ st.opt = some k ∧ ls ≠ []) →
    ∃ st' raw', runLines (kvs.map (fun kv => kv.1 ++ ' ' :: '=' :: ' ' :: kv.2) ++ rest) st = runLines rest st' ∧
      At st' ds n raw' ∧ joined raw' = joined raw ++ kvs ∧
      (st'.opt = none ∧ raw' = [] ∨ ∃ r k ls, raw' = r ++ [(k, ls)] ∧ st'.opt = some k ∧ ls ≠ []) := by
  induction kvs with
  | nil => intro st ds n raw rest h _ _ _ ho; exact ⟨st, raw, rfl, h, by simp, ho⟩
  | cons p kvs ih =>
    obtain ⟨k, v⟩ := p
    intro st ds n raw rest h hk hv hn ho
    have hf : k ∉ Dict.keys raw := by
      intro hx
      have := (List.nodup_append.1 hn).2.2 k hx k (by simp [Dict.keys])
      exact this rfl
    obtain ⟨st1, h1, h2, h3⟩ := step_option st ds n raw k v h (hk k (by simp [Dict.keys])) (hv v (by simp [Dict.values])) hf
    obtain ⟨st', raw', h4, h5, h6, h7⟩ := ih st1 ds n (raw ++ [(k, [v])]) rest h2 (fun x hx => hk x (by simp [Dict.keys] at hx ⊢; right; exact hx))
      (fun x hx => hv x (by simp [Dict.values] at hx ⊢; right; exact hx)) (by simpa [Dict.keys] using hn) (.inr ⟨raw, k, [v], rfl, h3, by simp⟩)
    refine ⟨st', raw', ?_, h5, ?_, h7⟩
    · simp only [List.map_cons, List.cons_append, runLines, h1]
      exact h4
    · rw [h6]
      have : joinValue [v] = v := rstrip_line (hv v (by simp [Dict.values]))
      simp [joined, this]

/-- The empty line after a section. -/
theorem step_empty (st : Ini) (ds : Dict Text (Dict Text (List Text))) (n : Text) (raw : Dict Text (List Text)) (h : At st ds n raw)
    (hn : (Dict.keys raw).Nodup)
    (ho : st.opt = none ∧ raw = [] ∨ ∃ r k ls, raw = r ++ [(k, ls)] ∧ st.opt = some k ∧ ls ≠ []) :
    ∃ st' raw', st.step [] = .ok st' ∧ Done st' (ds ++ [(n, raw')]) ∧ joined raw' = joined raw ∧ At st' ds n raw' ∧
      (st'.opt = none ∧ raw' = [] ∨ ∃ r k ls, raw' = r ++ [(k, ls)] ∧ st'.opt = some k ∧ ls ≠ []) := by
  have hc : isComment (stripText []) = false := rfl
  have he : stripText [] = [] := rfl
  unfold Ini.step
  simp only [hc, Bool.false_eq_true, if_false, he, if_true]
  rcases ho with ⟨ho, hraw⟩ | ⟨r, k, ls, hr, ho, hls⟩
  · have : st.place = none := by simp [Ini.place, h.cur, ho]
    simp only [this]
    exact ⟨st, raw, rfl, ⟨h.defaults, h.sections, h.indent⟩, rfl, h, .inl ⟨ho, hraw⟩⟩
  · have : st.place = some (n, k) := by simp [Ini.place, h.cur, ho]
    simp only [this]
    subst hr
    have hkr : k ∉ Dict.keys r := by
      intro hx
      have hn' : (Dict.keys r ++ [k]).Nodup := by simpa [Dict.keys] using hn
      exact (List.nodup_append.1 hn').2.2 k hx k (by simp) rfl
    have hopt : st.options n = r ++ [(k, ls)] := by
      simp [Ini.options, h.special, h.sections, get_last ds n _ h.fresh]
    have happ : st.append n k [] = { st with sections := ds ++ [(n, r ++ [(k, ls ++ [[]])])] } := by
      simp only [Ini.append, Ini.setOption, h.special, if_false, hopt, get_last r k ls hkr, Option.getD_some, h.sections,
        put_last r k _ _ hkr, put_last ds n _ _ h.fresh]
    refine ⟨_, r ++ [(k, ls ++ [[]])], rfl, ⟨?_, ?_, ?_⟩, ?_, ⟨?_, ?_, ?_, ?_, h.fresh, h.special⟩, .inr ⟨r, k, _, rfl, ?_, by simp⟩⟩
    all_goals try rw [happ]
    · exact h.defaults
    · exact h.indent
    · simp [joined, joinValue_empty ls hls]
    · exact h.defaults
    · exact h.cur
    · exact h.indent
    · exact ho

/-- The lines of a section. -/
def sectionLines (s : Text × Dict Text Text) : List Text :=
  ('[' :: (s.1 ++ [']'])) :: (s.2.map (fun kv => kv.1 ++ ' ' :: '=' :: ' ' :: kv.2) ++ [[]])

/-- A configuration that can be written. -/
structure Writable (d : Dict Text (Dict Text Text)) : Prop where
  groups : (Dict.keys d).Nodup
  group : ∀ s ∈ d, GroupName s.1
  names : ∀ s ∈ d, (Dict.keys s.2).Nodup
  name : ∀ s ∈ d, ∀ k ∈ Dict.keys s.2, EntryName k
  value : ∀ s ∈ d, ∀ v ∈ Dict.values s.2, Value v

theorem run_sections (d : Dict Text (Dict Text Text)) : ∀ (st : Ini) (ds : Dict Text (Dict Text (List Text))),
    Done st ds → Writable d → (Dict.keys ds ++ Dict.keys d).Nodup →
    ∃ st' ds', runLines (d.flatMap sectionLines) st = .ok st' ∧ Done st' ds' ∧
      ds'.map (fun s => (s.1, joined s.2)) = ds.map (fun s => (s.1, joined s.2)) ++ d := by
  induction d with
  | nil => intro st ds h _ _; exact ⟨st, ds, rfl, h, by simp⟩
  | cons s d ih =>
    obtain ⟨n, kvs⟩ := s
    intro st ds h hw hn
    have hf : n ∉ Dict.keys ds := by
      intro hx
      exact (List.nodup_append.1 hn).2.2 n hx n (by simp [Dict.keys]) rfl
    obtain ⟨st1, h1, h2, h3⟩ := step_section st ds n h (hw.group (n, kvs) (by simp)) hf
    obtain ⟨st2, raw2, h4, h5, h6, h7⟩ := run_options kvs st1 ds n [] ([] :: d.flatMap sectionLines) h2
      (hw.name (n, kvs) (by simp)) (fun v hv => (hw.value (n, kvs) (by simp) v hv).line)
      (by simpa [Dict.keys] using hw.names (n, kvs) (by simp)) (.inl ⟨h3, rfl⟩)
    have h6' : joined raw2 = kvs := by simpa [joined] using h6
    have hraw : (Dict.keys raw2).Nodup := by
      rw [← joined_keys, h6']; exact hw.names (n, kvs) (by simp)
    obtain ⟨st3, raw3, h8, h9, h10⟩ := step_empty st2 ds n raw2 h5 hraw h7
    obtain ⟨st', ds', h13, h14, h15⟩ := ih st3 (ds ++ [(n, raw3)]) h9
      ⟨(by have := hw.groups; simp [Dict.keys] at this ⊢; exact this.2), fun s hs => hw.group s (by simp [hs]),
        fun s hs => hw.names s (by simp [hs]), fun s hs => hw.name s (by simp [hs]), fun s hs => hw.value s (by simp [hs])⟩
      (by simpa [Dict.keys] using hn)
    refine ⟨st', ds', ?_, h14, ?_⟩
    · simp only [List.flatMap_cons, sectionLines, List.cons_append, List.append_assoc, runLines, h1, List.nil_append]
      rw [h4]
      simp only [runLines, h8]
      exact h13
    · rw [h15]
      simp [h10, h6']

/-! ### The text of the file -/

/-- Lines, each with its end. -/
def unlines (ls : List Text) : Text := ls.flatMap (fun l => l ++ ['\n'])

theorem split_unlines : ∀ (ls : List Text), (∀ l ∈ ls, '\n' ∉ l) → splitAt (· == '\n') (unlines ls) = ls ++ [[]]
  | [], _ => rfl
  | l :: ls, h => by
    have hl : ∀ c ∈ l, (c == '\n') = false := by
      intro c hc; simp; rintro rfl; exact h l (by simp) hc
    have : unlines (l :: ls) = l ++ '\n' :: unlines ls := by simp [unlines]
    rw [this, splitAt_append _ l '\n' _ hl (by decide), split_unlines ls (fun x hx => h x (by simp [hx]))]
    rfl

theorem dropEnd_lines : ∀ (ls : List Text), dropEnd (ls ++ [[]]) = ls
  | [] => rfl
  | [l] => by simp [dropEnd]
  | l :: m :: ls => by
    have := dropEnd_lines (m :: ls)
    simp only [List.cons_append] at this ⊢
    rw [dropEnd, this]

theorem unlines_append (a b : List Text) : unlines (a ++ b) = unlines a ++ unlines b := by simp [unlines]

theorem written_lines (d : Dict Text (Dict Text Text)) (h : Writable d) :
    d.flatMap writeSection = unlines (d.flatMap sectionLines) := by
  induction d with
  | nil => rfl
  | cons s d ih =>
    rw [List.flatMap_cons, List.flatMap_cons, unlines_append, ih ⟨(by have := h.groups; simp [Dict.keys] at this ⊢; exact this.2),
      fun s hs => h.group s (by simp [hs]), fun s hs => h.names s (by simp [hs]), fun s hs => h.name s (by simp [hs]),
      fun s hs => h.value s (by simp [hs])⟩]
    congr 1
    obtain ⟨n, kvs⟩ := s
    have hv : ∀ kv ∈ kvs, writeOption kv = kv.1 ++ ' ' :: '=' :: ' ' :: kv.2 := by
      intro kv hkv
      have := (h.value (n, kvs) (by simp) kv.2 (List.mem_map.2 ⟨kv, hkv, rfl⟩)).line.line
      simp [writeOption, indentLines_plain _ this]
    have : kvs.flatMap (fun kv => writeOption kv ++ ['\n']) = unlines (kvs.map (fun kv => kv.1 ++ ' ' :: '=' :: ' ' :: kv.2)) := by
      have hc : ∀ (l : List (Text × Text)), (∀ kv ∈ l, writeOption kv = kv.1 ++ ' ' :: '=' :: ' ' :: kv.2) →
          l.flatMap (fun kv => writeOption kv ++ ['\n']) = unlines (l.map (fun kv => kv.1 ++ ' ' :: '=' :: ' ' :: kv.2)) := by
        intro l
        induction l with
        | nil => intro _; rfl
        | cons kv l ih =>
          intro hl
          have := ih (fun x hx => hl x (by simp [hx]))
          simp only [List.flatMap_cons, List.map_cons, this, hl kv (by simp)]
          simp [unlines]
      exact hc kvs hv
    simp only [writeSection, sectionLines, this]
    simp [unlines]

theorem section_lines (d : Dict Text (Dict Text Text)) (h : Writable d) : ∀ l ∈ d.flatMap sectionLines, '\n' ∉ l := by
  intro l hl
  simp only [List.mem_flatMap, sectionLines, List.mem_cons, List.mem_append, List.mem_map, List.mem_singleton] at hl
  obtain ⟨s, hs, hl⟩ := hl
  rcases hl with rfl | ⟨kv, hkv, rfl⟩ | hl
  · have := (h.group s hs).line.line
    simp [this]
  · have h1 := (h.name s hs kv.1 (List.mem_map.2 ⟨kv, hkv, rfl⟩)).line.line
    have h2 := (h.value s hs kv.2 (List.mem_map.2 ⟨kv, hkv, rfl⟩)).line.line
    simp [h1, h2]
  · rcases hl with rfl | hl
    · simp
    · simp at hl

theorem values_joined (d : Dict Text (List Text)) (h : ∀ v ∈ Dict.values (joined d), '%' ∉ v) : values d = .ok (joined d) := by
  induction d with
  | nil => rfl
  | cons p d ih =>
    obtain ⟨k, ls⟩ := p
    have h1 := ih (fun v hv => h v (by simp [joined, Dict.values] at hv ⊢; right; exact hv))
    have h2 := interpolate_plain _ (h (joinValue ls) (by simp [joined, Dict.values]))
    simp [values, h1, h2, joined]

theorem addSections_joined (ds : Dict Text (Dict Text (List Text))) : ∀ (acc : Dict Text Item),
    (∀ s ∈ ds, ∀ v ∈ Dict.values (joined s.2), '%' ∉ v) → (Dict.keys acc ++ Dict.keys ds).Nodup →
    addSections [] ds acc = .ok (acc ++ ds.map (fun s => (s.1, .inr (joined s.2)))) := by
  induction ds with
  | nil => intro acc _ _; simp [addSections]
  | cons s ds ih =>
    obtain ⟨n, raw⟩ := s
    intro acc h hn
    have hf : n ∉ Dict.keys acc := by
      intro hx
      exact (List.nodup_append.1 hn).2.2 n hx n (by simp [Dict.keys]) rfl
    have : sectionValues [] raw = .ok (joined raw) := by
      simp only [sectionValues, List.filter_nil, List.append_nil]
      exact values_joined raw (h (n, raw) (by simp))
    simp only [addSections, this]
    rw [ih _ (fun s hs => h s (by simp [hs])) (by rw [put_fresh acc n _ hf]; simpa [Dict.keys] using hn), put_fresh acc n _ hf]
    simp

/-- What was written is read. -/
theorem ini_round_trip (d : Dict Text (Dict Text Text)) (h : Writable d) :
    ∃ text, writeIni d = .ok text ∧ readIni text = .ok (d.map (fun s => (s.1, .inr s.2))) := by
  refine ⟨d.flatMap writeSection, ?_, ?_⟩
  · unfold writeIni
    rw [if_neg]
    simp only [Bool.not_eq_true, List.any_eq_false, Bool.or_eq_false_iff]
    intro s hs
    refine ⟨by simpa using (h.group s hs).special, ?_⟩
    intro kv hkv
    simp [settable_plain _ (h.value s hs kv.2 (List.mem_map.2 ⟨kv, hkv, rfl⟩)).percent]
  · obtain ⟨st, ds, h1, h2, h3⟩ := run_sections d {} [] ⟨rfl, rfl, rfl⟩ h (by simpa [Dict.keys] using h.groups)
    simp only [List.map_nil, List.nil_append] at h3
    unfold readIni
    rw [written_lines d h, split_unlines _ (section_lines d h), dropEnd_lines, h1]
    simp only [collect, h2.defaults, values, h2.sections, List.map_nil]
    have hkeys : Dict.keys ds = Dict.keys d := by
      rw [← h3]; simp [Dict.keys]
    rw [addSections_joined ds [] _ (by rw [hkeys]; simpa [Dict.keys] using h.groups)]
    · rw [← h3]; simp
    · intro s hs v hv
      have : (s.1, joined s.2) ∈ d := by
        rw [← h3]; exact List.mem_map.2 ⟨s, hs, rfl⟩
      exact (h.value _ this v hv).percent

/-! ### Entry points -/

theorem namesOf_nodup (es : List EntryPoint) (h : (es.map (·.name)).Nodup) :
    namesOf es = es.map (fun e => (e.name, e.ref.show)) := by
  have : ∀ (es : List EntryPoint) (d : Dict Text Text), (Dict.keys d ++ es.map (·.name)).Nodup →
      es.foldl (fun d e => d.put e.name e.ref.show) d = d ++ es.map (fun e => (e.name, e.ref.show)) := by
    intro es
    induction es with
    | nil => intro d _; simp
    | cons e es ih =>
      intro d hd
      have hf : e.name ∉ Dict.keys d := by
        intro hx
        exact (List.nodup_append.1 hd).2.2 _ hx e.name (by simp) rfl
      simp only [List.foldl_cons]
      rw [put_fresh d _ _ hf, ih _ (by simpa [Dict.keys] using hd)]
      simp
  simpa [namesOf] using this es [] (by simpa [Dict.keys] using h)

theorem value_show (r : Ref) (h : PlainRef r) : Value r.show := by
  obtain ⟨m, o, x⟩ := r
  have hx : x = none := h.extras
  subst hx
  have hm := h.module
  have hne : m ≠ [] := hm.1.ne
  have hhd : ∀ t, (m ++ t).head? = m.head? := by
    intro t
    cases hkk : m with
    | nil => exact absurd hkk hne
    | cons a t => simp
  cases o with
  | none =>
    have : Ref.show ⟨m, none, none⟩ = m := by simp [Ref.show, showObject, showExtras]
    rw [this]
    exact ⟨hm.1, hm.2.2⟩
  | some o =>
    have ho := h.object o rfl
    have : Ref.show ⟨m, some o, none⟩ = m ++ ':' :: o := by simp [Ref.show, showObject, showExtras, ho.1.ne]
    rw [this]
    refine ⟨⟨by simp, ?_, ?_, ?_⟩, ?_⟩
    · have h1 := hm.1.line
      have h2 := ho.1.line
      simp at h1
      simp [h1, h2]
    · intro c hc; rw [hhd] at hc; exact hm.1.first c hc
    · intro c hc
      rw [List.getLast?_append] at hc
      have : (':' :: o).getLast? = o.getLast? := by
        cases hoo : o with
        | nil => exact absurd hoo ho.1.ne
        | cons a t => simp [List.getLast?_cons_cons]
      rw [this] at hc
      cases hvl : o.getLast? with
      | none => simp at hvl; exact absurd hvl ho.1.ne
      | some d => rw [hvl] at hc; simp at hc; subst hc; exact ho.1.last d hvl
    · have h1 := hm.2.2
      have h2 := ho.2.2
      simp at h1
      simp [h1, h2]

theorem group_of_mem (es : List EntryPoint) (g : Text) (l : List EntryPoint) (h : (g, l) ∈ Coll.groupby es (·.group)) :
    l = es.filter (fun e => decide (e.group = g)) := by
  have hg := Dict.mem_get _ _ _ (groupby_keys es (·.group)).1 h
  rw [groupby_groups] at hg
  split at hg
  · simp at hg
  · simpa using hg.symm

theorem names_nodup (es : List EntryPoint) (g : Text) (h : (es.map (fun e => (e.group, e.name))).Nodup) :
    ((es.filter (fun e => decide (e.group = g))).map (·.name)).Nodup := by
  induction es with
  | nil => simp
  | cons e es ih =>
    simp only [List.map_cons, List.nodup_cons] at h
    have ih := ih h.2
    by_cases hg : e.group = g
    · simp only [List.filter_cons, hg, decide_true, if_true, List.map_cons, List.nodup_cons]
      refine ⟨?_, ih⟩
      intro hx
      simp only [List.mem_map, List.mem_filter, decide_eq_true_eq] at hx
      obtain ⟨f, ⟨hf, hfg⟩, hfn⟩ := hx
      exact h.1 (List.mem_map.2 ⟨f, hf, by rw [hfg, hfn, hg]⟩)
    · simp only [List.filter_cons, hg, decide_false, Bool.false_eq_true, if_false]
      exact ih

theorem fromData_sections (d : Dict Text (Dict Text Text)) :
    fromData (d.map (fun s => (s.1, .inr s.2))) = .ok (d.flatMap (fun s => s.2.map (fun kv => ⟨s.1, kv.1, Ref.parse kv.2⟩))) := by
  induction d with
  | nil => rfl
  | cons s d ih => simp [fromData, ih]

/-- C62: saving a list of entry points and loading the file yields the same entry points, grouped. Missing: extras (false,
`entry_extras_violated`), names with a colon (false, `entry_colon_violated`), values with `%`, and names that no file of this format
can hold. -/
theorem entrypoints_round_trip_partial (es : List EntryPoint) (hn : (es.map (fun e => (e.group, e.name))).Nodup)
    (h : ∀ e ∈ es, PlainEntry e) :
    ∃ text got, saveEntries es = .ok text ∧ loadEntries text = .ok got ∧ got.Perm es := by
  have hmem : ∀ s ∈ Coll.groupby es (·.group), ∀ e ∈ s.2, e ∈ es ∧ e.group = s.1 := by
    intro s hs e he
    rw [group_of_mem es s.1 s.2 hs] at he
    simpa using he
  have hnames : ∀ s ∈ Coll.groupby es (·.group), namesOf s.2 = s.2.map (fun e => (e.name, e.ref.show)) := by
    intro s hs
    apply namesOf_nodup
    rw [group_of_mem es s.1 s.2 hs]
    exact names_nodup es s.1 hn
  have hne : ∀ s ∈ Coll.groupby es (·.group), s.2 ≠ [] := by
    intro s hs hx
    have hg := Dict.mem_get _ _ _ (groupby_keys es (·.group)).1 hs
    rw [groupby_groups] at hg
    split at hg
    · simp at hg
    · rename_i he
      simp only [Option.some.injEq] at hg
      rw [hg, hx] at he
      simp at he
  have hw : Writable (toData es) := by
    refine ⟨?_, ?_, ?_, ?_, ?_⟩
    · have := (groupby_keys es (·.group)).1
      simpa [toData, Dict.keys, Function.comp_def] using this
    · intro s hs
      simp only [toData, List.mem_map] at hs
      obtain ⟨g, hg, rfl⟩ := hs
      cases hl : g.2 with
      | nil => exact absurd hl (hne g hg)
      | cons e l =>
        have := hmem g hg e (by simp [hl])
        have h2 := (h e this.1).group
        rw [this.2] at h2
        exact h2
    · intro s hs
      simp only [toData, List.mem_map] at hs
      obtain ⟨g, hg, rfl⟩ := hs
      simp only [hnames g hg]
      have := names_nodup es g.1 hn
      rw [← group_of_mem es g.1 g.2 hg] at this
      simpa [Dict.keys, Function.comp_def] using this
    · intro s hs k hk
      simp only [toData, List.mem_map] at hs
      obtain ⟨g, hg, rfl⟩ := hs
      simp only [hnames g hg, Dict.keys, List.map_map, List.mem_map] at hk
      obtain ⟨e, he, rfl⟩ := hk
      exact (h e (hmem g hg e he).1).name
    · intro s hs v hv
      simp only [toData, List.mem_map] at hs
      obtain ⟨g, hg, rfl⟩ := hs
      simp only [hnames g hg, Dict.values, List.map_map, List.mem_map] at hv
      obtain ⟨e, he, rfl⟩ := hv
      exact value_show _ (h e (hmem g hg e he).1).ref
  obtain ⟨text, h1, h2⟩ := ini_round_trip (toData es) hw
  refine ⟨text, (toData es).flatMap (fun s => s.2.map (fun kv => ⟨s.1, kv.1, Ref.parse kv.2⟩)), h1, ?_, ?_⟩
  · simp only [loadEntries, h2]
    exact fromData_sections (toData es)
  · have hp := groupby_loses_nothing es (·.group)
    refine List.Perm.trans (List.Perm.of_eq ?_) hp
    simp only [toData, List.flatMap_map, Dict.values, List.flatMap_def, List.map_map]
    congr 1
    apply List.map_congr_left
    intro g hg
    show (namesOf g.2).map (fun kv => (⟨g.1, kv.1, Ref.parse kv.2⟩ : EntryPoint)) = g.2
    rw [hnames g hg, List.map_map]
    have : ∀ e ∈ g.2, ((fun kv : Text × Text => (⟨g.1, kv.1, Ref.parse kv.2⟩ : EntryPoint)) ∘ fun e => (e.name, e.ref.show)) e = e := by
      intro e he
      have h3 := hmem g hg e he
      simp only [Function.comp, reference_round_trip _ (h e h3.1).ref]
      rw [← h3.2]
    rw [List.map_congr_left this, List.map_id']

/-! ### Examples and failures -/

namespace Example

def tool : EntryPoint := ⟨t!"console_scripts", t!"my tool", ⟨t!"pkg.main", some t!"run.cli", none⟩⟩
def plugin : EntryPoint := ⟨t!"pkg.plugins", t!"p", ⟨t!"pkg", none, none⟩⟩
def gui : EntryPoint := ⟨t!"console_scripts", t!"gui", ⟨t!"pkg.gui", some t!"run", none⟩⟩

theorem oneLine (s : Text) (h : (s ≠ [] ∧ '\n' ∉ s ∧ s.head?.all (fun c => !isSpace c) = true ∧ s.getLast?.all (fun c => !isSpace c) = true)) :
    OneLine s := by
  refine ⟨h.1, h.2.1, ?_, ?_⟩
  · intro c hc
    have := h.2.2.1
    rw [hc] at this
    simpa using this
  · intro c hc
    have := h.2.2.2
    rw [hc] at this
    simpa using this

example : ∀ e ∈ [tool, plugin, gui], PlainEntry e := by
  intro e he
  simp at he
  rcases he with rfl | rfl | rfl
  · exact ⟨⟨oneLine _ (by decide), by decide, by decide⟩, ⟨oneLine _ (by decide), by decide, by decide, by decide, by decide⟩,
      ⟨⟨oneLine _ (by decide), by decide, by decide⟩, by rintro o h; cases h; exact ⟨oneLine _ (by decide), by decide, by decide⟩, rfl⟩⟩
  · exact ⟨⟨oneLine _ (by decide), by decide, by decide⟩, ⟨oneLine _ (by decide), by decide, by decide, by decide, by decide⟩,
      ⟨⟨oneLine _ (by decide), by decide, by decide⟩, (by rintro o h; cases h), rfl⟩⟩
  · exact ⟨⟨oneLine _ (by decide), by decide, by decide⟩, ⟨oneLine _ (by decide), by decide, by decide, by decide, by decide⟩,
      ⟨⟨oneLine _ (by decide), by decide, by decide⟩, by rintro o h; cases h; exact ⟨oneLine _ (by decide), by decide, by decide⟩, rfl⟩⟩

/-- The entries of a group are moved together. -/
example : ∃ text, saveEntries [tool, plugin, gui] = .ok text ∧ loadEntries text = .ok [tool, gui, plugin] := ⟨_, rfl, rfl⟩

end Example

/-- C62: a file that names an entry point twice in a group is refused, whatever comes after it. -/
theorem entry_twice_refused (g n u v : Text) (rest : List Text) (hg : GroupName g) (hn : EntryName n) (hu : OneLine u) (hv : OneLine v)
    (hrest : ∀ l ∈ rest, '\n' ∉ l) :
    loadEntries (unlines (('[' :: (g ++ [']'])) :: (n ++ ' ' :: '=' :: ' ' :: u) :: (n ++ ' ' :: '=' :: ' ' :: v) :: rest)) =
      .error .duplicate := by
  obtain ⟨s1, h1, a1, _⟩ := step_section {} [] g ⟨rfl, rfl, rfl⟩ hg (by simp [Dict.keys])
  obtain ⟨s2, h2, a2, _⟩ := step_option s1 [] g [] n u a1 hn hu (by simp [Dict.keys])
  obtain ⟨h3, o3⟩ := step_option_line s2 [] g _ n v a2 hn hv
  have h4 : s2.option g (some (n, v)) = .error .duplicate := by
    simp [Ini.option, hn.line.ne, o3, Dict.has, Dict.get]
  have hlines : ∀ l ∈ ('[' :: (g ++ [']'])) :: (n ++ ' ' :: '=' :: ' ' :: u) :: (n ++ ' ' :: '=' :: ' ' :: v) :: rest, '\n' ∉ l := by
    intro l hl
    simp only [List.mem_cons] at hl
    rcases hl with rfl | rfl | rfl | hl
    · simp [hg.line.line]
    · simp [hn.line.line, hu.line]
    · simp [hn.line.line, hv.line]
    · exact hrest l hl
  unfold loadEntries readIni
  rw [split_unlines _ hlines, dropEnd_lines]
  simp only [runLines, h1, h2, h3, h4]

/-- C62: a file that has a group twice is refused, whatever comes after it. -/
theorem entry_group_twice_refused (g n u : Text) (rest : List Text) (hg : GroupName g) (hn : EntryName n) (hu : OneLine u)
    (hrest : ∀ l ∈ rest, '\n' ∉ l) :
    loadEntries (unlines (('[' :: (g ++ [']'])) :: (n ++ ' ' :: '=' :: ' ' :: u) :: ('[' :: (g ++ [']'])) :: rest)) =
      .error .duplicate := by
  obtain ⟨s1, h1, a1, _⟩ := step_section {} [] g ⟨rfl, rfl, rfl⟩ hg (by simp [Dict.keys])
  obtain ⟨s2, h2, a2, _⟩ := step_option s1 [] g [] n u a1 hn hu (by simp [Dict.keys])
  have h3 := step_section_line s2 g a2.indent hg
  have h4 : s2.enter g = .error .duplicate := by
    simp [Ini.enter, a2.sections, Dict.has, Dict.get]
  have hlines : ∀ l ∈ ('[' :: (g ++ [']'])) :: (n ++ ' ' :: '=' :: ' ' :: u) :: ('[' :: (g ++ [']'])) :: rest, '\n' ∉ l := by
    intro l hl
    simp only [List.mem_cons] at hl
    rcases hl with rfl | rfl | rfl | hl
    · simp [hg.line.line]
    · simp [hn.line.line, hu.line]
    · simp [hg.line.line]
    · exact hrest l hl
  unfold loadEntries readIni
  rw [split_unlines _ hlines, dropEnd_lines]
  simp only [runLines, h1, h2, h3, h4]

/-- A group of scripts that stands in the file twice. -/
example : loadEntries t!"[g]\na = m:f\n[g]\nb = m:h\n" = .error .duplicate := rfl

/-- C62: exactly the entry points of the two groups of scripts are scripts. -/
theorem entry_scripts (e : EntryPoint) : e.isScript = true ↔ e.group = t!"console_scripts" ∨ e.group = t!"gui_scripts" := by
  simp [EntryPoint.isScript]

/-- C62 is false for extras: the object read back has a blank at its end, so that importing it looks up an attribute that no module
has; every further save and load adds another blank. -/
theorem entry_extras_violated : ∃ e text e' text' e'', e.ref.attributes = some [t!"f"] ∧
    saveEntries [e] = .ok text ∧ loadEntries text = .ok [e'] ∧ e'.ref.attributes = some [t!"f "] ∧
    saveEntries [e'] = .ok text' ∧ loadEntries text' = .ok [e''] ∧ e''.ref.attributes = some [t!"f  "] :=
  ⟨⟨t!"g", t!"n", ⟨t!"m", some t!"f", some [t!"x"]⟩⟩, _, ⟨t!"g", t!"n", ⟨t!"m", some t!"f ", some [t!"x"]⟩⟩, _,
    ⟨t!"g", t!"n", ⟨t!"m", some t!"f  ", some [t!"x"]⟩⟩, rfl, rfl, rfl, rfl, rfl, rfl, rfl⟩

/-- C62 is false for a module with extras: the extras become part of the module's name. -/
theorem entry_module_extras_violated : Ref.parse (Ref.show ⟨t!"m", none, some [t!"x"]⟩) = ⟨t!"m [x]", none, none⟩ := rfl

/-- C62 is false for names with a colon, which are allowed in entry points: the name is cut at the colon. -/
theorem entry_colon_violated : ∃ text, saveEntries [⟨t!"g", t!"a:b", ⟨t!"m", some t!"f", none⟩⟩] = .ok text ∧
    loadEntries text = .ok [⟨t!"g", t!"a", ⟨t!"b = m", some t!"f", none⟩⟩] := ⟨_, rfl, rfl⟩

end Entry
end Pkm
