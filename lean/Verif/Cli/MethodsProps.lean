import Verif.Cli.Methods
/-
Commands made from functions: every option reaches the parameter it is named after (C79).
-/
set_option linter.unusedVariables false
set_option linter.unusedSimpArgs false
namespace Pkm

/-! ### specification -/
namespace Spec
open Pkm.Cli.Methods

/-- A name of Python, in ASCII. -/
def PyIdent (a : Text) : Prop := a ≠ [] ∧ (∀ c ∈ a, word c = true) ∧ ∀ c, a.head? = some c → digit c = false

/-- A name without two underscores in a row and without an underscore in front, except before a digit. -/
def SingleBars (a : Text) : Prop :=
  (∀ cs, a = '_' :: cs → ∃ d ds, cs = d :: ds ∧ digit d = true) ∧ ¬ ∃ p s, a = p ++ '_' :: '_' :: s

/-- The parameters of a function that may be given by keyword. -/
def params (s : Sig) : List Text := s.args.map (·.1) ++ s.kwonly.map (·.1)

/-- A function that makes a command: no `*args`, names without runs of underscores, and a default for some keyword-only parameter
if there are any. -/
structure CommandSig (s : Sig) : Prop where
  idents : ∀ a ∈ params s, PyIdent a ∧ SingleBars a
  nodup : (params s).Nodup
  novar : s.varargs = none
  defaults : s.kwonly = [] ∨ ∃ k ∈ s.kwonly, k.2 ≠ .required

end Spec

namespace Cli.Methods
open Spec

theorem word_not_dash {c : Char} (h : word c = true) : c ≠ '-' := by
  rintro rfl
  exact absurd h (by decide)

theorem alpha_not_dash {c : Char} (h : alpha c = true) : c ≠ '-' := by
  rintro rfl
  exact absurd h (by decide)

theorem dash_injective (a b : Text) (ha : ∀ c ∈ a, word c = true) (hb : ∀ c ∈ b, word c = true) (h : dash a = dash b) :
    a = b := by
  induction a generalizing b with
  | nil => cases b with
    | nil => rfl
    | cons y ys => simp [dash] at h
  | cons x xs ih =>
    cases b with
    | nil => simp [dash] at h
    | cons y ys =>
      simp only [dash, List.map_cons, List.cons.injEq] at h
      have hx := word_not_dash (ha x List.mem_cons_self)
      have hy := word_not_dash (hb y List.mem_cons_self)
      have e : x = y := by
        have := h.1
        split at this <;> split at this
        · simp_all
        · exact absurd this.symm hy
        · exact absurd this hx
        · exact this
      rw [e, ih ys (fun c hc => ha c (List.mem_cons_of_mem _ hc)) (fun c hc => hb c (List.mem_cons_of_mem _ hc)) h.2]

theorem long_not_short (a : Text) (c : Char) (h : c ≠ '-') : longName a ≠ ['-', c] := by
  intro e
  simp [longName] at e
  exact h e.1.symm

/-- What the second loop gives. -/
theorem longs_spec (taken as : List Text) (a x : Text) (ns : List Text) (h : (a, ns) ∈ longs taken as) (hx : x ∈ ns) :
    a ∈ as ∧ (x = longName a ∨ ∃ c ∈ a, alpha c = true ∧ x = ['-', c] ∧ x ∉ taken) := by
  induction as generalizing taken with
  | nil => simp [longs] at h
  | cons b bs ih =>
    simp only [longs] at h
    split at h
    · rename_i c hc
      rcases List.mem_cons.1 h with h | h
      · cases h
        refine ⟨List.mem_cons_self, ?_⟩
        have hf := List.find?_some hc
        have hm := List.mem_of_find?_eq_some hc
        simp at hf
        simp at hx
        rcases hx with rfl | rfl
        · exact Or.inl rfl
        · exact Or.inr ⟨c, hm, hf.1, rfl, hf.2⟩
      · obtain ⟨h1, h2⟩ := ih _ h
        refine ⟨List.mem_cons_of_mem _ h1, h2.imp id ?_⟩
        rintro ⟨c', k1, k2, k3, k4⟩
        exact ⟨c', k1, k2, k3, fun hm => k4 (List.mem_cons_of_mem _ (List.mem_cons_of_mem _ hm))⟩
    · rcases List.mem_cons.1 h with h | h
      · cases h
        simp at hx
        exact ⟨List.mem_cons_self, Or.inl hx⟩
      · obtain ⟨h1, h2⟩ := ih _ h
        refine ⟨List.mem_cons_of_mem _ h1, h2.imp id ?_⟩
        rintro ⟨c', k1, k2, k3, k4⟩
        exact ⟨c', k1, k2, k3, fun hm => k4 (List.mem_cons_of_mem _ hm)⟩

theorem longs_distinct (taken as : List Text) (hn : as.Nodup) (hw : ∀ a ∈ as, ∀ c ∈ a, word c = true) (a b x : Text)
    (ns ms : List Text) (ha : (a, ns) ∈ longs taken as) (hb : (b, ms) ∈ longs taken as) (hx : x ∈ ns) (hy : x ∈ ms) : a = b := by
  -- the names of a later parameter are not those of the first
  have key : ∀ (T bs : List Text) (d : Text) (ds : List Text), (d, ds) ∈ longs T bs → x ∈ ds →
      ∀ e, (∀ c ∈ e, word c = true) → (∀ b ∈ bs, ∀ c ∈ b, word c = true) → e ∉ bs →
      (x = longName e ∨ (∃ c, c ≠ '-' ∧ x = ['-', c] ∧ x ∈ T)) → False := by
    intro T bs d ds hd hx e he hbs hne hor
    obtain ⟨h1, h2⟩ := longs_spec T bs d x ds hd hx
    rcases h2 with h2 | ⟨c, k1, k2, k3, k4⟩
    · rcases hor with h | ⟨c, hc, h, -⟩
      · rw [h2] at h
        simp only [longName, List.cons.injEq, true_and] at h
        have := dash_injective d e (hbs d h1) he h
        subst this
        exact hne h1
      · exact long_not_short d c hc (h2.symm.trans h)
    · rcases hor with h | ⟨-, -, -, h⟩
      · exact long_not_short e c (alpha_not_dash k2) (h.symm.trans k3)
      · exact k4 h
  induction as generalizing taken with
  | nil => simp [longs] at ha
  | cons d ds ih =>
    obtain ⟨n1, n2⟩ := List.nodup_cons.1 hn
    have wd := hw d List.mem_cons_self
    have wds : ∀ b ∈ ds, ∀ c ∈ b, word c = true := fun b hb => hw b (List.mem_cons_of_mem _ hb)
    simp only [longs] at ha hb
    split at ha
    · rename_i c hc
      have hf := List.find?_some hc
      simp at hf
      simp only [hc] at hb
      have first : ∀ x', x' ∈ [longName d, ['-', c]] → x' = x →
          (x = longName d ∨ (∃ c', c' ≠ '-' ∧ x = ['-', c'] ∧ x ∈ longName d :: ['-', c] :: taken)) := by
        rintro x' hx' rfl
        simp at hx'
        rcases hx' with h | h
        · exact Or.inl h
        · exact Or.inr ⟨c, alpha_not_dash hf.1, h, by simp [h]⟩
      rcases List.mem_cons.1 ha with ha | ha <;> rcases List.mem_cons.1 hb with hb | hb
      · rw [(Prod.mk.inj ha).1, (Prod.mk.inj hb).1]
      · rw [(Prod.mk.inj ha).2] at hx
        exact (key _ ds b ms hb hy d wd wds n1 (first x hx rfl)).elim
      · rw [(Prod.mk.inj hb).2] at hy
        exact (key _ ds a ns ha hx d wd wds n1 (first x hy rfl)).elim
      · exact ih _ n2 wds ha hb
    · rename_i hc
      simp only [hc] at hb
      have first : ∀ x', x' ∈ [longName d] → x' = x →
          (x = longName d ∨ (∃ c', c' ≠ '-' ∧ x = ['-', c'] ∧ x ∈ longName d :: taken)) := by
        rintro x' hx' rfl
        simp at hx'
        exact Or.inl hx'
      rcases List.mem_cons.1 ha with ha | ha <;> rcases List.mem_cons.1 hb with hb | hb
      · rw [(Prod.mk.inj ha).1, (Prod.mk.inj hb).1]
      · rw [(Prod.mk.inj ha).2] at hx
        exact (key _ ds b ms hb hy d wd wds n1 (first x hx rfl)).elim
      · rw [(Prod.mk.inj hb).2] at hy
        exact (key _ ds a ns ha hx d wd wds n1 (first x hy rfl)).elim
      · exact ih _ n2 wds ha hb

theorem longs_mem (taken as : List Text) (a : Text) : a ∈ as ↔ ∃ ns, (a, ns) ∈ longs taken as := by
  induction as generalizing taken with
  | nil => simp [longs]
  | cons b bs ih =>
    simp only [longs]
    split
    · rename_i c hc
      rw [List.mem_cons, ih (longName b :: ['-', c] :: taken)]
      constructor
      · rintro (rfl | ⟨ns, h⟩)
        · exact ⟨_, List.mem_cons_self⟩
        · exact ⟨ns, List.mem_cons_of_mem _ h⟩
      · rintro ⟨ns, h⟩
        rcases List.mem_cons.1 h with h | h
        · cases h; exact Or.inl rfl
        · exact Or.inr ⟨ns, h⟩
    · rename_i hc
      rw [List.mem_cons, ih (longName b :: taken)]
      constructor
      · rintro (rfl | ⟨ns, h⟩)
        · exact ⟨_, List.mem_cons_self⟩
        · exact ⟨ns, List.mem_cons_of_mem _ h⟩
      · rintro ⟨ns, h⟩
        rcases List.mem_cons.1 h with h | h
        · cases h; exact Or.inl rfl
        · exact Or.inr ⟨ns, h⟩

theorem longs_names (taken as : List Text) (a : Text) (ns : List Text) (h : (a, ns) ∈ longs taken as) :
    ns = [longName a] ∨ ∃ c ∈ a, alpha c = true ∧ ns = [longName a, ['-', c]] := by
  induction as generalizing taken with
  | nil => simp [longs] at h
  | cons b bs ih =>
    simp only [longs] at h
    split at h
    · rename_i c hc
      rcases List.mem_cons.1 h with h | h
      · cases h
        have hf := List.find?_some hc
        simp at hf
        exact Or.inr ⟨c, List.mem_of_find?_eq_some hc, hf.1, rfl⟩
      · exact ih _ h
    · rcases List.mem_cons.1 h with h | h
      · cases h; exact Or.inl rfl
      · exact ih _ h

/-! ### C79: the names of the options -/

/-- Every keyword-only parameter has its names: a letter after a dash, or the long name with or without such a letter of it. -/
theorem option_names (args : List Text) (a : Text) :
    (a ∈ args → ∃ ns, (a, ns) ∈ optionNames args) ∧
    ∀ ns, (a, ns) ∈ optionNames args → a ∈ args ∧
      ((a.length = 1 ∧ ns = [t!"-" ++ a]) ∨
       (a.length ≠ 1 ∧ (ns = [t!"--" ++ dash a] ∨ ∃ c ∈ a, alpha c = true ∧ ns = [t!"--" ++ dash a, t!"-" ++ [c]]))) := by
  unfold optionNames
  constructor
  · intro ha
    by_cases h1 : a.length = 1
    · exact ⟨_, List.mem_append_left _ (List.mem_map.2 ⟨a, List.mem_filter.2 ⟨ha, by simp [h1]⟩, rfl⟩)⟩
    · obtain ⟨ns, hns⟩ := (longs_mem ((args.filter (fun a => a.length = 1)).map (fun a => '-' :: a))
        (args.filter (fun a => a.length ≠ 1)) a).1 (List.mem_filter.2 ⟨ha, by simp [h1]⟩)
      exact ⟨ns, List.mem_append_right _ hns⟩
  · intro ns h
    rcases List.mem_append.1 h with h | h
    · obtain ⟨b, hb, he⟩ := List.mem_map.1 h
      cases he
      obtain ⟨m1, m2⟩ := List.mem_filter.1 hb
      exact ⟨m1, Or.inl ⟨by simpa using m2, rfl⟩⟩
    · have hm := (longs_mem _ _ a).2 ⟨ns, h⟩
      obtain ⟨m1, m2⟩ := List.mem_filter.1 hm
      refine ⟨m1, Or.inr ⟨by simpa using m2, ?_⟩⟩
      exact longs_names _ _ _ _ h

/-- No name is that of two parameters. -/
theorem option_names_distinct (args : List Text) (hn : args.Nodup) (hw : ∀ a ∈ args, PyIdent a) (a b x : Text)
    (ns ms : List Text) (ha : (a, ns) ∈ optionNames args) (hb : (b, ms) ∈ optionNames args) (hx : x ∈ ns) (hy : x ∈ ms) :
    a = b := by
  have hw' : ∀ a ∈ args.filter (fun a => a.length ≠ 1), ∀ c ∈ a, word c = true :=
    fun a ha => (hw a (List.mem_filter.1 ha).1).2.1
  have cross : ∀ d, d ∈ args.filter (fun a => a.length = 1) →
      ∀ e es, (e, es) ∈ longs ((args.filter (fun a => a.length = 1)).map (fun a => '-' :: a))
        (args.filter (fun a => a.length ≠ 1)) → x ∈ ['-' :: d] → x ∈ es → False := by
    intro d hd e es he h1 h2
    simp at h1
    obtain ⟨-, h3⟩ := longs_spec _ _ _ _ _ he h2
    rcases h3 with h3 | ⟨c, -, -, -, h4⟩
    · obtain ⟨m1, m2⟩ := List.mem_filter.1 hd
      simp at m2
      cases d with
      | nil => simp at m2
      | cons c cs =>
        simp at m2
        subst m2
        have hc := (hw _ m1).2.1 c List.mem_cons_self
        exact long_not_short e c (word_not_dash hc) (h3.symm.trans h1)
    · exact h4 (h1 ▸ List.mem_map.2 ⟨d, hd, rfl⟩)
  unfold optionNames at ha hb
  rcases List.mem_append.1 ha with ha | ha <;> rcases List.mem_append.1 hb with hb | hb
  · obtain ⟨a', -, ha⟩ := List.mem_map.1 ha
    obtain ⟨b', -, hb⟩ := List.mem_map.1 hb
    cases ha; cases hb
    simp at hx hy
    rw [hx] at hy
    simpa using hy
  · obtain ⟨a', ha', ha⟩ := List.mem_map.1 ha
    cases ha
    exact (cross a ha' b ms hb hx hy).elim
  · obtain ⟨b', hb', hb⟩ := List.mem_map.1 hb
    cases hb
    exact (cross b hb' a ns ha hy hx).elim
  · exact longs_distinct _ _ (hn.sublist List.filter_sublist) hw' a b x ns ms ha hb hx hy

/-! ### field names -/

theorem collapse_word (run : Bool) (a : Text) (h : ∀ c ∈ a, word c = true) : collapse run a = a := by
  induction a generalizing run with
  | nil => cases run <;> rfl
  | cons c cs ih =>
    simp only [collapse, h c List.mem_cons_self, if_true]
    rw [ih _ (fun d hd => h d (List.mem_cons_of_mem _ hd))]

theorem dash_word {c : Char} (h : word c = true) (h' : c ≠ '_') : word (if c = '_' then '-' else c) = true := by
  rw [if_neg h']; exact h

theorem word_dash : word '-' = false := by decide

theorem collapse_dash_length (run : Bool) (a : Text) : (collapse run (dash a)).length ≤ a.length := by
  induction a generalizing run with
  | nil => cases run <;> simp [dash, collapse]
  | cons c cs ih =>
    simp only [dash] at ih
    simp only [dash, List.map_cons]
    generalize (if c = '_' then '-' else c) = y
    simp only [collapse]
    have h1 := ih false
    have h2 := ih true
    split
    · simpa using h1
    · split
      · simp; omega
      · simpa using h2

/-- Underscores are back after `-` unless there are two in a row. -/
theorem collapse_dash (run : Bool) (a : Text) (hw : ∀ c ∈ a, word c = true) :
    collapse run (dash a) = a ↔ (run = true → a.head? ≠ some '_') ∧ ¬ ∃ p s, a = p ++ '_' :: '_' :: s := by
  induction a generalizing run with
  | nil => simp [dash, collapse]
  | cons c cs ih =>
    have hw' : ∀ d ∈ cs, word d = true := fun d hd => hw d (List.mem_cons_of_mem _ hd)
    by_cases hc : c = '_'
    · subst hc
      simp only [dash, List.map_cons, if_true, collapse, word_dash, Bool.false_eq_true, if_false]
      cases run with
      | true =>
        simp only [if_true, List.head?_cons, ne_eq, not_true, forall_const, false_and, iff_false]
        intro e
        have := congrArg List.length e
        have h2 := collapse_dash_length true cs
        simp only [dash] at h2
        simp at this
        omega
      | false =>
        simp only [Bool.false_eq_true, if_false, List.cons.injEq, true_and, false_implies]
        have := ih true hw'
        simp only [dash] at this
        rw [this]
        constructor
        · rintro ⟨h1, h2⟩ ⟨p, s, e⟩
          cases p with
          | nil => simp at e; exact h1 trivial (by rw [e]; rfl)
          | cons x p => simp at e; exact h2 ⟨p, s, e.2⟩
        · intro h
          refine ⟨fun _ hh => ?_, ?_⟩
          · cases cs with
            | nil => simp at hh
            | cons y ys => simp at hh; subst hh; exact h ⟨[], ys, rfl⟩
          · rintro ⟨p, s, e⟩
            exact h ⟨'_' :: p, s, by rw [e]; rfl⟩
    · have hwc := hw c List.mem_cons_self
      simp only [dash, List.map_cons, if_neg hc, collapse, hwc, if_true, List.cons.injEq, true_and]
      have := ih false hw'
      simp only [dash] at this
      rw [this]
      constructor
      · rintro ⟨-, h2⟩
        refine ⟨fun _ => by simpa using hc, ?_⟩
        rintro ⟨p, s, e⟩
        cases p with
        | nil => simp at e; exact hc e.1
        | cons x p => simp at e; exact h2 ⟨p, s, e.2⟩
      · rintro ⟨-, h2⟩
        refine ⟨by simp, ?_⟩
        rintro ⟨p, s, e⟩
        exact h2 ⟨c :: p, s, by rw [e]; rfl⟩

theorem lstrip_dash_cons (c : Char) (cs : Text) (h : c ≠ '-') (h' : c ≠ '+') : lstrip (c :: cs) = c :: cs := by
  simp [lstrip, h, h']

theorem word_not_plus {c : Char} (h : word c = true) : c ≠ '+' := by
  rintro rfl
  exact absurd h (by decide)

theorem lstrip_length (t : Text) : (lstrip t).length ≤ t.length := by
  unfold lstrip
  exact (List.dropWhile_sublist _).length_le

theorem identifierify_dash (a : Text) (h : PyIdent a) (h0 : a.head? ≠ some '_') :
    identifierify (dash a) = collapse false (dash a) := by
  obtain ⟨h1, h2, h3⟩ := h
  cases a with
  | nil => exact absurd rfl h1
  | cons c cs =>
    have hc : c ≠ '_' := by simpa using h0
    have hd := h3 c rfl
    simp [identifierify, dash, if_neg hc, hd]

theorem identifierify_length (t : Text) : (identifierify (lstrip (dash t))).length ≤ (lstrip (dash t)).length + 1 := by
  have key : ∀ (run : Bool) (u : Text), (collapse run u).length ≤ u.length := by
    intro run u
    induction u generalizing run with
    | nil => cases run <;> simp [collapse]
    | cons c cs ih =>
      have h1 := ih false
      have h2 := ih true
      simp only [collapse]
      split
      · simpa using h1
      · split
        · simp; omega
        · simpa using h2
  generalize lstrip (dash t) = u
  cases u with
  | nil => simp [identifierify]
  | cons c cs =>
    have := key false (c :: cs)
    simp only [identifierify]
    split
    · simpa using this
    · omega

theorem lstrip_word (c : Char) (cs : Text) (hc : c ≠ '_') (hw : word c = true) : lstrip (dash (c :: cs)) = dash (c :: cs) := by
  simp only [dash, List.map_cons, if_neg hc]
  exact lstrip_dash_cons c _ (word_not_dash hw) (word_not_plus hw)

/-- The field of a positional or long name is the parameter exactly if the parameter does not begin with an underscore and has
no two underscores in a row. -/
theorem stripped_field (a : Text) (h : PyIdent a) : identifierify (lstrip (dash a)) = a ↔ SingleBars a := by
  obtain ⟨h1, h2, h3⟩ := h
  cases a with
  | nil => exact absurd rfl h1
  | cons c cs =>
    have hw := h2 c List.mem_cons_self
    have h2' : ∀ d ∈ cs, word d = true := fun d hd => h2 d (List.mem_cons_of_mem _ hd)
    by_cases hc : c = '_'
    · subst hc
      have l1 : lstrip (dash ('_' :: cs)) = lstrip (dash cs) := by simp [lstrip, dash, List.dropWhile_cons]
      rw [l1]
      cases cs with
      | nil =>
        constructor
        · intro e; simp [dash, lstrip, identifierify] at e
        · rintro ⟨hh, -⟩; obtain ⟨d, ds, e, -⟩ := hh [] rfl; simp at e
      | cons z zs =>
        by_cases hz : z = '_'
        · subst hz
          constructor
          · intro e
            have e' := congrArg List.length e
            have l2 : lstrip (dash ('_' :: zs)) = lstrip (dash zs) := by simp [lstrip, dash, List.dropWhile_cons]
            rw [l2] at e'
            have k1 := identifierify_length zs
            have k2 := lstrip_length (dash zs)
            have k3 : (dash zs).length = zs.length := by simp [dash]
            simp at e'
            omega
          · rintro ⟨-, hh⟩; exact absurd ⟨[], zs, rfl⟩ hh
        · have hwz := h2' z List.mem_cons_self
          rw [lstrip_word z zs hz hwz]
          have hid : identifierify (dash (z :: zs)) =
              if digit z then '_' :: collapse false (dash (z :: zs)) else collapse false (dash (z :: zs)) := by
            simp [identifierify, dash, if_neg hz]
          rw [hid]
          cases hd : digit z with
          | true =>
            simp only [if_true, List.cons.injEq, true_and]
            have hcd := collapse_dash false (z :: zs) h2'
            rw [hcd]
            constructor
            · rintro ⟨-, hh⟩
              refine ⟨fun cs' e => ⟨z, zs, by simpa using e.symm, hd⟩, ?_⟩
              rintro ⟨p, s, e⟩
              cases p with
              | nil => simp at e; exact hz e.1
              | cons x p => simp at e; exact hh ⟨p, s, e.2⟩
            · rintro ⟨-, hh⟩
              refine ⟨by simp, ?_⟩
              rintro ⟨p, s, e⟩
              exact hh ⟨'_' :: p, s, by rw [e]; rfl⟩
          | false =>
            constructor
            · intro e
              simp [dash, if_neg hz, collapse, hwz] at e
              exact absurd e.1 hz
            · rintro ⟨hh, -⟩
              obtain ⟨d, ds, e, hdd⟩ := hh _ rfl
              simp at e
              rw [e.1, hdd] at hd
              simp at hd
    · rw [lstrip_word c cs hc hw, identifierify_dash _ ⟨h1, h2, h3⟩ (by simpa using hc), collapse_dash false _ h2]
      unfold SingleBars
      constructor
      · rintro ⟨-, hh⟩
        refine ⟨fun cs' e => ?_, hh⟩
        simp at e; exact absurd e.1 hc
      · rintro ⟨-, hh⟩
        exact ⟨by simp, hh⟩

theorem field_positional (a : Text) : fieldName [dash a] = identifierify (lstrip (dash a)) := by
  unfold fieldName
  simp only [List.find?_cons, List.find?_nil, List.head?_cons]
  cases baseName (dash a) <;> rfl

theorem base_long (a : Text) : baseName (longName a) = true := by
  simp [baseName, longName]

theorem base_short (c : Char) (h : c ≠ '-') : baseName ['-', c] = false := by
  have : ¬ '-' = c := fun e => h e.symm
  simp [baseName, List.isPrefixOf, this]

theorem lstrip_long (a : Text) : lstrip (longName a) = lstrip (dash a) := by
  simp [lstrip, longName, List.dropWhile_cons]

theorem namesOf_mem (args : List Text) (a : Text) (ha : a ∈ args) :
    ∃ ns, (a, ns) ∈ optionNames args ∧ namesOf (optionNames args) a = ns.reverse := by
  obtain ⟨ns, hns⟩ := (option_names args a).1 ha
  unfold namesOf
  cases hf : (optionNames args).find? (fun x => x.1 == a) with
  | none =>
    rw [List.find?_eq_none] at hf
    exact absurd (by simp) (hf _ hns)
  | some y =>
    have h1 := List.find?_some hf
    have h2 := List.mem_of_find?_eq_some hf
    simp at h1
    obtain ⟨y1, y2⟩ := y
    simp at h1
    subst h1
    exact ⟨y2, h2, rfl⟩

theorem field_option (args : List Text) (a : Text) (ha : a ∈ args) (hi : PyIdent a) (hs : SingleBars a) :
    fieldName (namesOf (optionNames args) a) = a := by
  obtain ⟨ns, hns, he⟩ := namesOf_mem args a ha
  rw [he]
  rcases ((option_names args a).2 ns hns).2 with ⟨h1, rfl⟩ | ⟨h1, rfl | ⟨c, hc, hal, rfl⟩⟩
  · cases a with
    | nil => simp at h1
    | cons x xs =>
      simp at h1
      subst h1
      have hw := hi.2.1 x List.mem_cons_self
      have hb := base_short x (word_not_dash hw)
      have hl : lstrip ['-', x] = [x] := by
        have : lstrip ['-', x] = lstrip [x] := by simp [lstrip, List.dropWhile_cons]
        rw [this]; exact lstrip_dash_cons x [] (word_not_dash hw) (word_not_plus hw)
      have hd := hi.2.2 x rfl
      show fieldName [['-', x]] = [x]
      simp [fieldName, hb, hl, identifierify, hd, collapse, hw]
  · show fieldName [longName a] = a
    simp only [fieldName, List.find?_cons, base_long, Option.some_or, Option.getD_some, lstrip_long]
    exact (stripped_field a hi).2 hs
  · show fieldName [['-', c], longName a] = a
    simp only [fieldName, List.find?_cons, base_short c (alpha_not_dash hal), base_long, Option.some_or, Option.getD_some,
      lstrip_long]
    exact (stripped_field a hi).2 hs

/-! ### C79: options reach their parameters -/

/-- The fields of the command are the parameters of the function. -/
theorem method_fields_partial (s : Sig) (h : CommandSig s) : ∃ d, definition s = some d ∧ d.fields = params s := by
  have hdef : (!s.kwonly.isEmpty && s.kwonly.all (fun k => k.2 == .required)) = false := by
    rcases h.defaults with h | ⟨k, hk, hr⟩
    · rw [h]; rfl
    · cases hh : (!s.kwonly.isEmpty && s.kwonly.all (fun k => k.2 == .required)) with
      | false => rfl
      | true =>
        simp only [Bool.and_eq_true, List.all_eq_true] at hh
        have := hh.2 k hk
        simp at this
        exact absurd this hr
  unfold definition
  rw [hdef]
  refine ⟨_, rfl, ?_⟩
  simp only [Def.fields, h.novar, Option.map_none, Option.toList_none, List.append_nil, params, List.map_map]
  congr 1
  · apply List.map_congr_left
    intro a ha
    simp only [Function.comp, field_positional]
    obtain ⟨h1, h2⟩ := h.idents a.1 (List.mem_append_left _ (List.mem_map_of_mem ha))
    exact (stripped_field a.1 h1).2 h2
  · apply List.map_congr_left
    intro k hk
    simp only [Function.comp]
    obtain ⟨h1, h2⟩ := h.idents k.1 (List.mem_append_right _ (List.mem_map_of_mem hk))
    exact field_option _ k.1 (List.mem_map_of_mem hk) h1 h2

variable {V : Type}

/-- Every name of a keyword-only parameter is an option that sets this parameter. -/
theorem method_option_reaches (s : Sig) (h : CommandSig s) (d : Def) (hd : definition s = some d) (conv : Text → Option V) (off : V)
    (k : Text) (hk : k ∈ s.kwonly.map (·.1)) (ns : List Text) (hns : (k, ns) ∈ optionNames (s.kwonly.map (·.1)))
    (x : Text) (hx : x ∈ ns) : (findOption off (d.opts conv off) x).map (·.name) = some k := by
  have hn : (s.kwonly.map (·.1)).Nodup := (List.nodup_append.1 h.nodup).2.1
  have hi : ∀ a ∈ s.kwonly.map (·.1), PyIdent a := fun a ha => (h.idents a (List.mem_append_right _ ha)).1
  obtain ⟨p, hp, hpk⟩ := List.mem_map.1 hk
  have hdd : d.options = s.kwonly.map (fun k =>
      (namesOf (optionNames (s.kwonly.map (·.1))) k.1, fieldName (namesOf (optionNames (s.kwonly.map (·.1))) k.1), k.2)) := by
    unfold definition at hd
    split at hd
    · simp at hd
    · cases hd; rfl
  have hfind : ∀ o ∈ d.opts conv off, x ∈ o.names → o.name = k := by
    intro o ho hxo
    unfold Def.opts at ho
    rw [hdd, List.map_map] at ho
    obtain ⟨q, hq, rfl⟩ := List.mem_map.1 ho
    simp only [Function.comp] at hxo ⊢
    have hqm : q.1 ∈ s.kwonly.map (·.1) := List.mem_map_of_mem hq
    obtain ⟨ms, hms, he⟩ := namesOf_mem _ q.1 hqm
    rw [he, List.mem_reverse] at hxo
    have e := option_names_distinct _ hn hi q.1 k x ms ns hms hns hxo hx
    obtain ⟨h1, h2⟩ := h.idents q.1 (List.mem_append_right _ hqm)
    rw [field_option _ q.1 hqm h1 h2, e]
  have hex : ∃ o ∈ d.opts conv off, x ∈ o.names := by
    obtain ⟨ms, hms, he⟩ := namesOf_mem _ k hk
    -- the entry that the lookup finds has the name as well
    refine ⟨{ names := namesOf (optionNames (s.kwonly.map (·.1))) p.1,
              name := fieldName (namesOf (optionNames (s.kwonly.map (·.1))) p.1),
              default := if p.2 = .required then none else some (.val off),
              reader := if p.2 = .flag then .flag else .text conv }, ?_, ?_⟩
    · unfold Def.opts
      rw [hdd, List.map_map]
      exact List.mem_map.2 ⟨p, hp, rfl⟩
    · simp only [hpk]
      rw [he, List.mem_reverse]
      have : ms = ns := by
        have uniq : ∀ (l : List (Text × List Text)), (l.map (·.1)).Nodup → (k, ms) ∈ l → (k, ns) ∈ l → ms = ns := by
          intro l
          induction l with
          | nil => intro _ h; simp at h
          | cons y l ih =>
            intro hnd h1 h2
            simp only [List.map_cons, List.nodup_cons] at hnd
            rcases List.mem_cons.1 h1 with h1 | h1 <;> rcases List.mem_cons.1 h2 with h2 | h2
            · rw [← h1] at h2; exact (Prod.mk.inj h2).2.symm
            · exact absurd (List.mem_map.2 ⟨_, h2, by rw [← h1]⟩) hnd.1
            · exact absurd (List.mem_map.2 ⟨_, h1, by rw [← h2]⟩) hnd.1
            · exact ih hnd.2 h1 h2
        refine uniq _ ?_ hms hns
        have lk : ∀ (T as : List Text), (longs T as).map (·.1) = as := by
          intro T as
          induction as generalizing T with
          | nil => rfl
          | cons b bs ih =>
            simp only [longs]
            split <;> simp [ih]
        unfold optionNames
        rw [List.map_append, List.map_map, lk]
        have e1 : ((fun x : Text × List Text => x.1) ∘ fun a : Text => (a, ['-' :: a])) = id := rfl
        rw [e1, List.map_id, List.nodup_append]
        refine ⟨hn.sublist List.filter_sublist, hn.sublist List.filter_sublist, ?_⟩
        intro a ha b hb e
        subst e
        have := (List.mem_filter.1 ha).2
        have h2 := (List.mem_filter.1 hb).2
        simp at this h2
        exact h2 this
      rw [this]; exact hx
  unfold findOption
  cases hf : (d.opts conv off).reverse.find? (fun o => decide (x ∈ o.names)) with
  | none =>
    rw [List.find?_eq_none] at hf
    obtain ⟨o, ho, hxo⟩ := hex
    exact absurd (by simpa using hxo) (hf o (List.mem_reverse.2 ho))
  | some o =>
    have h1 := List.find?_some hf
    have h2 := List.mem_reverse.1 (List.mem_of_find?_eq_some hf)
    simp at h1
    simp [hfind o h2 h1]

/-- With the arguments of the command the function is called, with a value for every parameter and nothing else. -/
theorem method_call (s : Sig) (h : CommandSig s) (d : Def) (hd : definition s = some d) (arguments : List (Text × V))
    (ha : ∀ a ∈ d.fields, a ∈ arguments.map (·.1)) :
    execution s d arguments = some (arguments.filter (fun a => (params s).contains a.1)) := by
  obtain ⟨d', hd', hf⟩ := method_fields_partial s h
  rw [hd] at hd'
  cases hd'
  rw [hf] at ha
  unfold execution callWith
  rw [hf, if_pos]
  simp only [Bool.and_eq_true, List.all_eq_true, Bool.or_eq_true, List.contains_iff_mem]
  have inkw : ∀ a ∈ params s, a ∈ (arguments.filter (fun a => (params s).contains a.1)).map (·.1) := by
    intro a hp
    obtain ⟨y, hy, rfl⟩ := List.mem_map.1 (ha a hp)
    exact List.mem_map.2 ⟨y, List.mem_filter.2 ⟨hy, by simpa using hp⟩, rfl⟩
  refine ⟨⟨?_, ?_⟩, ?_⟩
  · intro k hk
    have := (List.mem_filter.1 hk).2
    rw [List.contains_iff_mem] at this
    exact List.mem_append.1 this
  · intro a hm
    exact Or.inr (inkw a.1 (List.mem_append_left _ (List.mem_map_of_mem hm)))
  · intro a hm
    exact Or.inr (inkw a.1 (List.mem_append_right _ (List.mem_map_of_mem hm)))

/-! ### violations -/

/-- A function with `*args` can never be called: its name is passed as a keyword. -/
theorem method_varargs_violated (s : Sig) (d : Def) (hd : definition s = some d) (v : Text) (hv : s.varargs = some v)
    (hi : PyIdent v) (hb : SingleBars v) (hn : v ∉ params s) (arguments : List (Text × V))
    (ha : ∀ a ∈ d.fields, a ∈ arguments.map (·.1)) : execution s d arguments = none := by
  have hr : d.rest = some v := by
    unfold definition at hd
    split at hd
    · simp at hd
    · cases hd
      simp only [hv, Option.map_some, field_positional]
      rw [(stripped_field v hi).2 hb]
  have hmem : v ∈ d.fields := by
    unfold Def.fields
    rw [hr]
    simp
  obtain ⟨y, hy, hyv⟩ := List.mem_map.1 (ha v hmem)
  unfold execution callWith
  rw [if_neg]
  intro hh
  simp only [Bool.and_eq_true, List.all_eq_true, Bool.or_eq_true, List.contains_iff_mem] at hh
  have := hh.1.1 y (List.mem_filter.2 ⟨hy, by rw [List.contains_iff_mem, hyv]; exact hmem⟩)
  rw [hyv] at this
  exact hn (List.mem_append.2 this)

/-- A function all of whose keyword-only parameters are required cannot be made a command. -/
theorem method_required_violated (s : Sig) (h0 : s.kwonly ≠ []) (h : ∀ k ∈ s.kwonly, k.2 = .required) : definition s = none := by
  unfold definition
  rw [if_pos]
  have : s.kwonly.isEmpty = false := by cases hk : s.kwonly <;> simp_all
  simp [this, List.all_eq_true]
  intro a b hm
  exact h _ hm

/-- A parameter that is not written with single underscores: the function cannot be called. -/
theorem method_underscore_violated :
    definition { args := [], kwonly := [(t!"_x", .value)] } = some ⟨[], none, [([t!"-x", t!"---x"], t!"x", .value)]⟩ ∧
    execution { args := [], kwonly := [(t!"_x", .value)] } ⟨[], none, [([t!"-x", t!"---x"], t!"x", .value)]⟩ [(t!"x", 1)] = none := by
  decide

/-- A parameter with an `h` takes `-h` from the help. -/
theorem method_help_violated : (definition { args := [], kwonly := [(t!"host", .value)] }).map (fun d =>
    (findOption 0 (d.opts (fun _ => some 1) 0) t!"-h").map (·.name)) = some (some t!"host") := by
  rfl

/-! ### examples -/

def exSig : Sig := { args := [(t!"name", false), (t!"dir", true)], kwonly := [(t!"app_name", .value), (t!"a", .flag), (t!"author", .required)] }

example : CommandSig exSig := by
  refine ⟨?_, by decide, rfl, Or.inr ⟨_, List.mem_cons_self, by decide⟩⟩
  intro a ha
  have key : ∀ a : Text, a ≠ [] → a.all word = true → (a.head?.all (fun c => !digit c && c != '_')) = true →
      (∀ p s, a ≠ p ++ '_' :: '_' :: s) → PyIdent a ∧ SingleBars a := by
    intro a h1 h2 h3 h4
    refine ⟨⟨h1, by simpa using h2, ?_⟩, ?_, ?_⟩
    · intro c hc; rw [hc] at h3; simp at h3; exact h3.1
    · rintro cs rfl; simp at h3
    · rintro ⟨p, s, e⟩; exact h4 p s e
  simp [params, exSig] at ha
  rcases ha with rfl | rfl | rfl | rfl | rfl <;> refine key _ (by decide) (by decide) (by decide) ?_ <;> intro p s e <;>
    (have hc := congrArg (List.count '_') e; simp [List.count_cons, List.count_append] at hc) <;> omega

example : definition exSig = some
    ⟨[(t!"name", false), (t!"dir", true)], none,
     [([t!"-p", t!"--app-name"], t!"app_name", .value), ([t!"-a"], t!"a", .flag), ([t!"-u", t!"--author"], t!"author", .required)]⟩ := by
  decide

end Cli.Methods
end Pkm
