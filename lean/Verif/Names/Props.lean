import Verif.Names.Model
set_option linter.unusedVariables false
set_option linter.unusedSimpArgs false
/-
Property C35: package names.
-/
namespace Pkm

namespace Spec

/-- The separators of package names. -/
def isSep (c : Char) : Bool := c == '-' || c == '_' || c == '.'

/-- A separator is always followed by a letter or digit. -/
def SepsIsolated : Text → Prop
  | [] => True
  | c :: cs => (isAlnum c = true ∨ (isSep c = true ∧ ∃ d ds, cs = d :: ds ∧ isAlnum d = true)) ∧
      SepsIsolated cs

/-- A valid name without neighbouring separators: it starts and ends with a letter or digit. -/
def PlainName (s : Text) : Prop := (∃ d ds, s = d :: ds ∧ isAlnum d = true) ∧ SepsIsolated s

/-- Two names that differ only in case and in the choice of separators. -/
def SameName : Text → Text → Prop
  | [], [] => True
  | a :: as, b :: bs =>
    ((isSep a = true ∧ isSep b = true) ∨ (isAlnum a = true ∧ isAlnum b = true ∧ lowerChar a = lowerChar b)) ∧
      SameName as bs
  | _, _ => False

end Spec
open Spec

/-! ## Helper lemmas -/

theorem nameChar_dash : nameChar '-' = false := by decide

theorem isAlnum_nameChar (c : Char) (h : isAlnum c = true) : nameChar c = true := by simp [nameChar, h]

theorem isAlnum_ne_dash (c : Char) (h : isAlnum c = true) : c ≠ '-' := by
  intro e; subst e; revert h; decide

theorem nameChar_ne_dash (c : Char) (h : nameChar c = true) : c ≠ '-' := by
  intro e; subst e; revert h; decide

/-- A text of name characters and single dashes. -/
def Clean : Bool → Text → Prop
  | _, [] => True
  | run, c :: cs => (nameChar c = true ∧ Clean false cs) ∨ (run = false ∧ c = '-' ∧ Clean true cs)

theorem clean_subDash (run : Bool) (s : Text) : Clean run (subDash run s) := by
  induction s generalizing run with
  | nil => simp [subDash, Clean]
  | cons c cs ih =>
    unfold subDash
    by_cases h : nameChar c = true
    · rw [if_pos h]; exact Or.inl ⟨h, ih false⟩
    · rw [if_neg h]
      cases run with
      | true => simpa using ih true
      | false => exact Or.inr ⟨rfl, rfl, ih true⟩

theorem clean_false_of_true (s : Text) (h : Clean true s) : Clean false s := by
  cases s with
  | nil => simp [Clean]
  | cons c cs =>
    rcases h with h | h
    · exact Or.inl h
    · simp at h

theorem subDash_clean (run : Bool) (s : Text) (h : Clean run s) : subDash run s = s := by
  induction s generalizing run with
  | nil => rfl
  | cons c cs ih =>
    rcases h with ⟨h1, h2⟩ | ⟨h1, h2, h3⟩
    · simp [subDash, h1, ih false h2]
    · subst h1 h2; simp [subDash, nameChar_dash, ih true h3]

theorem clean_suffix (a b : Text) : ∀ run, Clean run (a ++ b) → Clean false b := by
  induction a with
  | nil =>
    intro run h
    cases run with
    | true => exact clean_false_of_true _ h
    | false => exact h
  | cons c cs ih =>
    intro run h
    rcases h with ⟨h1, h2⟩ | ⟨h1, h2, h3⟩
    · exact ih _ h2
    · exact ih _ h3

theorem clean_prefix (a b : Text) : ∀ run, Clean run (a ++ b) → Clean run a := by
  induction a with
  | nil => intro run h; simp [Clean]
  | cons c cs ih =>
    intro run h
    rcases h with ⟨h1, h2⟩ | ⟨h1, h2, h3⟩
    · exact Or.inl ⟨h1, ih _ h2⟩
    · exact Or.inr ⟨h1, h2, ih _ h3⟩

theorem stripChar_infix (c : Char) (s : Text) : ∃ a b, s = a ++ stripChar c s ++ b := by
  refine ⟨s.takeWhile (· == c), ((s.dropWhile (· == c)).reverse.takeWhile (· == c)).reverse, ?_⟩
  unfold stripChar
  have h1 : s.takeWhile (· == c) ++ s.dropWhile (· == c) = s := List.takeWhile_append_dropWhile
  have h2 : (((s.dropWhile (· == c)).reverse.dropWhile (· == c)).reverse ++
      ((s.dropWhile (· == c)).reverse.takeWhile (· == c)).reverse) = s.dropWhile (· == c) := by
    rw [← List.reverse_append, List.takeWhile_append_dropWhile, List.reverse_reverse]
  rw [List.append_assoc, h2, h1]

theorem clean_strip (s : Text) (h : Clean false s) : Clean false (stripChar '-' s) := by
  obtain ⟨a, b, e⟩ := stripChar_infix '-' s
  rw [e] at h
  exact clean_suffix a _ false (clean_prefix _ b false h)

theorem dropWhile_fix (p : Char → Bool) (s : Text) (h : ∀ c cs, s = c :: cs → p c = false) :
    s.dropWhile p = s := by
  cases s with
  | nil => rfl
  | cons c cs => simp [List.dropWhile_cons, h c cs rfl]

theorem stripChar_fix (x : Char) (s : Text) (h1 : ∀ c cs, s = c :: cs → c ≠ x)
    (h2 : ∀ c cs, s = cs ++ [c] → c ≠ x) : stripChar x s = s := by
  unfold stripChar
  rw [dropWhile_fix _ s (by intro c cs e; simpa using h1 c cs e)]
  rw [dropWhile_fix _ s.reverse ?_, List.reverse_reverse]
  intro c cs e
  have : s = cs.reverse ++ [c] := by
    have := congrArg List.reverse e; simpa using this
  simpa using h2 c _ this

theorem dropWhile_head (p : Char → Bool) (s : Text) : ∀ c cs, s.dropWhile p = c :: cs → p c = false := by
  induction s with
  | nil => intro c cs h; simp at h
  | cons d ds ih =>
    intro c cs h
    rw [List.dropWhile_cons] at h
    split at h
    · exact ih c cs h
    · rename_i hd; simp at h; obtain ⟨rfl, _⟩ := h; simpa using hd

theorem stripChar_idem (x : Char) (s : Text) : stripChar x (stripChar x s) = stripChar x s := by
  apply stripChar_fix
  · intro c cs e
    -- the head of the stripped text is the head of the left-stripped text
    have hpre : ∃ b, s.dropWhile (· == x) = stripChar x s ++ b := by
      refine ⟨((s.dropWhile (· == x)).reverse.takeWhile (· == x)).reverse, ?_⟩
      unfold stripChar
      rw [← List.reverse_append, List.takeWhile_append_dropWhile, List.reverse_reverse]
    obtain ⟨b, hb⟩ := hpre
    rw [e] at hb
    have := dropWhile_head _ s c _ hb
    simpa using this
  · intro c cs e
    have : (s.dropWhile (· == x)).reverse.dropWhile (· == x) = c :: cs.reverse := by
      unfold stripChar at e
      have := congrArg List.reverse e; simpa using this
    have := dropWhile_head _ _ c _ this
    simpa using this

/-! ## Idempotence -/

/-- C35: normalising a normalised name changes nothing. -/
theorem normalize_name_idempotent (s r : Text) (h : normalizeName s = some r) :
    normalizeName r = some r := by
  unfold normalizeName at h
  simp only at h
  split at h
  · simp at h
  · rename_i hne
    simp at h
    subst h
    have hc := clean_strip _ (clean_subDash false s)
    unfold normalizeName
    simp only
    rw [subDash_clean _ _ hc, stripChar_idem, if_neg hne]

/-- C35: a normalised name has only letters, digits, `.`, `_` and dashes, no dash at its ends and no
two dashes in a row. -/
theorem normalize_name_shape (s r : Text) (h : normalizeName s = some r) :
    r ≠ [] ∧ (∀ c ∈ r, nameChar c = true ∨ c = '-') ∧
    (∀ c cs, r = c :: cs → c ≠ '-') ∧ (∀ c cs, r = cs ++ [c] → c ≠ '-') ∧
    (∀ a b, r ≠ a ++ ['-', '-'] ++ b) := by
  unfold normalizeName at h
  simp only at h
  split at h
  · simp at h
  · rename_i hne
    simp at h
    subst h
    have hc := clean_strip _ (clean_subDash false s)
    have hid := stripChar_idem '-' (subDash false s)
    generalize stripChar '-' (subDash false s) = r at hc hid hne
    refine ⟨by simpa using hne, ?_, ?_, ?_, ?_⟩
    · clear hid hne
      have : ∀ (r : Text) run, Clean run r → ∀ c ∈ r, nameChar c = true ∨ c = '-' := by
        intro r
        induction r with
        | nil => intro run h c hc; simp at hc
        | cons d ds ih =>
          intro run h c hc
          rcases h with ⟨h1, h2⟩ | ⟨h1, h2, h3⟩
          · rcases List.mem_cons.1 hc with rfl | hc
            · exact Or.inl h1
            · exact ih _ h2 c hc
          · rcases List.mem_cons.1 hc with rfl | hc
            · exact Or.inr h2
            · exact ih _ h3 c hc
      exact this r false hc
    · intro c cs e ec
      subst e ec
      have : (stripChar '-' ('-' :: cs)).length ≤ cs.length := by
        unfold stripChar
        have h1 : (List.dropWhile (· == '-') ('-' :: cs)).length ≤ cs.length := by
          simpa [List.dropWhile_cons] using (List.dropWhile_sublist (l := cs) _).length_le
        have h2 := (List.dropWhile_sublist (l := (List.dropWhile (· == '-') ('-' :: cs)).reverse)
          (· == '-')).length_le
        simp only [List.length_reverse] at h2 ⊢
        omega
      rw [hid] at this
      simp only [List.length_cons] at this
      omega
    · intro c cs e ec
      subst e ec
      have h3 : ∀ c ds, (stripChar '-' (cs ++ ['-'])).reverse = c :: ds → c ≠ '-' := by
        intro c ds e
        unfold stripChar at e
        rw [List.reverse_reverse] at e
        have := dropWhile_head _ _ c ds e
        simpa using this
      rw [hid] at h3
      exact h3 '-' cs.reverse (by simp) rfl
    · intro a b e
      subst e
      have h1 := clean_suffix a (['-', '-'] ++ b) false (by simpa using hc)
      rcases h1 with ⟨h, _⟩ | ⟨_, _, h⟩
      · simp [nameChar_dash] at h
      · rcases h with ⟨h, _⟩ | ⟨h, _⟩
        · simp [nameChar_dash] at h
        · simp at h

/-- A name with spaces, dashes and a plus sign. -/
example : normalizeName "- my  pkg+_X-".toList = some "my-pkg-_X".toList := by decide

/-- C35 fails for the stored name: building a descriptor from the name of a descriptor may change the
name, because underscores become dashes only after runs of dashes have been merged. -/
theorem descriptor_name_violated : descriptorName "a_-b".toList = some "a--b".toList ∧
    descriptorName "a--b".toList = some "a-b".toList := by decide

/-! ## Lookup keys -/

theorem lowerChar_cases (c : Char) : lowerChar c = c ∨ (isUpper c = true ∧ isLower (lowerChar c) = true) := by
  unfold lowerChar
  split
  · rename_i h
    right
    refine ⟨h, ?_⟩
    simp only [isUpper, Bool.and_eq_true, decide_eq_true_eq] at h
    have hv : (Char.ofNat (c.toNat + 32)).toNat = c.toNat + 32 := by
      have : (c.toNat + 32).isValidChar := Or.inl (by omega)
      unfold Char.ofNat
      rw [dif_pos this]
      rfl
    simp only [isLower, Bool.and_eq_true, decide_eq_true_eq, hv]
    omega
  · exact Or.inl rfl

theorem isLower_isAlnum (c : Char) (h : isLower c = true) : isAlnum c = true := by simp [isAlnum, h]
theorem isUpper_isAlnum (c : Char) (h : isUpper c = true) : isAlnum c = true := by simp [isAlnum, h]

theorem isAlnum_lower (c : Char) : isAlnum (lowerChar c) = isAlnum c := by
  rcases lowerChar_cases c with h | ⟨h1, h2⟩
  · rw [h]
  · rw [isLower_isAlnum _ h2, isUpper_isAlnum _ h1]

theorem isAlnum_not_sep (c : Char) (h : isAlnum c = true) : isSep c = false := by
  simp only [isSep, Bool.or_eq_false_iff, beq_eq_false_iff_ne]
  refine ⟨⟨?_, ?_⟩, ?_⟩ <;> (intro e; subst e; revert h; decide)

theorem lowerChar_of_not_alnum (c : Char) (h : isAlnum c = false) : lowerChar c = c := by
  rcases lowerChar_cases c with h' | ⟨h1, h2⟩
  · exact h'
  · rw [isUpper_isAlnum _ h1] at h; simp at h

theorem nameChar_lower (c : Char) : nameChar (lowerChar c) = nameChar c := by
  cases h : isAlnum c with
  | true => rw [isAlnum_nameChar _ h, isAlnum_nameChar]; rw [isAlnum_lower, h]
  | false => rw [lowerChar_of_not_alnum c h]

theorem lowerChar_eq_iff (c x : Char) (hx : isAlnum x = false) : lowerChar c = x ↔ c = x := by
  constructor
  · intro h
    cases hc : isAlnum c with
    | true => rw [← h, isAlnum_lower, hc] at hx; simp at hx
    | false => rw [← h, lowerChar_of_not_alnum c hc]
  · intro h; subst h; exact lowerChar_of_not_alnum _ hx

theorem subDash_lower (s : Text) : ∀ run, subDash run (lower s) = lower (subDash run s) := by
  induction s with
  | nil => intro run; rfl
  | cons c cs ih =>
    intro run
    simp only [lower, List.map_cons] at ih ⊢
    unfold subDash
    rw [nameChar_lower]
    by_cases h : nameChar c = true
    · rw [if_pos h, if_pos h, ih]; rfl
    · rw [if_neg h, if_neg h]
      cases run with
      | true => simpa using ih true
      | false =>
        simp only [Bool.false_eq_true, if_false, List.map_cons, ih]
        congr 1

theorem dropWhile_lower (s : Text) : (lower s).dropWhile (· == '-') = lower (s.dropWhile (· == '-')) := by
  induction s with
  | nil => rfl
  | cons c cs ih =>
    simp only [lower, List.map_cons] at ih ⊢
    have : (lowerChar c == '-') = (c == '-') := by
      have := lowerChar_eq_iff c '-' (by decide)
      rw [Bool.eq_iff_iff]; simpa using this
    rw [List.dropWhile_cons, List.dropWhile_cons, this]
    split
    · exact ih
    · rfl

theorem stripChar_lower (s : Text) : stripChar '-' (lower s) = lower (stripChar '-' s) := by
  unfold stripChar
  rw [dropWhile_lower]
  have h : ∀ t : Text, (lower t).reverse = lower t.reverse := by intro t; simp [lower]
  rw [h, dropWhile_lower, h]

theorem lower_lower (s : Text) : lower (lower s) = lower s := by
  simp only [lower, List.map_map]
  apply List.map_congr_left
  intro c _
  simp only [Function.comp]
  rcases lowerChar_cases c with h | ⟨h1, h2⟩
  · rw [h, h]
  · generalize lowerChar c = d at h2
    unfold lowerChar
    rw [if_neg]
    simp only [isLower, isUpper, Bool.and_eq_true, decide_eq_true_eq] at h2 ⊢
    omega

/-- The translation of `normalize_src_package_name`. -/
def keyTr (c : Char) : Char := if c = '-' then '_' else if c = '.' then '_' else c

theorem keyTr_lower (c : Char) : lowerChar (keyTr (lowerChar c)) = lowerChar (keyTr c) := by
  unfold keyTr
  have h1 := lowerChar_eq_iff c '-' (by decide)
  have h2 := lowerChar_eq_iff c '.' (by decide)
  by_cases e1 : c = '-'
  · rw [if_pos (h1.2 e1), if_pos e1]
  · rw [if_neg (fun h => e1 (h1.1 h)), if_neg e1]
    by_cases e2 : c = '.'
    · rw [if_pos (h2.2 e2), if_pos e2]
    · rw [if_neg (fun h => e2 (h2.1 h)), if_neg e2]
      have := lower_lower [c]
      simpa [lower] using this

theorem lower_keyTr_lower (s : Text) : lower ((lower s).map keyTr) = lower (s.map keyTr) := by
  simp only [lower, List.map_map]
  apply List.map_congr_left
  intro c _
  exact keyTr_lower c

theorem packageNameKey_eq (s : Text) : packageNameKey s =
    if (stripChar '-' (subDash false s)).isEmpty then none
    else some (lower ((stripChar '-' (subDash false s)).map keyTr)) := by
  unfold packageNameKey srcPackageName normalizeName
  simp only
  split
  · simp
  · simp; rfl

/-- C35: names that differ only in case have the same key (also names that are not valid). -/
theorem name_key_ignores_case (a b : Text) (h : lower a = lower b) :
    packageNameKey a = packageNameKey b := by
  have key : ∀ s : Text, packageNameKey s = packageNameKey (lower s) := by
    intro s
    rw [packageNameKey_eq, packageNameKey_eq, subDash_lower, stripChar_lower, lower_keyTr_lower]
    have : (lower (stripChar '-' (subDash false s))).isEmpty = (stripChar '-' (subDash false s)).isEmpty := by
      simp [lower]
    rw [this]
  rw [key a, key b, h]

/-- The key of a plain name, read off directly. -/
def plainKeyChar (c : Char) : Char := if isSep c then '_' else lowerChar c

theorem sep_or_alnum_clean (s : Text) : SepsIsolated s → Clean false s ∧
    (∀ d ds, s = d :: ds → isAlnum d = true → Clean true s) := by
  induction s with
  | nil => intro h; simp [Clean]
  | cons c cs ih =>
    intro h
    obtain ⟨h1, h2⟩ := h
    obtain ⟨i1, i2⟩ := ih h2
    have hal : isAlnum c = true → ∀ run, Clean run (c :: cs) := by
      intro hc run; exact Or.inl ⟨isAlnum_nameChar c hc, i1⟩
    refine ⟨?_, fun d ds e hd => ?_⟩
    · rcases h1 with hc | ⟨hs, d, ds, e, hd⟩
      · exact hal hc false
      · by_cases hn : nameChar c = true
        · exact Or.inl ⟨hn, i1⟩
        · refine Or.inr ⟨rfl, ?_, i2 d ds e hd⟩
          simp only [isSep, Bool.or_eq_true, beq_iff_eq] at hs
          rcases hs with (rfl | rfl) | rfl
          · rfl
          · exact absurd (by decide) hn
          · exact absurd (by decide) hn
    · simp at e; obtain ⟨rfl, rfl⟩ := e; exact hal hd true

theorem sepsIsolated_last (s : Text) : SepsIsolated s → ∀ c cs, s = cs ++ [c] → isAlnum c = true := by
  induction s with
  | nil => intro h c cs e; simp at e
  | cons d ds ih =>
    intro h c cs e
    cases cs with
    | nil =>
      simp at e; obtain ⟨rfl, rfl⟩ := e
      rcases h.1 with h1 | ⟨_, d', ds', e', _⟩
      · exact h1
      · simp at e'
    | cons x xs =>
      simp at e
      exact ih h.2 c xs e.2

theorem sepsIsolated_chars (s : Text) : SepsIsolated s → ∀ c ∈ s, isAlnum c = true ∨ isSep c = true := by
  induction s with
  | nil => intro h c hc; simp at hc
  | cons d ds ih =>
    intro h c hc
    rcases List.mem_cons.1 hc with rfl | hc
    · rcases h.1 with h1 | h1
      · exact Or.inl h1
      · exact Or.inr h1.1
    · exact ih h.2 c hc

theorem plain_normal (s : Text) (h : PlainName s) : stripChar '-' (subDash false s) = s := by
  obtain ⟨⟨d, ds, e, hd⟩, hs⟩ := h
  rw [subDash_clean _ _ (sep_or_alnum_clean s hs).1]
  apply stripChar_fix
  · intro c cs e'
    rw [e] at e'; simp at e'; obtain ⟨rfl, _⟩ := e'
    exact isAlnum_ne_dash _ hd
  · intro c cs e'
    exact isAlnum_ne_dash _ (sepsIsolated_last s hs c cs e')

theorem plain_key (s : Text) (h : PlainName s) : packageNameKey s = some (s.map plainKeyChar) := by
  rw [packageNameKey_eq, plain_normal s h]
  have hne : s.isEmpty = false := by obtain ⟨⟨d, ds, e, _⟩, _⟩ := h; simp [e]
  rw [hne]
  simp only [Bool.false_eq_true, if_false, Option.some.injEq, lower, List.map_map]
  apply List.map_congr_left
  intro c hc
  simp only [Function.comp, plainKeyChar]
  rcases sepsIsolated_chars s h.2 c hc with h1 | h1
  · rw [isAlnum_not_sep c h1]
    have : keyTr c = c := by
      unfold keyTr
      rw [if_neg (isAlnum_ne_dash c h1), if_neg]
      intro e; subst e; revert h1; decide
    simp [this]
  · rw [h1]
    simp only [isSep, Bool.or_eq_true, beq_iff_eq] at h1
    rcases h1 with (rfl | rfl) | rfl <;> decide

theorem isAlnum_lower_ne (c : Char) (h : isAlnum c = true) : lowerChar c ≠ '_' := by
  intro e
  have := isAlnum_lower c
  rw [e, h] at this
  revert this; decide

theorem same_iff_key (a b : Text) (ha : ∀ c ∈ a, isAlnum c = true ∨ isSep c = true)
    (hb : ∀ c ∈ b, isAlnum c = true ∨ isSep c = true) :
    a.map plainKeyChar = b.map plainKeyChar ↔ SameName a b := by
  induction a generalizing b with
  | nil => cases b <;> simp [SameName]
  | cons x xs ih =>
    cases b with
    | nil => simp [SameName]
    | cons y ys =>
      simp only [List.map_cons, List.cons.injEq, SameName]
      rw [ih ys (fun c hc => ha c (by simp [hc])) (fun c hc => hb c (by simp [hc]))]
      have hx := ha x (by simp)
      have hy := hb y (by simp)
      apply and_congr_left
      intro _
      unfold plainKeyChar
      rcases hx with hx | hx <;> rcases hy with hy | hy
      · simp [isAlnum_not_sep _ hx, isAlnum_not_sep _ hy, hx, hy]
      · have h1 : isAlnum y = false := by
          cases h : isAlnum y
          · rfl
          · rw [isAlnum_not_sep _ h] at hy; simp at hy
        simp [isAlnum_not_sep _ hx, hy, h1, isAlnum_lower_ne x hx]
      · have h1 : isAlnum x = false := by
          cases h : isAlnum x
          · rfl
          · rw [isAlnum_not_sep _ h] at hx; simp at hx
        simp [isAlnum_not_sep _ hy, hx, h1, (isAlnum_lower_ne y hy).symm]
      · simp [hx, hy]

/-- C35, for names without neighbouring separators: two names have the same key exactly if they differ
only in case and in the choice of separators. Missing: names with runs of separators, which
`normalize_name` promises to merge but does not (`name_key_violated`). -/
theorem name_key_same_iff_partial (a b : Text) (ha : PlainName a) (hb : PlainName b) :
    packageNameKey a = packageNameKey b ↔ SameName a b := by
  rw [plain_key a ha, plain_key b hb, Option.some.injEq]
  exact same_iff_key a b (sepsIsolated_chars a ha.2) (sepsIsolated_chars b hb.2)

/-- Two spellings of one name. -/
example : PlainName "Foo.bar-1".toList ∧ PlainName "foo_BAR.1".toList ∧
    SameName "Foo.bar-1".toList "foo_BAR.1".toList := by
  refine ⟨⟨⟨_, _, rfl, by decide⟩, ?_⟩, ⟨⟨_, _, rfl, by decide⟩, ?_⟩, ?_⟩
  · simp [SepsIsolated]; decide
  · simp [SepsIsolated]; decide
  · simp [SameName]; decide

/-- C35 fails for runs of separators and for separators at the ends. -/
theorem name_key_violated : packageNameKey "a__b".toList ≠ packageNameKey "a-b".toList ∧
    packageNameKey "_a".toList ≠ packageNameKey "-a".toList := by decide

/-- C35: the key of a key is the key. -/
theorem name_key_idempotent (s k : Text) (h : packageNameKey s = some k) : packageNameKey k = some k := by
  unfold packageNameKey srcPackageName at h
  cases hn : normalizeName s with
  | none => rw [hn] at h; simp at h
  | some r =>
    rw [hn] at h
    simp only [Option.map_some, Option.some.injEq] at h
    obtain ⟨hne, hch, -, -, -⟩ := normalize_name_shape s r hn
    have hk : ∀ c ∈ k, nameChar c = true ∧ c ≠ '.' := by
      intro c hc
      rw [← h, lower, List.map_map] at hc
      obtain ⟨d, hd, rfl⟩ := List.mem_map.1 hc
      simp only [Function.comp]
      change nameChar (lowerChar (keyTr d)) = true ∧ lowerChar (keyTr d) ≠ '.'
      rw [nameChar_lower]
      have hdot := lowerChar_eq_iff (keyTr d) '.' (by decide)
      unfold keyTr at hdot ⊢
      rcases hch d hd with h1 | h1
      · by_cases e1 : d = '-'
        · subst e1; simp at h1 ⊢; decide
        · rw [if_neg e1] at hdot ⊢
          by_cases e2 : d = '.'
          · subst e2; decide
          · rw [if_neg e2] at hdot ⊢
            exact ⟨h1, fun h => e2 (hdot.1 h)⟩
      · subst h1; decide
    have hclean : ∀ (t : Text), (∀ c ∈ t, nameChar c = true ∧ c ≠ '.') → Clean false t := by
      intro t
      induction t with
      | nil => intro _; simp [Clean]
      | cons c cs ih => intro h; exact Or.inl ⟨(h c (by simp)).1, ih (fun d hd => h d (by simp [hd]))⟩
    have hkne : k.isEmpty = false := by
      rw [← h]; simpa [lower] using hne
    have hlow : lower k = k := by rw [← h, lower_lower]
    rw [packageNameKey_eq, subDash_clean _ _ (hclean k hk), stripChar_fix, hkne]
    · simp only [Bool.false_eq_true, if_false, Option.some.injEq]
      have : k.map keyTr = k := by
        have e : k.map keyTr = k.map id := by
          apply List.map_congr_left
          intro c hc
          unfold keyTr
          rw [if_neg (nameChar_ne_dash c (hk c hc).1), if_neg (hk c hc).2]; rfl
        rw [e, List.map_id]
      rw [this, hlow]
    · intro c cs e; exact nameChar_ne_dash c (hk c (by simp [e])).1
    · intro c cs e; exact nameChar_ne_dash c (hk c (by simp [e])).1

/-- C35, for plain names: the name a descriptor stores is stable and keeps the lookup key. Missing:
names with runs of separators (`descriptor_name_violated`). -/
theorem descriptor_name_stable_partial (s r : Text) (h : PlainName s) (hr : descriptorName s = some r) :
    PlainName r ∧ descriptorName r = some r ∧ packageNameKey r = packageNameKey s := by
  have hs := plain_normal s h
  have hne : s.isEmpty = false := by obtain ⟨⟨d, ds, e, _⟩, _⟩ := h; simp [e]
  have er : r = replaceChar '_' '-' s := by
    unfold descriptorName normalizeName at hr
    simp only [hs, hne, Bool.false_eq_true, if_false, Option.map_some, Option.some.injEq] at hr
    exact hr.symm
  have hiso : ∀ t : Text, SepsIsolated t → SepsIsolated (replaceChar '_' '-' t) := by
    intro t
    induction t with
    | nil => intro _; simp [replaceChar, SepsIsolated]
    | cons c cs ih =>
      intro ht
      refine ⟨?_, ih ht.2⟩
      rcases ht.1 with h1 | ⟨h1, d, ds, e, hd⟩
      · left
        change isAlnum (if c = '_' then '-' else c) = true
        rw [if_neg]
        · exact h1
        · intro e; subst e; revert h1; decide
      · right
        refine ⟨?_, (if d = '_' then '-' else d), replaceChar '_' '-' ds, by rw [e]; rfl, ?_⟩
        · change isSep (if c = '_' then '-' else c) = true
          split
          · decide
          · exact h1
        · rw [if_neg]
          · exact hd
          · intro e; subst e; revert hd; decide
  have hp : PlainName r := by
    obtain ⟨⟨d, ds, e, hd⟩, hs'⟩ := h
    refine ⟨⟨d, replaceChar '_' '-' ds, ?_, hd⟩, er ▸ hiso s hs'⟩
    rw [er, e]
    have : ¬ d = '_' := by intro e; subst e; revert hd; decide
    simp [replaceChar, this]
  refine ⟨hp, ?_, ?_⟩
  · have hne' : r.isEmpty = false := by obtain ⟨⟨d, ds, e, _⟩, _⟩ := hp; simp [e]
    unfold descriptorName normalizeName
    simp only [plain_normal r hp, hne', Bool.false_eq_true, if_false, Option.map_some, Option.some.injEq]
    rw [er]
    simp only [replaceChar, List.map_map]
    apply List.map_congr_left
    intro c _
    simp only [Function.comp]
    by_cases e : c = '_' <;> simp [e]
  · rw [plain_key r hp, plain_key s h, er, replaceChar, List.map_map]
    congr 1
    apply List.map_congr_left
    intro c _
    simp only [Function.comp]
    by_cases e : c = '_'
    · subst e; decide
    · simp [e]

example : PlainName "My_Pkg.x".toList ∧ descriptorName "My_Pkg.x".toList = some "My-Pkg.x".toList := by
  refine ⟨⟨⟨_, _, rfl, by decide⟩, ?_⟩, by decide⟩
  simp [SepsIsolated]; decide

end Pkm
