import Verif.Tags.Order
import Verif.ParserLemmas
/- Texts of tags: what the scorer reads from them. -/
set_option linter.unusedVariables false
set_option linter.unusedSimpArgs false
namespace Pkm.Tags

theorem splitOn_one (c : Char) (a : Text) (h : c ∉ a) : splitOn c a = [a] := by
  induction a with
  | nil => rfl
  | cons x xs ih =>
    simp only [List.mem_cons, not_or] at h
    have hx : ¬ x = c := fun e => h.1 e.symm
    simp [splitOn, hx, ih h.2]

theorem splitOn_step (c : Char) (a b : Text) (h : c ∉ a) : splitOn c (a ++ c :: b) = a :: splitOn c b := by
  induction a with
  | nil => simp [splitOn]
  | cons x xs ih =>
    simp only [List.mem_cons, not_or] at h
    have hx : ¬ x = c := fun e => h.1 e.symm
    simp [splitOn, hx, ih h.2]

theorem splitOn_dots : ∀ (ts : List Text), ts ≠ [] → (∀ t ∈ ts, '.' ∉ t) → splitOn '.' (joinDots ts) = ts
  | [], h, _ => absurd rfl h
  | [t], _, h => splitOn_one _ _ (h t (by simp))
  | t :: u :: ts, _, h => by
    simp only [joinDots]
    rw [splitOn_step _ _ _ (h t (by simp)),
      splitOn_dots (u :: ts) (by simp) (fun x hx => h x (List.mem_cons_of_mem _ hx))]

theorem joinDots_mem (c : Char) : ∀ (ts : List Text), c ≠ '.' → (∀ t ∈ ts, c ∉ t) → c ∉ joinDots ts
  | [], _, _ => by simp [joinDots]
  | [t], _, h => h t (by simp)
  | t :: u :: ts, hc, h => by
    simp only [joinDots, List.mem_append, List.mem_cons, not_or]
    exact ⟨h t (by simp), hc, joinDots_mem c (u :: ts) hc (fun x hx => h x (List.mem_cons_of_mem _ hx))⟩

theorem digit_facts {c : Char} (h : isDigit c = true) :
    isSpace c = false ∧ c ≠ '+' ∧ c ≠ '_' ∧ c ≠ '-' ∧ c ≠ '.' ∧ isLower c = false := by
  have hn : 48 ≤ c.toNat ∧ c.toNat ≤ 57 := by simpa [isDigit] using h
  refine ⟨?_, ?_, ?_, ?_, ?_, ?_⟩
  · simp [isSpace]; omega
  · intro e; subst e; revert h; decide
  · intro e; subst e; revert h; decide
  · intro e; subst e; revert h; decide
  · intro e; subst e; revert h; decide
  · simp [isLower]; omega

theorem lower_facts {c : Char} (h : isLower c = true) :
    isDigit c = false ∧ c ≠ '_' ∧ c ≠ '-' ∧ c ≠ '.' := by
  have hn : 97 ≤ c.toNat ∧ c.toNat ≤ 122 := by simpa [isLower] using h
  refine ⟨?_, ?_, ?_, ?_⟩
  · simp [isDigit]; omega
  · intro e; subst e; revert h; decide
  · intro e; subst e; revert h; decide
  · intro e; subst e; revert h; decide

theorem strip_id (t : Text) (h : ∀ c ∈ t, isSpace c = false) : stripBlanks t = t := by
  have d : ∀ u : Text, (∀ c ∈ u, isSpace c = false) → u.dropWhile isSpace = u := by
    intro u hu
    cases u with
    | nil => rfl
    | cons x xs => simp [List.dropWhile_cons, hu x (by simp)]
  unfold stripBlanks
  rw [d t h, d t.reverse (fun c hc => h c (by simpa using hc)), List.reverse_reverse]

theorem pyInt_digits (t : Text) (hne : t ≠ []) (h : ∀ c ∈ t, isDigit c = true) : pyInt t = .ok (PS.toNat t) := by
  unfold pyInt
  rw [strip_id t (fun c hc => (digit_facts (h c hc)).1)]
  cases t with
  | nil => exact absurd rfl hne
  | cons x xs =>
    have hx := (digit_facts (h x (by simp))).2.1
    have : dropPlus (x :: xs) = x :: xs := by
      unfold dropPlus
      split
      · rename_i r e
        simp only [List.cons.injEq] at e
        exact absurd e.1 hx
      · rfl
    simp only [this]
    have hn : isNumeric (x :: xs) = true := by
      simp only [isNumeric, Bool.and_eq_true, List.all_eq_true]
      exact ⟨rfl, h⟩
    rw [if_pos hn]

theorem pyInt_show (n : Nat) : pyInt (showNat n) = .ok n := by
  rw [pyInt_digits _ (showNat_ne n) (showNat_digits n), toNat_showNat]

theorem show_no (c : Char) (hc : isDigit c = false) (n : Nat) : c ∉ showNat n := by
  intro h
  rw [showNat_digits n c h] at hc
  cases hc

theorem splitMax_step (c : Char) (a b : Text) (n : Nat) (h : c ∉ a) :
    splitMax c (a ++ c :: b) (n + 1) = a :: splitMax c b n := by
  induction a with
  | nil => simp [splitMax]
  | cons x xs ih =>
    simp only [List.mem_cons, not_or] at h
    have hx : ¬ x = c := fun e => h.1 e.symm
    simp [splitMax, hx, ih h.2]

theorem splitMax_zero (c : Char) (a : Text) : splitMax c a 0 = [a] := by
  cases a <;> rfl

/-- The first part of a split is the text before the first separator. -/
theorem splitMax_head (c : Char) (t : Text) (n : Nat) :
    ∃ r, splitMax c t (n + 1) = t.takeWhile (· ≠ c) :: r := by
  induction t with
  | nil => exact ⟨[], rfl⟩
  | cons x xs ih =>
    by_cases hx : x = c
    · subst hx
      exact ⟨splitMax x xs n, by simp [splitMax]⟩
    · obtain ⟨r, hr⟩ := ih
      exact ⟨r, by simp [splitMax, hx, hr]⟩

/-! Interpreter tags. -/

/-- The version text of an interpreter tag begins with a digit and has digits and '_' only. -/
theorem ver_chars (v : PyVer) : (∀ c ∈ v.text, isDigit c = true ∨ c = '_') ∧ ∃ x xs, v.text = x :: xs ∧ isDigit x = true := by
  cases v with
  | major a =>
    refine ⟨fun c hc => .inl (showNat_digits a c hc), ?_⟩
    exact showNat_cons a
  | glued a b =>
    refine ⟨fun c hc => ?_, ?_⟩
    · rcases List.mem_append.mp hc with h | h
      · exact .inl (showNat_digits a c h)
      · exact .inl (showNat_digits b c h)
    · obtain ⟨x, xs, e, hx⟩ := showNat_cons a
      exact ⟨x, xs ++ showNat b, by simp [PyVer.text, e], hx⟩
  | under a b =>
    refine ⟨fun c hc => ?_, ?_⟩
    · rcases List.mem_append.mp hc with h | h
      · exact .inl (showNat_digits a c h)
      · rcases List.mem_cons.mp h with h | h
        · exact .inr h
        · exact .inl (showNat_digits b c h)
    · obtain ⟨x, xs, e, hx⟩ := showNat_cons a
      exact ⟨x, xs ++ '_' :: showNat b, by simp [PyVer.text, e], hx⟩

theorem versionLike_text (v : PyVer) : versionLike v.text = true := by
  obtain ⟨h, x, xs, e, hx⟩ := ver_chars v
  simp only [versionLike, Bool.and_eq_true, List.all_eq_true]
  refine ⟨by rw [e]; rfl, fun c hc => ?_⟩
  rcases h c hc with h | h <;> simp [h]

/-- A name of letters followed by a version is split in one way only. -/
theorem name_split {a b : Text} {v w : Text} (ha : ∀ c ∈ a, isLower c = true) (hb : ∀ c ∈ b, isLower c = true)
    (hv : ∀ c ∈ v.head?, isLower c = false) (hw : ∀ c ∈ w.head?, isLower c = false)
    (h : a ++ v = b ++ w) : a = b ∧ v = w := by
  induction a generalizing b with
  | nil =>
    cases b with
    | nil => exact ⟨rfl, h⟩
    | cons y ys =>
      simp only [List.nil_append, List.cons_append] at h
      have := hv y (by simp [h])
      rw [hb y (by simp)] at this
      cases this
  | cons x xs ih =>
    cases b with
    | nil =>
      simp only [List.nil_append, List.cons_append] at h
      have := hw x (by simp [← h])
      rw [ha x (by simp)] at this
      cases this
    | cons y ys =>
      simp only [List.cons_append, List.cons.injEq] at h
      obtain ⟨h1, h2⟩ := ih (fun c hc => ha c (List.mem_cons_of_mem _ hc))
        (fun c hc => hb c (List.mem_cons_of_mem _ hc)) h.2
      exact ⟨by rw [h.1, h1], h2⟩

theorem iptFor_text (name : Text) (i : Interp) (hn : ∀ c ∈ name, isLower c = true)
    (hi : ∀ c ∈ i.name, isLower c = true) :
    iptFor name i.text = if i.name = name then some i.ver.text else none := by
  obtain ⟨hch, x, xs, e, hx⟩ := ver_chars i.ver
  by_cases h : i.name = name
  · subst h
    have hp : i.name.isPrefixOf i.text = true := by simp [Interp.text]
    have hd : i.text.drop i.name.length = i.ver.text := by simp [Interp.text]
    simp [iptFor, hp, hd, versionLike_text]
  · rw [if_neg h]
    unfold iptFor
    split
    · rename_i hc
      simp only [Bool.and_eq_true, List.isPrefixOf_iff_prefix] at hc
      obtain ⟨⟨w, hw⟩, hv⟩ := hc
      exfalso
      rw [← hw, List.drop_left] at hv
      apply h
      have := name_split hn hi (v := w) (w := i.ver.text) ?_ ?_ hw
      · exact this.1.symm
      · intro c hc
        cases w with
        | nil => simp at hc
        | cons y ys =>
          simp only [List.head?_cons, Option.mem_def, Option.some.injEq] at hc
          subst hc
          simp only [versionLike, Bool.and_eq_true, List.all_eq_true] at hv
          have := hv.2 y (by simp)
          simp only [Bool.or_eq_true, beq_iff_eq] at this
          rcases this with h | h
          · exact (digit_facts h).2.2.2.2.2
          · subst h; decide
      · intro c hc
        rw [e] at hc
        simp only [List.head?_cons, Option.mem_def, Option.some.injEq] at hc
        subst hc
        exact (digit_facts hx).2.2.2.2.2
    · rfl

theorem show_digit (a : Nat) (h : a < 10) : showNat a = [digitChar a] := by
  simp [showNat, showNatF, h]

/-- The version the scorer reads from an interpreter tag. -/
def PyVer.read (minor : Nat) : PyVer → Nat × Nat
  | .major a => (a, minor)
  | .glued a b => (a, b)
  | .under a b => (a, b)

theorem iptVersion_text (minor : Nat) (v : PyVer) (h : v.Ok) : iptVersion minor v.text = .ok (v.read minor) := by
  cases v with
  | major a =>
    have e := show_digit a h
    have : (PyVer.major a).text.length = 1 := by simp [PyVer.text, e]
    simp only [iptVersion, this, if_true]
    simp [PyVer.text, pyInt_show, PyVer.read]
  | glued a b =>
    have e := show_digit a h
    obtain ⟨y, ys, eb, hy⟩ := showNat_cons b
    have hl : ¬ (PyVer.glued a b).text.length = 1 := by simp [PyVer.text, e, eb]
    have hu : '_' ∉ (PyVer.glued a b).text := by
      simp only [PyVer.text, List.mem_append, not_or]
      exact ⟨show_no _ (by decide) a, show_no _ (by decide) b⟩
    have ht : (PyVer.glued a b).text.take 1 = showNat a := by simp [PyVer.text, e]
    have hd : (PyVer.glued a b).text.drop 1 = showNat b := by simp [PyVer.text, e]
    simp only [iptVersion, hl, hu, if_false, ht, hd, ints, pyInt_show, PyVer.read]
  | under a b =>
    have hl : ¬ (PyVer.under a b).text.length = 1 := by
      obtain ⟨y, ys, eb, hy⟩ := showNat_cons b
      simp [PyVer.text, eb]
      omega
    have hu : '_' ∈ (PyVer.under a b).text := by simp [PyVer.text]
    have hs : splitOn '_' (PyVer.under a b).text = [showNat a, showNat b] := by
      simp only [PyVer.text]
      rw [splitOn_step _ _ _ (show_no _ (by decide) a), splitOn_one _ _ (show_no _ (by decide) b)]
    simp only [iptVersion, hl, hu, if_false, if_true, hs, ints, pyInt_show, PyVer.read]

theorem ver_fits (v : Nat × Nat) (p : PyVer) :
    (¬ (v.1 ≠ (p.read v.2).1 ∨ v.2 < (p.read v.2).2)) ↔ p.Fits v := by
  cases p <;> simp only [PyVer.read, PyVer.Fits] <;> omega

/-! Versions. -/

theorem verLt_iff (a b : Nat × Nat) : verLt a b = true ↔ ¬ NotNewer b a := by
  simp only [verLt, NotNewer, Bool.or_eq_true, Bool.and_eq_true, decide_eq_true_eq]
  omega

theorem verLt_false (a b : Nat × Nat) : verLt a b = false ↔ NotNewer b a := by
  rw [← Bool.not_eq_true, verLt_iff]
  exact Classical.not_not

theorem indexOf_mem (l : List Text) (t : Text) : (indexOf l t).isSome = true ↔ t ∈ l := by
  induction l with
  | nil => simp [indexOf]
  | cons x xs ih =>
    by_cases h : x = t
    · simp [indexOf, h]
    · have : ¬ t = x := fun e => h e.symm
      simp [indexOf, h, ih, this]

end Pkm.Tags
