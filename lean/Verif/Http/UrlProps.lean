import Verif.Http.Url
import Verif.ParserLemmas
set_option linter.unusedVariables false
set_option linter.unusedSimpArgs false
/-
C56: URLs and their texts. C57: where a redirection leads.
-/
namespace Pkm
open Http

namespace Spec

/-- A URL of the web: `http` or `https`, a host name, a path that is empty or starts with a slash. -/
structure WebUrl (u : Url) : Prop where
  scheme : u.scheme = httpScheme ∨ u.scheme = httpsScheme
  host : ∀ c ∈ u.host, c ≠ ':' ∧ c ≠ '/' ∧ c ≠ '?' ∧ c ≠ '#'
  pathStart : ∀ c ∈ u.path.head?, c = '/'
  path : ∀ c ∈ u.path, c ≠ '?' ∧ c ≠ '#'
  query : ∀ c ∈ u.query, c ≠ '#'

end Spec

namespace Http

theorem splitFirst_none (c : Char) (a : Text) (h : c ∉ a) : splitFirst c a = (a, none) := by
  induction a with
  | nil => rfl
  | cons x xs ih =>
    simp at h
    simp [splitFirst, ih h.2, Ne.symm h.1]

theorem splitFirst_some (c : Char) (a b : Text) (h : c ∉ a) : splitFirst c (a ++ c :: b) = (a, some b) := by
  induction a with
  | nil => simp [splitFirst]
  | cons x xs ih =>
    simp at h
    simp [splitFirst, ih h.2, Ne.symm h.1]

/-- What `splitFirst` finds. -/
theorem splitFirst_spec (c : Char) (t : Text) :
    (c ∉ (splitFirst c t).1) ∧ t = (splitFirst c t).1 ++ (match (splitFirst c t).2 with | some r => c :: r | none => []) := by
  induction t with
  | nil => simp [splitFirst]
  | cons x xs ih =>
    by_cases h : x = c
    · simp [splitFirst, h]
    · have h' : ¬ c = x := fun e => h e.symm
      simp only [splitFirst, h, if_false, List.mem_cons, not_or, List.cons_append]
      exact ⟨⟨h', ih.1⟩, by rw [← ih.2]⟩

theorem splitRest_text (s n path query frag : Text) (hp : ∀ c ∈ path, c ≠ '?' ∧ c ≠ '#')
    (hq : ∀ c ∈ query, c ≠ '#') :
    splitRest s n (path ++ (if query.isEmpty then [] else '?' :: query) ++ (if frag.isEmpty then [] else '#' :: frag)) =
      ⟨s, n, path, query, frag⟩ := by
  have hA : '#' ∉ path ++ (if query.isEmpty then [] else '?' :: query) := by
    intro hm
    rcases List.mem_append.mp hm with hm | hm
    · exact (hp _ hm).2 rfl
    · split at hm
      · cases hm
      · rcases List.mem_cons.mp hm with hm | hm
        · exact absurd hm (by decide)
        · exact hq _ hm rfl
  have hP : '?' ∉ path := fun hm => (hp _ hm).1 rfl
  have h1 : splitFirst '#' (path ++ (if query.isEmpty then [] else '?' :: query) ++ (if frag.isEmpty then [] else '#' :: frag)) =
      (path ++ (if query.isEmpty then [] else '?' :: query), if frag.isEmpty then none else some frag) := by
    cases frag with
    | nil => simp only [List.isEmpty_nil, if_true, List.append_nil]; exact splitFirst_none _ _ hA
    | cons x xs => exact splitFirst_some _ _ _ hA
  have h2 : splitFirst '?' (path ++ (if query.isEmpty then [] else '?' :: query)) =
      (path, if query.isEmpty then none else some query) := by
    cases query with
    | nil => simp only [List.isEmpty_nil, if_true, List.append_nil]; exact splitFirst_none _ _ hP
    | cons x xs => exact splitFirst_some _ _ _ hP
  simp only [splitRest, h1, h2]
  cases query <;> cases frag <;> simp

theorem takeDrop_append (p : Char → Bool) (a b : Text) (ha : ∀ c ∈ a, p c = true) (hb : ∀ c ∈ b.head?, p c = false) :
    (a ++ b).takeWhile p = a ∧ (a ++ b).dropWhile p = b := by
  induction a with
  | nil =>
    cases b with
    | nil => simp
    | cons x xs => have := hb x (by simp); simp [this]
  | cons x xs ih =>
    have hx := ha x List.mem_cons_self
    obtain ⟨i1, i2⟩ := ih (fun c hc => ha c (List.mem_cons_of_mem _ hc))
    simp only [List.cons_append, List.takeWhile_cons, hx, if_true, List.dropWhile_cons, i1, i2, and_self]

theorem splitOn_single (c : Char) (a : Text) (h : c ∉ a) : splitOn c a = [a] := by
  induction a with
  | nil => rfl
  | cons x xs ih =>
    simp at h
    have hx : ¬ x = c := fun e => h.1 e.symm
    simp [splitOn, hx, ih h.2]

theorem splitOn_two (c : Char) (a b : Text) (ha : c ∉ a) (hb : c ∉ b) : splitOn c (a ++ c :: b) = [a, b] := by
  induction a with
  | nil => simp [splitOn, splitOn_single c b hb]
  | cons x xs ih =>
    simp at ha
    have hx : ¬ x = c := fun e => ha.1 e.symm
    simp [splitOn, hx, ih ha.2]

theorem portText_chars (u : Url) : ∀ c ∈ u.portText, c = ':' ∨ isDigit c = true := by
  intro c hc
  unfold Url.portText at hc
  split at hc
  · cases hc
  · rcases List.mem_cons.mp hc with h | h
    · exact .inl h
    · exact .inr (showNat_digits _ c h)

theorem digit_not_end (c : Char) (h : isDigit c = true) : isNetlocEnd c = false := by
  unfold isNetlocEnd
  simp only [Bool.or_eq_false_iff, beq_eq_false_iff_ne]
  refine ⟨⟨?_, ?_⟩, ?_⟩ <;> (intro e; subst e; revert h; decide)

theorem isNumeric_showNat (n : Nat) : isNumeric (showNat n) = true := by
  simp only [isNumeric, Bool.and_eq_true, Bool.not_eq_true', List.all_eq_true]
  refine ⟨?_, fun c hc => showNat_digits n c hc⟩
  cases h : showNat n with
  | nil => exact absurd h (showNat_ne n)
  | cons => rfl

theorem tail_head (u : Url) (h : ∀ c ∈ u.path.head?, c = '/') :
    ∀ c ∈ (u.path ++ u.queryText ++ u.fragmentText).head?, isNetlocEnd c = true := by
  intro c hc
  cases hp : u.path with
  | cons x xs =>
    rw [hp] at hc
    simp at hc
    have := h x (by rw [hp]; simp)
    subst hc; subst this; rfl
  | nil =>
    rw [hp] at hc
    unfold Url.queryText Url.fragmentText at hc
    cases hq : u.query <;> cases hf : u.fragment <;> simp [hq, hf] at hc <;> subst hc <;> rfl

theorem urlsplit_str (u : Url) (h : Spec.WebUrl u) :
    urlsplit u.str = ⟨u.scheme, u.host ++ u.portText, u.path, u.query, u.fragment⟩ := by
  have hs : splitFirst ':' u.str =
      (u.scheme, some ('/' :: '/' :: (u.host ++ u.portText ++ u.path ++ u.queryText ++ u.fragmentText))) := by
    unfold Url.str
    apply splitFirst_some
    rcases h.scheme with e | e <;> rw [e] <;> decide
  have hall : u.scheme.all isSchemeChar = true ∧ lower u.scheme = u.scheme ∧ ∃ c s, u.scheme = c :: s := by
    rcases h.scheme with e | e <;> rw [e] <;> exact ⟨by decide, by decide, _, _, rfl⟩
  obtain ⟨h1, h2, c, s, h3⟩ := hall
  have key := takeDrop_append (fun c => !isNetlocEnd c) (u.host ++ u.portText) (u.path ++ u.queryText ++ u.fragmentText)
    (by
      intro c hc
      rcases List.mem_append.mp hc with hc | hc
      · have := h.host c hc
        simp [isNetlocEnd, this]
      · rcases portText_chars u c hc with e | e
        · subst e; rfl
        · simp [digit_not_end c e])
    (by intro c hc; simp [tail_head u h.pathStart c hc])
  unfold urlsplit
  rw [hs, h3]
  simp only
  rw [← h3, if_pos h1, h2]
  simp only [splitNetloc]
  have e : u.host ++ u.portText ++ u.path ++ u.queryText ++ u.fragmentText =
    (u.host ++ u.portText) ++ (u.path ++ u.queryText ++ u.fragmentText) := by simp [List.append_assoc]
  rw [e, key.1, key.2]
  exact splitRest_text _ _ _ _ _ h.path h.query

end Http

/-- C56: reading the text of a web URL gives the URL back. -/
theorem url_round_trip (u : Url) (h : Spec.WebUrl u) : Url.parse u.str = some u := by
  have hh : ':' ∉ u.host := fun hm => (h.host _ hm).1 rfl
  unfold Url.parse
  rw [urlsplit_str u h]
  simp only
  by_cases hp : (u.scheme = httpsScheme ∧ u.port = 443) ∨ (u.scheme = httpScheme ∧ u.port = 80)
  · have e : u.portText = [] := by unfold Url.portText; rw [if_pos hp]
    rw [e, List.append_nil, splitOn_single _ _ hh]
    simp only
    have : (if u.scheme = httpScheme then 80 else 443) = u.port := by
      rcases hp with ⟨e1, e2⟩ | ⟨e1, e2⟩
      · rw [e1, e2]; rfl
      · rw [e1, e2]; rfl
    rw [this]
  · have e : u.portText = ':' :: showNat u.port := by unfold Url.portText; rw [if_neg hp]
    have hn : ':' ∉ showNat u.port := by
      intro hm; have := showNat_digits _ _ hm; revert this; decide
    rw [e, splitOn_two _ _ _ hh hn]
    simp only [isNumeric_showNat, if_true, toNat_showNat]

/-- C56: different web URLs have different texts (so the cache, which uses the hash of the text, does not mix
them up). -/
theorem url_text_injective (u v : Url) (hu : Spec.WebUrl u) (hv : Spec.WebUrl v) (h : u.str = v.str) : u = v := by
  have := url_round_trip u hu
  rw [h, url_round_trip v hv] at this
  exact (Option.some.inj this).symm

namespace Http

/-- The host part of a network location. -/
theorem splitOn_pieces (c : Char) (t : Text) : ∀ p ∈ splitOn c t, (c ∉ p ∧ ∀ x ∈ p, x ∈ t) := by
  induction t with
  | nil => intro p hp; simp [splitOn] at hp; subst hp; simp
  | cons x xs ih =>
    intro p hp
    simp only [splitOn] at hp
    split at hp
    · rcases List.mem_cons.mp hp with rfl | hp
      · simp
      · obtain ⟨i1, i2⟩ := ih p hp
        exact ⟨i1, fun y hy => List.mem_cons_of_mem _ (i2 y hy)⟩
    · rename_i hx
      have hx' : ¬ c = x := fun e => hx e.symm
      cases hs : splitOn c xs with
      | nil =>
        rw [hs] at hp
        simp at hp; subst hp; simp [hx']
      | cons s ss =>
        rw [hs] at hp
        simp only at hp
        rcases List.mem_cons.mp hp with rfl | hp
        · obtain ⟨i1, i2⟩ := ih s (by rw [hs]; simp)
          refine ⟨by simp [hx', i1], ?_⟩
          intro y hy
          rcases List.mem_cons.mp hy with rfl | hy
          · simp
          · exact List.mem_cons_of_mem _ (i2 y hy)
        · obtain ⟨i1, i2⟩ := ih p (by rw [hs]; exact List.mem_cons_of_mem _ hp)
          exact ⟨i1, fun y hy => List.mem_cons_of_mem _ (i2 y hy)⟩

theorem dropWhile_head (p : Char → Bool) (t : Text) : ∀ c ∈ (t.dropWhile p).head?, p c = false := by
  intro c hc
  induction t with
  | nil => simp at hc
  | cons x xs ih =>
    by_cases hx : p x = true
    · simp [List.dropWhile_cons, hx] at hc; exact ih hc
    · simp [List.dropWhile_cons, hx] at hc; subst hc; simpa using hx

theorem takeWhile_all (p : Char → Bool) (t : Text) : ∀ c ∈ t.takeWhile p, p c = true := by
  intro c hc
  induction t with
  | nil => simp at hc
  | cons x xs ih =>
    by_cases hx : p x = true
    · simp [List.takeWhile_cons, hx] at hc
      rcases hc with rfl | hc
      · exact hx
      · exact ih hc
    · simp [List.takeWhile_cons, hx] at hc

theorem splitRest_fields (s n rest : Text) :
    let p := splitRest s n rest
    p.scheme = s ∧ p.netloc = n ∧ (∀ c ∈ p.path, c ≠ '?' ∧ c ≠ '#') ∧ (∀ c ∈ p.query, c ≠ '#') ∧
    (∀ c ∈ p.path.head?, c ∈ rest.head?) := by
  have h1 := splitFirst_spec '#' rest
  have h2 := splitFirst_spec '?' (splitFirst '#' rest).1
  simp only [splitRest]
  generalize hA : splitFirst '#' rest = A at *
  obtain ⟨a, frag⟩ := A
  simp only at h2 ⊢
  generalize hB : splitFirst '?' a = B at *
  obtain ⟨path, query⟩ := B
  simp only at h1 h2 ⊢
  refine ⟨trivial, trivial, ?_, ?_, ?_⟩
  · intro c hc
    refine ⟨fun e => h2.1 (e ▸ hc), fun e => h1.1 ?_⟩
    rw [h2.2]; exact List.mem_append_left _ (e ▸ hc)
  · intro c hc e
    cases query with
    | none => simp at hc
    | some q =>
      simp at hc
      apply h1.1
      rw [h2.2]; simp; exact .inr (e ▸ hc)
  · intro c hc
    rw [h1.2, h2.2]
    cases path with
    | nil => simp at hc
    | cons x xs => simpa using hc

end Http

/-- C56: any text starting with `http://` or `https://` that is read as a URL gives a web URL; so writing it and
reading it again changes nothing. -/
theorem url_parse_web (s rest : Text) (hs : s = httpScheme ∨ s = httpsScheme) (u : Url)
    (h : Url.parse (s ++ ':' :: '/' :: '/' :: rest) = some u) : Spec.WebUrl u ∧ Url.parse u.str = some u := by
  suffices hw : Spec.WebUrl u from ⟨hw, url_round_trip u hw⟩
  have hsp : splitFirst ':' (s ++ ':' :: '/' :: '/' :: rest) = (s, some ('/' :: '/' :: rest)) := by
    apply splitFirst_some
    rcases hs with e | e <;> rw [e] <;> decide
  have hall : s.all isSchemeChar = true ∧ lower s = s ∧ ∃ c t, s = c :: t := by
    rcases hs with e | e <;> rw [e] <;> exact ⟨by decide, by decide, _, _, rfl⟩
  obtain ⟨h1, h2, c, t, h3⟩ := hall
  have hu : urlsplit (s ++ ':' :: '/' :: '/' :: rest) = splitRest s (rest.takeWhile (fun c => !isNetlocEnd c))
      (rest.dropWhile (fun c => !isNetlocEnd c)) := by
    unfold urlsplit
    rw [hsp, h3]
    simp only
    rw [← h3, if_pos h1, h2]
    rfl
  obtain ⟨f1, f2, f3, f4, f5⟩ := splitRest_fields s (rest.takeWhile (fun c => !isNetlocEnd c))
    (rest.dropWhile (fun c => !isNetlocEnd c))
  unfold Url.parse at h
  simp only at h
  rw [hu] at h
  have hfst : ∀ c ∈ (splitRest s (rest.takeWhile (fun c => !isNetlocEnd c))
      (rest.dropWhile (fun c => !isNetlocEnd c))).path.head?, c = '/' := by
    intro c hc
    have hd := dropWhile_head _ _ c (f5 c hc)
    have hp := f3 c (by
      cases hpp : (splitRest s (rest.takeWhile (fun c => !isNetlocEnd c)) (rest.dropWhile (fun c => !isNetlocEnd c))).path with
      | nil => rw [hpp] at hc; simp at hc
      | cons x xs => rw [hpp] at hc; simp at hc; subst hc; simp)
    simp [isNetlocEnd, hp] at hd
    exact hd
  have hhost : ∀ host, host ∈ splitOn ':' (splitRest s (rest.takeWhile (fun c => !isNetlocEnd c))
      (rest.dropWhile (fun c => !isNetlocEnd c))).netloc → ∀ c ∈ host, c ≠ ':' ∧ c ≠ '/' ∧ c ≠ '?' ∧ c ≠ '#' := by
    intro host hh c hc
    rw [f2] at hh
    obtain ⟨i1, i2⟩ := splitOn_pieces _ _ host hh
    have := takeWhile_all _ _ c (i2 c hc)
    simp [isNetlocEnd] at this
    exact ⟨fun e => i1 (e ▸ hc), this.1.1, this.1.2, this.2⟩
  split at h
  · rename_i host hm
    simp only [Option.some.injEq] at h; subst h
    exact ⟨by simp only [f1]; exact hs, hhost host (by rw [hm]; simp), hfst, f3, f4⟩
  · rename_i host port hm
    split at h
    · simp only [Option.some.injEq] at h; subst h
      exact ⟨by simp only [f1]; exact hs, hhost host (by rw [hm]; simp), hfst, f3, f4⟩
    · cases h
  · cases h

example : Url.parse "https://pypi.org/simple/x/?a=b#c".toList =
    some ⟨httpsScheme, "pypi.org".toList, 443, "/simple/x/".toList, "a=b".toList, "c".toList⟩ := by decide
example : Url.parse "http://h:8080".toList = some ⟨httpScheme, ['h'], 8080, [], [], []⟩ := by decide
example : Spec.WebUrl ⟨httpsScheme, "pypi.org".toList, 8443, "/simple/x/".toList, "a=b".toList, "c".toList⟩ :=
  ⟨.inr rfl, by decide, by decide, by decide, by decide⟩

namespace Spec

/-- RFC 3986, 5.2: an absolute-path reference `/path?query#fragment` keeps scheme and authority of the base URL
and replaces path, query and fragment. -/
def resolveAbsolute (u : Url) (path query fragment : Text) : Url :=
  { u with path := path, query := query, fragment := fragment }

end Spec

/-- C57, partial: a redirection to a plain absolute path leads there if the redirected URL had no query and no
fragment. -/
theorem redirect_path_partial (u : Url) (h1 : u.query = []) (h2 : u.fragment = []) (p : Text) :
    redirect u ('/' :: p) = some (Spec.resolveAbsolute u ('/' :: p) [] []) := by
  cases u; simp_all [redirect, Spec.resolveAbsolute]

/-- C57: a redirection to the text of a web URL leads there. -/
theorem redirect_absolute (u v : Url) (hv : Spec.WebUrl v) : redirect u v.str = some v := by
  have : ∃ r, v.str = 'h' :: r := by
    unfold Url.str
    rcases hv.scheme with e | e <;> rw [e] <;> exact ⟨_, rfl⟩
  obtain ⟨r, hr⟩ := this
  have h2 := url_round_trip v hv
  rw [hr] at h2 ⊢
  simpa [redirect] using h2

/-- C57: for a URL with a query every redirection to a path leads to a wrong place: the old query is asked for
again. -/
theorem redirect_query_violated (u : Url) (hq : u.query ≠ []) (p : Text) :
    ∃ v, redirect u ('/' :: p) = some v ∧ v ≠ Spec.resolveAbsolute u ('/' :: p) [] [] ∧
      v.resourcePart = '/' :: p ++ '?' :: u.query ++ u.fragmentText := by
  refine ⟨_, rfl, ?_, ?_⟩
  · intro e
    have := congrArg Url.query e
    exact hq this
  · have : u.query.isEmpty = false := by cases h : u.query <;> simp_all
    simp [Url.resourcePart, Url.queryText, Url.fragmentText, this]

/-- C57: a redirection to a path with a query is requested rightly if the URL had no query, but the URL object
differs from the one that reading its text gives (the query is part of the path). -/
theorem redirect_path_query_violated : ∃ u v : Url, Spec.WebUrl u ∧ redirect u "/b?x=1".toList = some v ∧
    Url.parse v.str ≠ some v := by
  refine ⟨⟨httpScheme, ['h'], 80, ['/', 'a'], [], []⟩, _, ⟨.inl rfl, by decide, by decide, by decide, by decide⟩, rfl,
    by decide⟩

/-- C57: a network-path reference `//other/x` is taken for a path on the same host. -/
theorem redirect_network_path_violated (u : Url) (p : Text) :
    ∃ v, redirect u ('/' :: '/' :: p) = some v ∧ v.host = u.host := ⟨_, rfl, rfl⟩

end Pkm
