import Verif.Requirements.Lemmas
set_option linter.unusedVariables false
/-
Property C50: a printed requirement is read back as the same requirement.
-/
namespace Pkm.Reqs
open PS Markers Spec VSpec

/-- C50: a requirement that is printed and read again is the same requirement: same name, same extras,
same constraint, and a marker with the same text and the same value everywhere. Proved for constraints
with a faithful text, names that start with a letter or underscore and extras that are not an empty list;
the excluded cases fail (below). -/
theorem requirement_round_trip_partial (env : UrlEnv) (d : Dep) (hw : Writable d)
    (hs : PlainSpec d.spec) : ∃ d', parseDep env d.show = .ok d' ∧ SameReq d d' := by
  obtain ⟨m', h1, h2, h3⟩ := parse_show env d d.spec hw.normal hw.first hw.extras
    (plain_reads _ hs) hw.marker
  exact ⟨_, h1, rfl, rfl, rfl, h2.symm, fun x y hx hy c => (h3 x y hx hy c).symm⟩

/-- C50: with excluded versions (`>=1, !=1.5, !=1.7`) the constraint read back accepts the same
versions; proved for finals and other candidates of the specification. -/
theorem requirement_round_trip_minus_partial (env : UrlEnv) (d : Dep) (hw : Writable d)
    (vs : List SV) (b : VSpec) (hspec : d.spec = .hetro (vs.map .std) b) (hvs : vs ≠ [])
    (hp : ∀ v, v ∈ vs → Printable v ∧ Plain v) (hb : Block b)
    (hbp : ∀ m, (blockMin b).1 = some m ∨ (blockMax b).1 = some m → Printable m)
    (ha : ¬ TildeAmbiguous (blockMin b).1 (blockMax b).1) :
    ∃ d', parseDep env d.show = .ok d' ∧ SameReq { d with spec := d'.spec } d' ∧
      ∀ w, Candidate w → (d'.spec.allows (.std w) = true ↔ d.spec.allows (.std w) = true) := by
  obtain ⟨cs, ss, r, hne, hwf, htext, hss, hr, hall⟩ := minus_clauses vs b hvs hp hb hbp ha
  obtain ⟨m', h1, h2, h3⟩ := parse_show env d r hw.normal hw.first hw.extras
    (Or.inr ⟨by rw [hspec]; simp, cs, ss, hne, hwf, by rw [hspec]; exact htext, hss, hr⟩) hw.marker
  refine ⟨_, h1, ⟨rfl, rfl, rfl, h2.symm, fun x y hx hy c => (h3 x y hx hy c).symm⟩, ?_⟩
  intro w hcw
  rw [hspec]
  exact hall w hcw

/-! ## what the parser returns -/

theorem takeWhile_ident (t : Text) (x : Char) (xs : Text) (ht : t = x :: xs)
    (hx : isAlpha x = true ∨ x = '_') : IdentOk (t.takeWhile (fun c => !!isIdent c)) := by
  subst ht
  have hid : isIdent x = true := by
    rcases hx with h | rfl
    · exact alpha_ident _ h
    · decide
  refine ⟨x, xs.takeWhile (fun c => !!isIdent c), by simp [List.takeWhile, hid], hx, ?_⟩
  intro d hd
  have := mem_takeWhile _ _ _ hd
  simpa using this

theorem readIdent_ok (p q : PS) (n : Text) (h : readIdent p = .ok (n, q)) : IdentOk n := by
  simp only [readIdent] at h
  split at h
  · rename_i hp
    simp only [untilP, Except.ok.injEq, Prod.mk.injEq] at h
    cases hr : p.rest with
    | nil => simp [peekIs, hr] at hp
    | cons x xs =>
      rw [← h.1]
      simp [peekIs, hr] at hp
      exact takeWhile_ident p.rest x xs hr hp
  · simp at h

theorem readExtraNames_ok (f : Nat) : ∀ (acc : List Text) (p q : PS) (es : List Text),
    (∀ e, e ∈ acc → IdentOk e) → readExtraNames f acc p = .ok (es, q) →
    (∀ e, e ∈ es → IdentOk e) ∧ (p.rest.length < f → es ≠ [] ∨ q.rest = []) := by
  induction f with
  | zero =>
    intro acc p q es hacc h
    simp [readExtraNames] at h
    obtain ⟨rfl, rfl⟩ := h
    exact ⟨hacc, by omega⟩
  | succ f ih =>
    intro acc p q es hacc h
    simp only [readExtraNames] at h
    cases hr : p.rest with
    | nil =>
      rw [hr] at h
      simp at h
      obtain ⟨rfl, rfl⟩ := h
      exact ⟨hacc, fun _ => Or.inr hr⟩
    | cons x xs =>
      rw [hr] at h
      simp only at h
      cases hi : readIdent p.ws with
      | error e => rw [hi] at h; simp at h
      | ok y =>
        obtain ⟨n, p1⟩ := y
        rw [hi] at h
        simp only at h
        have hn := readIdent_ok _ _ _ hi
        have hacc' : ∀ e, e ∈ acc ++ [n] → IdentOk e := by
          intro e he; simp at he
          rcases he with he | rfl
          · exact hacc e he
          · exact hn
        cases hl : p1.ws.lit [','] with
        | none =>
          rw [hl] at h
          simp at h
          obtain ⟨rfl, rfl⟩ := h
          exact ⟨hacc', fun _ => Or.inl (by simp)⟩
        | some q' =>
          rw [hl] at h
          simp only at h
          have hg : ∀ (f : Nat) (acc : List Text) (p q : PS) (es : List Text), acc ≠ [] →
              readExtraNames f acc p = .ok (es, q) → es ≠ [] := by
            intro f
            induction f with
            | zero => intro acc p q es ha h; simp [readExtraNames] at h; rw [← h.1]; exact ha
            | succ f ih2 =>
              intro acc p q es ha h
              simp only [readExtraNames] at h
              split at h
              · simp at h; rw [← h.1]; exact ha
              · split at h
                · simp at h
                · split at h
                  · simp at h; rw [← h.1]; simp
                  · exact ih2 _ _ _ _ (by simp) h
          exact ⟨(ih _ _ _ _ hacc' h).1, fun _ => Or.inl (hg _ _ _ _ _ (by simp) h)⟩

theorem readExtras_ok (p q : PS) (es : List Text) (h : readExtras p = .ok (es, q)) :
    es ≠ [] ∧ ∀ e, e ∈ es → IdentOk e := by
  simp only [readExtras] at h
  split at h
  · simp at h
  · rename_i p1 _
    cases hr : readExtraNames (p1.rest.length + 1) [] p1 with
    | error e => rw [hr] at h; simp at h
    | ok y =>
      obtain ⟨es', q'⟩ := y
      rw [hr] at h
      simp only at h
      have := readExtraNames_ok _ _ _ _ _ (by simp) hr
      split at h
      · simp at h
      · rename_i hl
        simp at h
        obtain ⟨rfl, _⟩ := h
        refine ⟨?_, this.1⟩
        rcases this.2 (by omega) with h1 | h1
        · exact h1
        · simp [lit, h1] at hl

theorem readOptMarker_ok (p : PS) (m : EnvMarker) (h : readOptMarker p = .ok (some m)) : MarkerOk m := by
  simp only [readOptMarker] at h
  split at h
  · simp at h
  · rename_i w q hq
    cases hr : q.rest with
    | nil => rw [hr] at h; simp at h
    | cons x xs =>
      rw [hr] at h
      simp only at h
      cases hm : readMarker (x :: xs) with
      | error e => rw [hm] at h; simp at h
      | ok y =>
        obtain ⟨m', R⟩ := y
        rw [hm] at h
        simp at h
        subst h
        obtain ⟨gs, h1, h2, h3, h4⟩ := marker_read_sound _ _ _ hm
        refine ⟨?_, gs, h1, h3, h4⟩
        have hx : (isSpace x && x != '\n') = false := by
          simp only [litWs] at hq
          split at hq
          · simp at hq
          · rename_i q0 _
            simp only [untilP, Option.some.injEq, Prod.mk.injEq] at hq
            have e : q.rest = q0.rest.dropWhile (fun c => !!(isSpace c && c != '\n')) := by
              rw [← hq.2]
            have := startsNot_dropWhile (fun c => !!(isSpace c && c != '\n')) q0.rest
            rw [← e, hr] at this
            simpa using this
        cases he : m'.expr with
        | nil => simp [NoLead]
        | cons y ys =>
          rw [← h3, he] at h2
          simp at h2
          simp only [NoLead, startsNot_cons, ← h2.1, hx]

theorem normalize_first (c : Char) (cs r : Text) (hc : isAlpha c = true ∨ c = '_')
    (h : normalizeName (c :: cs) = some r) : ∃ ds, r = c :: ds := by
  have hn : nameChar c = true := by
    rcases hc with h | rfl
    · simp [isAlpha] at h; simp [nameChar, isAlnum]; rcases h with h | h <;> simp [h]
    · decide
  have hd : (c == '-') = false := by
    rcases hc with h | rfl
    · cases hx : (c == '-') with
      | false => rfl
      | true => simp at hx; subst hx; exact absurd h (by decide)
    · decide
  have key : ∀ t : Text, ∃ ds, stripChar '-' (c :: t) = c :: ds := by
    intro t
    simp only [stripChar, List.dropWhile_cons, hd]
    simp only [Bool.false_eq_true, if_false, List.reverse_cons]
    rw [List.dropWhile_append]
    split
    · exact ⟨[], by simp [List.dropWhile_cons, hd]⟩
    · exact ⟨_, by simp; rfl⟩
  simp only [normalizeName, subDash, hn, if_true] at h
  obtain ⟨ds, e⟩ := key (subDash false cs)
  rw [e] at h
  simp at h
  exact ⟨ds, h.symm⟩

/-- What a requirement read from any text looks like. -/
theorem parse_writable (env : UrlEnv) (t : Text) (d : Dep) (h : parseDep env t = .ok d) : Writable d := by
  simp only [parseDep, readDependency] at h
  split at h
  · simp at h
  · rename_i n p1 hi
    have hid := readIdent_ok _ _ _ hi
    split at h
    · simp at h
    · rename_i name hname
      split at h
      · simp at h
      · rename_i ex p2 hex
        split at h
        · simp at h
        · rename_i spec p3 hspec
          split at h
          · simp at h
          · rename_i mk hmk
            simp at h
            subst h
            refine ⟨normalize_name_idempotent _ _ hname, ?_, ?_, ?_⟩
            · obtain ⟨c, cs, rfl, hc, _⟩ := hid
              obtain ⟨ds, e⟩ := normalize_first c cs name hc hname
              exact ⟨c, ds, e, hc⟩
            · intro es hes
              simp only at hes
              subst hes
              simp only [readOptExtras] at hex
              split at hex
              · split at hex
                · simp at hex
                · rename_i es' q hr
                  simp at hex
                  obtain ⟨rfl, _⟩ := hex
                  exact readExtras_ok _ _ _ hr
              · simp at hex
            · intro m hm
              simp only at hm
              subst hm
              exact readOptMarker_ok _ _ hmk

/-- C50: every requirement that was read from a text, printed and read again, is the same requirement,
provided its constraint is of a kind with a faithful text. -/
theorem requirement_reparse_partial (env : UrlEnv) (t : Text) (d : Dep) (h : parseDep env t = .ok d)
    (hs : PlainSpec d.spec) : ∃ d', parseDep env d.show = .ok d' ∧ SameReq d d' :=
  requirement_round_trip_partial env d (parse_writable env t d h) hs

/-- C50: the name of a requirement is normalised when it is read, so `a--b` and `a-b` require the same
package. -/
theorem requirement_name_normal (env : UrlEnv) (t : Text) (d : Dep) (h : parseDep env t = .ok d) :
    normalizeName d.name = some d.name := (parse_writable env t d h).normal

/-! ## examples -/

private def exEnv : UrlEnv := ⟨fun t => if t = ['u', ':', '/', '/', 'h'] ++ ";a=='b'".toList ∨ t = ['u', ':', '/', '/', 'h'] then
  some ['u'] else Option.none, id⟩

/-- What `parseDep` gives, in comparable parts. -/
private def parts (r : Except DErr Dep) : Option (Text × Text × Option (List Text) × Option Text) :=
  match r with
  | .error _ => Option.none
  | .ok d => some (d.name, d.spec.show, d.extras, d.marker.map (·.expr))

/-- A requirement with all parts, read and printed. -/
example : parts (parseDep exEnv "ab--c [x,y] >=1.0, <2; a == 'b' or c in d".toList) =
    some ("ab-c".toList, ">=1.0, <2".toList, some [['x'], ['y']], some "a == 'b' or c in d".toList) := by
  decide +kernel

/-! ## where printing and reading differ -/

/-- A package name may start with a digit (`7zip`), but no text of it can be read. -/
theorem requirement_digit_violated (env : UrlEnv) (s : VSpec) (ex : Option (List Text))
    (m : Option EnvMarker) :
    normalizeName "7zip".toList = some "7zip".toList ∧
    parseDep env (Dep.show ⟨"7zip".toList, s, ex, m⟩) = .error .value := by
  refine ⟨by decide, ?_⟩
  have hw : PS.ws (PS.ofText (Dep.show ⟨"7zip".toList, s, ex, m⟩)) =
      ⟨[], Dep.show ⟨"7zip".toList, s, ex, m⟩⟩ := ws_stop _ _ (by simp [Dep.show]; decide)
  simp only [parseDep, readDependency, hw]
  rfl

/-- An empty list of extras is printed as nothing and read as no list (the resolver treats the two as
different). -/
theorem requirement_empty_extras_violated (env : UrlEnv) :
    ∃ d', parseDep env (Dep.show ⟨['a'], .all, some [], Option.none⟩) = .ok d' ∧
      d'.extras = Option.none := ⟨_, rfl, rfl⟩

private theorem okWith (r : Except DErr Dep) (P Q : Dep → Prop) [DecidablePred P] [DecidablePred Q]
    (h : (match (generalizing := false) r with
      | .error _ => false
      | .ok d => (decide (P d)) && (decide (Q d))) = true) : ∃ d, r = .ok d ∧ P d ∧ Q d := by
  cases r with
  | error e => simp at h
  | ok d => exact ⟨d, rfl, by simpa using h⟩

/-- The hypotheses of the round trip are met by `ab-c[x,y] ==1.2;a == 'b' or c in d`. -/
example : ∃ d, Writable d ∧ PlainSpec d.spec ∧ d.show = "ab-c[x,y] ==1.2;a == 'b' or c in d".toList := by
  obtain ⟨d, h1, h2, h3⟩ := okWith (parseDep exEnv "ab--c [x,y] ; a == 'b' or c in d".toList)
    (fun d => d.show = "ab-c[x,y];a == 'b' or c in d".toList)
    (fun d => Dep.show { d with spec := .vmatch (.std { release := [1, 2] }) true } =
      "ab-c[x,y] ==1.2;a == 'b' or c in d".toList) (by decide +kernel)
  have hw := parse_writable _ _ _ h1
  exact ⟨{ d with spec := .vmatch (.std { release := [1, 2] }) true }, ⟨hw.normal, hw.first, hw.extras, hw.marker⟩,
    .vmatch _ _ ⟨by simp, by simp, by simp⟩ ⟨by simp, by simp, by simp⟩, h3⟩

/-- The exclusion `!=1.*` is printed with a semicolon, after which a marker is expected. -/
theorem requirement_exclusion_violated :
    ∃ d, parseDep exEnv "a !=1.*".toList = .ok d ∧ d.show = "a <1; >=2".toList ∧
      parts (parseDep exEnv d.show) = Option.none := by
  obtain ⟨d, h1, h2, h3⟩ := okWith (parseDep exEnv "a !=1.*".toList)
    (fun d => d.show = "a <1; >=2".toList) (fun d => parts (parseDep exEnv d.show) = Option.none)
    (by decide +kernel)
  exact ⟨d, h1, h2, h3⟩

/-- The marker of a requirement with a URL becomes part of the URL when there is no blank before the
semicolon, as it is printed. -/
theorem requirement_url_marker_violated :
    parts (parseDep exEnv "a @ u://h ;a=='b'".toList) =
      some (['a'], "@u://h".toList, Option.none, some "a=='b'".toList) ∧
    parts (parseDep exEnv "a @u://h;a=='b'".toList) =
      some (['a'], "@u://h;a=='b'".toList, Option.none, Option.none) := by
  constructor <;> decide +kernel

end Pkm.Reqs
