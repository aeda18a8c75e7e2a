import Verif.Requirements.Spec
import Verif.Names.Props
set_option linter.unusedVariables false
set_option linter.unusedSimpArgs false
/-
The requirement parser on printed requirements.
-/
namespace Pkm.Reqs
open PS Markers Spec VSpec

/-! ### pieces -/

theorem ident_chars (n : Text) (h : IdentOk n) : ∀ c, c ∈ n → isIdent c = true := by
  obtain ⟨c, cs, rfl, hc, hcs⟩ := h
  intro d hd
  simp at hd
  rcases hd with rfl | hd
  · rcases hc with h | rfl
    · exact alpha_ident _ h
    · decide
  · exact hcs d hd

theorem readIdent_text (n : Text) (hn : IdentOk n) (pv R : Text) (hR : StartsNot isIdent R) :
    readIdent ⟨pv, n ++ R⟩ = .ok (n, ⟨n.reverse ++ pv, R⟩) := by
  have hch := ident_chars n hn
  have h2 := untilP_append (fun c => !isIdent c) pv n R (fun c hc => by simp [hch c hc])
    (by cases R with
        | nil => simp
        | cons c cs => simpa using hR)
  obtain ⟨c, cs, rfl, hc, hcs⟩ := hn
  have hp : peekIs (fun c => isAlpha c || c == '_') ⟨pv, c :: cs ++ R⟩ = true := by
    rcases hc with h | rfl <;> simp [peekIs] <;> simp [*]
  simp only [readIdent, hp, if_true, h2]

theorem ident_startsNot_space (n R : Text) (h : IdentOk n) : StartsNot isSpace (n ++ R) := by
  obtain ⟨c, cs, rfl, hc, _⟩ := h
  simp
  rcases hc with h | rfl
  · exact alpha_not_space c h
  · decide

theorem ws_stop (pv R : Text) (h : StartsNot isSpace R) : PS.ws ⟨pv, R⟩ = ⟨pv, R⟩ := ws_none _ _ h

/-- The loop over extras. -/
theorem readExtraNames_text (es : List Text) : ∀ (acc : List Text) (f : Nat) (pv R : Text), es ≠ [] →
    (∀ e, e ∈ es → IdentOk e) → es.length < f →
    ∃ q, readExtraNames f acc ⟨pv, joinText [','] es ++ (']' :: R)⟩ = .ok (acc ++ es, q) ∧
      q.rest = ']' :: R := by
  induction es with
  | nil => intro acc f pv R h; exact absurd rfl h
  | cons e es ih =>
    intro acc f pv R _ hes hf
    have he := hes e (by simp)
    cases f with
    | zero => omega
    | succ f =>
      cases es with
      | nil =>
        have h1 := readIdent_text e he pv (']' :: R) (by simp; decide)
        have hw : PS.ws ⟨pv, e ++ (']' :: R)⟩ = ⟨pv, e ++ (']' :: R)⟩ :=
          ws_stop _ _ (ident_startsNot_space e _ he)
        have hw2 : PS.ws ⟨e.reverse ++ pv, ']' :: R⟩ = ⟨e.reverse ++ pv, ']' :: R⟩ :=
          ws_stop _ _ (by simp; decide)
        have hl : lit [','] ⟨e.reverse ++ pv, ']' :: R⟩ = Option.none := by
          simp [lit, List.isPrefixOf]
        refine ⟨⟨e.reverse ++ pv, ']' :: R⟩, ?_, rfl⟩
        obtain ⟨x, xs, hx⟩ : ∃ x xs, e ++ (']' :: R) = x :: xs := by
          obtain ⟨c, cs, rfl, _⟩ := he; exact ⟨c, _, rfl⟩
        simp only [joinText, readExtraNames]
        rw [hx] at hw h1 ⊢
        simp only [hw, h1, hw2, hl]
      | cons e' es' =>
        have et : joinText [','] (e :: e' :: es') ++ (']' :: R) =
            e ++ (',' :: (joinText [','] (e' :: es') ++ (']' :: R))) := by simp [joinText]
        have h1 := readIdent_text e he pv (',' :: (joinText [','] (e' :: es') ++ (']' :: R)))
          (by simp; decide)
        have hw : PS.ws ⟨pv, e ++ (',' :: (joinText [','] (e' :: es') ++ (']' :: R)))⟩ = ⟨pv, e ++ _⟩ :=
          ws_stop _ _ (ident_startsNot_space e _ he)
        have hw2 : ∀ X, PS.ws ⟨e.reverse ++ pv, ',' :: X⟩ = ⟨e.reverse ++ pv, ',' :: X⟩ :=
          fun X => ws_stop _ _ (by simp; decide)
        have hl : ∀ X, lit [','] ⟨e.reverse ++ pv, ',' :: X⟩ = some ⟨',' :: (e.reverse ++ pv), X⟩ := by
          intro X; simp [lit, List.isPrefixOf, adv]
        obtain ⟨q, g1, g2⟩ := ih (acc ++ [e]) f (',' :: (e.reverse ++ pv)) R (by simp)
          (fun x hx => hes x (by simp at hx ⊢; right; exact hx)) (by simp at hf ⊢; omega)
        refine ⟨q, ?_, g2⟩
        obtain ⟨x, xs, hx⟩ : ∃ x xs, e ++ (',' :: (joinText [','] (e' :: es') ++ (']' :: R))) = x :: xs := by
          obtain ⟨c, cs, rfl, _⟩ := he; exact ⟨c, _, rfl⟩
        rw [et]
        simp only [readExtraNames]
        rw [hx] at hw h1 ⊢
        simp only [hw, h1, hw2, hl, g1]
        simp

theorem joinText_length (es : List Text) (h : ∀ e, e ∈ es → IdentOk e) :
    es.length ≤ (joinText [','] es).length := by
  induction es with
  | nil => simp
  | cons e es ih =>
    have he : 0 < e.length := by
      obtain ⟨c, cs, rfl, _⟩ := h e (by simp); simp
    cases es with
    | nil => simp [joinText]; omega
    | cons e' es' =>
      have := ih (fun x hx => h x (by simp at hx ⊢; right; exact hx))
      simp [joinText] at this ⊢; omega

theorem readExtras_text (es : List Text) (hne : es ≠ []) (h : ∀ e, e ∈ es → IdentOk e) (pv R : Text) :
    ∃ q, readExtras ⟨pv, '[' :: (joinText [','] es ++ (']' :: R))⟩ = .ok (es, q) ∧ q.rest = R := by
  have hlen := joinText_length es h
  obtain ⟨q, h1, h2⟩ := readExtraNames_text es [] ((joinText [','] es ++ (']' :: R)).length + 1)
    ('[' :: pv) R hne h (by simp; omega)
  have hl : lit ['['] ⟨pv, '[' :: (joinText [','] es ++ (']' :: R))⟩ =
      some ⟨'[' :: pv, joinText [','] es ++ (']' :: R)⟩ := by simp [lit, List.isPrefixOf, adv]
  have hl2 : q.lit [']'] = some ⟨']' :: q.prev, R⟩ := by
    rw [ps_eta q _ h2]; simp [lit, List.isPrefixOf, adv]
  refine ⟨⟨']' :: q.prev, R⟩, ?_, rfl⟩
  simp only [readExtras, hl, h1, List.nil_append, hl2]

/-- What may follow the constraint. -/
def End (t : Text) : Prop := t = [] ∨ ∃ u, t = ';' :: u

theorem end_marker (m : Option EnvMarker) : End (showMarker m) := by
  cases m with
  | none => exact Or.inl rfl
  | some m => exact Or.inr ⟨m.expr, rfl⟩

/-- The constraint `s` is printed as clauses whose conjunction is `r`. -/
def ReadsAs (s r : VSpec) : Prop :=
  (s = .all ∧ r = .all) ∨ (s ≠ .all ∧ ∃ cs ss, cs ≠ [] ∧ (∀ c, c ∈ cs → c.Wf) ∧
    s.show = joinText [',', ' '] (cs.map Clause.text) ∧ cs.map clauseSpec = ss.map .ok ∧
    interClauses .all ss = .ok r)

theorem plain_reads (s : VSpec) (h : PlainSpec s) : ReadsAs s s := by
  cases h with
  | all => exact Or.inl ⟨rfl, rfl⟩
  | vmatch v a hp hpl =>
    refine Or.inr ⟨by simp, ?_⟩
    cases a with
    | true =>
      exact ⟨[.eq v], [.vmatch (.std v) true], by simp,
        by simpa [Clause.Wf, Clause.version] using ⟨hp, hpl⟩,
        by simp [joinText, VSpec.show, showMatch, Clause.text], rfl,
        by simp [interClauses, inter_all_left, bind, Except.bind]⟩
    | false =>
      exact ⟨[.ne v], [.vmatch (.std v) false], by simp,
        by simpa [Clause.Wf, Clause.version] using ⟨hp, hpl⟩,
        by simp [joinText, VSpec.show, showMatch, Clause.text], rfl,
        by simp [interClauses, inter_all_left, bind, Except.bind]⟩
  | range min max imin imax hok hp1 hp2 ha =>
    obtain ⟨cs, ss, hne, hwf, htext, hss, _, hr⟩ := range_clauses min max imin imax hok hp1 hp2 ha
    exact Or.inr ⟨by simp, cs, ss, hne, hwf, htext, hss, hr⟩

theorem showSpec_ne (s : VSpec) (h : s ≠ .all) : showSpec s = ' ' :: s.show := by
  cases s <;> first | rfl | exact absurd rfl h

theorem clauses_first (cs : List Clause) (h : cs ≠ []) :
    ∃ k ks, joinText [',', ' '] (cs.map Clause.text) = k :: ks ∧ isSpace k = false ∧ k ≠ '[' ∧ k ≠ ';' := by
  have first : ∀ c : Clause, ∃ k ks, c.text = k :: ks ∧ isSpace k = false ∧ k ≠ '[' ∧ k ≠ ';' := by
    intro c; cases c <;> exact ⟨_, _, rfl, by decide, by decide, by decide⟩
  cases cs with
  | nil => exact absurd rfl h
  | cons c cs =>
    obtain ⟨k, ks, hk, h1⟩ := first c
    cases cs with
    | nil => exact ⟨k, ks, by simp [joinText, hk], h1⟩
    | cons c' cs' => exact ⟨k, _, by simp [joinText, hk]; rfl, h1⟩

/-- Reading the constraint (with the blanks in front of it). -/
theorem readOptSpec_text (env : UrlEnv) (s r : VSpec) (h : ReadsAs s r) (pv T : Text) (hT : End T) :
    (PS.ws ⟨pv, showSpec s ++ T⟩).peekIs (· == '[') = false ∧
    ∃ q, readOptSpec env (PS.ws ⟨pv, showSpec s ++ T⟩) = .ok (r, q) ∧ q.rest = T := by
  rcases h with ⟨rfl, rfl⟩ | ⟨hs, cs, ss, hne, hwf, htext, hss, hr⟩
  · rcases hT with rfl | ⟨u, rfl⟩
    · refine ⟨by simp [showSpec, ws, untilP, peekIs], ⟨pv, []⟩, ?_, rfl⟩
      simp [showSpec, ws, untilP, readOptSpec, peekIs, readSpecifier, lit, readClauses]
    · have hw : PS.ws ⟨pv, ';' :: u⟩ = ⟨pv, ';' :: u⟩ := ws_stop _ _ (by simp; decide)
      refine ⟨by simp [showSpec, hw, peekIs], ⟨pv, ';' :: u⟩, ?_, rfl⟩
      simp [showSpec, hw, readOptSpec, peekIs]
  · obtain ⟨k, ks, hk, hk1, hk2, hk3⟩ := clauses_first cs hne
    rw [showSpec_ne s hs, htext]
    have hw : PS.ws ⟨pv, ' ' :: joinText [',', ' '] (cs.map Clause.text) ++ T⟩ =
        ⟨' ' :: pv, joinText [',', ' '] (cs.map Clause.text) ++ T⟩ := by
      rw [hk]
      exact ws_blank [' '] pv (Or.inr rfl) k (ks ++ T) hk1
    obtain ⟨p, h1, h2⟩ := readSpecifier_clauses env cs ss r [] (' ' :: pv) T (Or.inl rfl) hne hwf hss hr hT
    rw [List.nil_append] at h1
    have hpw : p.ws = p := by
      rw [ps_eta p T h2]
      apply ws_stop
      rcases hT with rfl | ⟨u, rfl⟩ <;> simp; decide
    have hpk : ∀ x : Char, k ≠ x →
        peekIs (· == x) ⟨' ' :: pv, joinText [',', ' '] (cs.map Clause.text) ++ T⟩ = false := by
      intro x hx; rw [hk]; simp [peekIs, hx]
    refine ⟨by rw [hw]; exact hpk '[' hk2, p, ?_, h2⟩
    rw [hw]
    simp only [readOptSpec, hpk ';' hk3, h1, hpw]
    simp

/-- Reading the marker. -/
theorem readOptMarker_text (m : Option EnvMarker) (hm : ∀ x, m = some x → MarkerOk x) (p : PS)
    (hp : p.rest = showMarker m) :
    ∃ m', readOptMarker p = .ok m' ∧ m'.map (·.expr) = m.map (·.expr) ∧
      ∀ x x', m = some x → m' = some x' → ∀ c, x'.evaluate c = x.evaluate c := by
  cases m with
  | none =>
    refine ⟨Option.none, ?_, rfl, by simp⟩
    rw [ps_eta p _ hp]
    simp [readOptMarker, showMarker, litWs, lit]
  | some m =>
    obtain ⟨hlead, gs, hgs, htext, hval⟩ := hm m rfl
    obtain ⟨m', h1, h2, h3⟩ := marker_precedence gs hgs [] (Or.inl rfl)
    rw [List.append_nil] at h1
    have hl : PS.litWs [';'] p = some ([';'], ⟨';' :: p.prev, m.expr⟩) := by
      rw [ps_eta p _ hp]
      have : lit [';'] ⟨p.prev, showMarker (some m)⟩ = some ⟨';' :: p.prev, m.expr⟩ := by
        simp [showMarker, lit, List.isPrefixOf, adv]
      have hu := untilP_append (fun c => !(isSpace c && c != '\n')) (';' :: p.prev) [] m.expr (by simp)
        (by
          cases he : m.expr with
          | nil => simp
          | cons x xs =>
            rw [he] at hlead
            simp [NoLead] at hlead ⊢
            exact hlead)
      simp only [List.nil_append, List.reverse_nil] at hu
      simp only [litWs, this, hu]
      rfl
    refine ⟨some m', ?_, by simp [h2, htext], ?_⟩
    · have hne : ∃ x xs, m.expr = x :: xs := by
        cases he : m.expr with
        | cons x xs => exact ⟨x, xs, rfl⟩
        | nil =>
          rw [← htext, he] at h1
          simp [readMarker, readCompound, readChain, skipWs, atEnd, finish] at h1
      obtain ⟨x, xs, hx⟩ := hne
      simp only [readOptMarker, hl]
      rw [← htext, hx] at h1
      rw [hx]
      simp only [h1]
    · intro x x' hx hx' c
      simp at hx hx'
      subst hx hx'
      rw [h3, hval]

theorem nameOk_ident (n : Text) (h : normalizeName n = some n)
    (hf : ∃ c cs, n = c :: cs ∧ (isAlpha c = true ∨ c = '_')) : IdentOk n := by
  obtain ⟨c, cs, rfl, hc⟩ := hf
  refine ⟨c, cs, rfl, hc, ?_⟩
  have hcl : Clean false (c :: cs) := by
    simp only [normalizeName] at h
    split at h
    · simp at h
    · simp at h
      rw [← h]
      exact clean_strip _ (clean_subDash false _)
  have key : ∀ (b : Bool) (t : Text), Clean b t → ∀ d, d ∈ t → isIdent d = true := by
    intro b t
    induction t generalizing b with
    | nil => simp
    | cons x xs ih =>
      intro h d hd
      simp at hd
      rcases h with ⟨h1, h2⟩ | ⟨_, rfl, h3⟩
      · rcases hd with rfl | hd
        · simp [nameChar] at h1
          rcases h1 with (h1 | rfl) | rfl
          · simp [isIdent, h1]
          · decide
          · decide
        · exact ih _ h2 d hd
      · rcases hd with rfl | hd
        · decide
        · exact ih _ h3 d hd
  exact fun d hd => key false _ hcl d (by simp [hd])

/-- Reading a printed requirement. -/
theorem parse_show (env : UrlEnv) (d : Dep) (r : VSpec) (hn : normalizeName d.name = some d.name)
    (hf : ∃ c cs, d.name = c :: cs ∧ (isAlpha c = true ∨ c = '_'))
    (he : ∀ es, d.extras = some es → es ≠ [] ∧ ∀ e, e ∈ es → IdentOk e)
    (hs : ReadsAs d.spec r) (hm : ∀ m, d.marker = some m → MarkerOk m) :
    ∃ m', parseDep env d.show = .ok ⟨d.name, r, d.extras, m'⟩ ∧
      m'.map (·.expr) = d.marker.map (·.expr) ∧
      ∀ x x', d.marker = some x → m' = some x' → ∀ c, x'.evaluate c = x.evaluate c := by
  have hid := nameOk_ident d.name hn hf
  obtain ⟨n, s, ex, mk⟩ := d
  simp only at hn hid he hs hm ⊢
  have hend := end_marker mk
  have spaceOrEnd : StartsNot isIdent (showSpec s ++ showMarker mk) := by
    by_cases h : s = .all
    · subst h
      rcases hend with h | ⟨u, h⟩ <;> rw [h] <;> simp [showSpec]; decide
    · rw [showSpec_ne s h]; simp; decide
  have hw0 : PS.ws (PS.ofText (Dep.show ⟨n, s, ex, mk⟩)) = ⟨[], Dep.show ⟨n, s, ex, mk⟩⟩ :=
    ws_stop _ _ (ident_startsNot_space n _ hid)
  cases ex with
  | none =>
    have h1 := readIdent_text n hid [] (showSpec s ++ showMarker mk) spaceOrEnd
    obtain ⟨hp, q, h2, h3⟩ := readOptSpec_text env s r hs (n.reverse ++ []) (showMarker mk) hend
    obtain ⟨m', h4, h5, h6⟩ := readOptMarker_text mk hm q h3
    refine ⟨m', ?_, h5, h6⟩
    simp only [parseDep, readDependency, hw0]
    simp only [Dep.show, showExtras, List.nil_append, h1, hn]
    simp only [readOptExtras, hp]
    simp only [Bool.false_eq_true, if_false, h2, h4]
  | some es =>
    obtain ⟨hne, hes⟩ := he es rfl
    have hx : showExtras (some es) = '[' :: (joinText [','] es ++ [']']) := by
      cases es with
      | nil => exact absurd rfl hne
      | cons e es => rfl
    have h1 := readIdent_text n hid [] (showExtras (some es) ++ (showSpec s ++ showMarker mk))
      (by rw [hx]; simp; decide)
    have hw1 : PS.ws ⟨n.reverse ++ [], showExtras (some es) ++ (showSpec s ++ showMarker mk)⟩ =
        ⟨n.reverse ++ [], '[' :: (joinText [','] es ++ (']' :: (showSpec s ++ showMarker mk)))⟩ := by
      rw [hx, ws_stop _ _ (by simp; decide)]
      simp
    obtain ⟨q0, g1, g2⟩ := readExtras_text es hne hes (n.reverse ++ []) (showSpec s ++ showMarker mk)
    obtain ⟨hp, q, h2, h3⟩ := readOptSpec_text env s r hs q0.prev (showMarker mk) hend
    rw [← ps_eta q0 _ g2] at h2
    obtain ⟨m', h4, h5, h6⟩ := readOptMarker_text mk hm q h3
    refine ⟨m', ?_, h5, h6⟩
    simp only [parseDep, readDependency, hw0]
    simp only [Dep.show, h1, hn, hw1]
    have hpk : peekIs (· == '[') ⟨n.reverse ++ [], '[' :: (joinText [','] es ++
        (']' :: (showSpec s ++ showMarker mk)))⟩ = true := by simp [peekIs]
    simp only [readOptExtras, hpk, if_true, g1, h2, h4]

end Pkm.Reqs
