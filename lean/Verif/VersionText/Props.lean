import Verif.VersionText.ClauseSets
set_option linter.unusedVariables false
set_option linter.unusedSimpArgs false
/-
Properties C05 (version text), C11 (comma), C12 (clause meanings) and C13 (specifier text).
`env` are the URL functions of the Python library, about which nothing is assumed.
-/
namespace Pkm
open PS Spec VSpec

/-- The version `r` (release only). -/
private abbrev V (r : List Nat) : SV := { release := r }

/-! ## C05 -/

/-- C05: `Version.parse(str(v)) == v`, field by field. -/
theorem version_text_round_trip (env : UrlEnv) (v : SV) (h : Printable v) :
    parseVersion env v.show = .std v := by
  have hch := show_chars v h
  have hl : lower v.show = v.show := lower_id _ (fun c hc => showChar_not_upper c (hch c hc))
  obtain ⟨p, h1, _⟩ := readVersion_show v h [] [] (Or.inl rfl)
  rw [List.append_nil] at h1
  have hu : contains [':', '/', '/'] v.show = false :=
    contains_false _ _ _ (fun c hc e => by subst e; exact absurd (hch _ hc) (by decide))
  simp only [parseVersion, hl, hu, PS.ofText]
  rw [h1]
  simp

/-- C05: whatever text a standard version was parsed from, its printed form parses to it again. -/
theorem version_text_normalises (env : UrlEnv) (t : Text) (v : SV)
    (h : parseVersion env t = .std v) : parseVersion env v.show = .std v := by
  apply version_text_round_trip
  simp only [parseVersion] at h
  split at h
  · split at h
    · rename_i hv
      subst h
      unfold parseUrlVersion at hv
      dsimp only at hv
      split at hv <;> simp at hv
    · simp at h
  · split at h
    · rename_i v' q hv
      simp at h; subst h
      exact readVersion_printable _ q v' (fun c hc => lower_not_upper t c hc) hv
    · simp at h

/-- C05: different versions have different texts. -/
theorem version_text_injective (v w : SV) (hv : Printable v) (hw : Printable w)
    (h : v.show = w.show) : v = w := by
  have e : UrlEnv := ⟨fun _ => Option.none, fun t => t⟩
  have h1 := version_text_round_trip e v hv
  rw [h, version_text_round_trip e w hw] at h1
  simpa using h1.symm

/-- Outside of the normal form the text is not faithful: a pre-release tag is renamed. -/
theorem version_text_other_tag (env : UrlEnv) :
    parseVersion env ({ release := [1], pre := some (['c'], 1) } : SV).show =
      .std { release := [1], pre := some (['r', 'c'], 1) } := by rfl

/-- The hypothesis of `version_text_round_trip` is met by `1!2.3rc1.post2.dev3+ab.1`. -/
example : Printable (SV.mk [2, 3] (some 1) (some (['r', 'c'], 1)) (some 2) (some 3)
    (some ['a', 'b', '.', '1'])) :=
  ⟨by simp, by simp, by simp; decide⟩

/-! ## C12 -/

/-- C12: every well-formed clause parses, and allows exactly the final releases of its PEP 440
reading. -/
theorem clause_meaning_final_partial (env : UrlEnv) (c : Clause) (hc : c.Wf) :
    ∃ s, parseSpecifier env c.text = .ok s ∧
      ∀ w, Final w → (s.allows (.std w) = true ↔ c.Means w) := by
  obtain ⟨s, hs, _, _, hm⟩ := clauseSpec_means c hc
  exact ⟨s, parseSpecifier_clauses env [c] [s] s (by simp) (by simpa using hc) (by simp [hs])
    (by simp [interClauses, inter_all_left, bind, Except.bind]), hm⟩

/-- C12: comparison clauses and `==v`, `!=v` are exact for pre- and dev-releases as well. -/
theorem clause_meaning_candidate_partial (env : UrlEnv) (c : Clause) (hc : c.Wf)
    (hk : ∀ v, c ≠ .eqStar v ∧ c ≠ .neStar v ∧ c ≠ .tilde v) :
    ∃ s, parseSpecifier env c.text = .ok s ∧
      ∀ w, Candidate w → (s.allows (.std w) = true ↔ c.Means w) := by
  obtain ⟨s, hs, hm⟩ := clauseSpec_candidate c hc hk
  exact ⟨s, parseSpecifier_clauses env [c] [s] s (by simp) (by simpa using hc) (by simp [hs])
    (by simp [interClauses, inter_all_left, bind, Except.bind]), hm⟩

/-- The hypotheses are met: `~=1.4.2`. -/
example : (Clause.tilde (V [1, 4, 2])).Wf :=
  ⟨⟨by simp [Clause.version], by simp [Clause.version], by simp [Clause.version]⟩,
    ⟨by simp [Clause.version], by simp [Clause.version], by simp [Clause.version]⟩, by simp⟩

/-- C12 fails for post releases: `>=1.0` rejects `1.0.post1`, which is later than `1.0`. -/
theorem clause_post_violated (env : UrlEnv) :
    ∃ s, parseSpecifier env ">=1.0".toList = .ok s ∧
      (V [1, 0]).lt { release := [1, 0], post := some 1 } = true ∧
      s.allows (.std { release := [1, 0], post := some 1 }) = false := by
  exact ⟨.range (some (V [1, 0])) Option.none true false, by rfl, by decide, by decide⟩

/-- C12 fails for pre-releases: `<2.0` allows `2.0a1` and `==1.*` allows `2.dev0`. -/
theorem clause_pre_violated (env : UrlEnv) :
    (∃ s, parseSpecifier env "<2.0".toList = .ok s ∧
      s.allows (.std { release := [2, 0], pre := some (['a'], 1) }) = true) ∧
    (∃ s, parseSpecifier env "==1.*".toList = .ok s ∧
      s.allows (.std { release := [2], dev := some 0 }) = true) := by
  exact ⟨⟨.range Option.none (some (V [2, 0])) false false, by rfl, by decide⟩,
    ⟨.range (some (V [1])) (some (V [2])) true false, by rfl, by decide⟩⟩

/-! ## C11 -/

/-- C11: a comma separated list of clauses, any number in any order, is the conjunction of the
clauses; proved when `!=v` and `!=X.*` do not both occur. -/
theorem comma_is_conjunction_partial (env : UrlEnv) (cs : List Clause) (hne : cs ≠ [])
    (hwf : ∀ c, c ∈ cs → c.Wf)
    (hmix : (∀ c, c ∈ cs → c.isNeStar = false) ∨ (∀ c, c ∈ cs → c.isNe = false)) :
    ∃ r, parseSpecifier env (joinText [',', ' '] (cs.map Clause.text)) = .ok r ∧
      ∀ w, Final w → (r.allows (.std w) = true ↔ ∀ c, c ∈ cs → c.Means w) := by
  obtain ⟨ss, h1, h2, h3, h4⟩ := clauseSpecs_means cs hwf
  have key : ∃ r, interClauses .all ss = .ok r ∧ ∀ w, Candidate w →
      (r.allows (.std w) = true ↔ ∀ c, c ∈ ss → c.allows (.std w) = true) := by
    rcases hmix with h | h
    · obtain ⟨r, hr, _, he⟩ := clauses_conj_partial ss (h2 h)
      exact ⟨r, hr, he⟩
    · obtain ⟨r, hr, _, he⟩ := clauses_region_partial ss (h3 h)
      exact ⟨r, hr, he⟩
  obtain ⟨r, hr, he⟩ := key
  exact ⟨r, parseSpecifier_clauses env cs ss r hne hwf h1 hr, fun w hw => by
    rw [he w hw.1]; exact h4 w hw⟩

/-- The hypotheses are met by `>=1.2, !=1.5, ~=1.0`. -/
example : ∀ c, c ∈ [Clause.ge (V [1, 2]), .ne (V [1, 5]), .tilde (V [1, 0])] →
    c.Wf ∧ c.isNeStar = false := by
  intro c hc
  simp at hc
  rcases hc with rfl | rfl | rfl
  all_goals exact ⟨⟨⟨by simp [Clause.version], by simp [Clause.version], by simp [Clause.version]⟩,
    ⟨by simp [Clause.version], by simp [Clause.version], by simp [Clause.version]⟩, by simp⟩, rfl⟩

/-- C11 fails when both kinds occur: `!=1.*, !=0.5, !=3.5, !=2.*` allows `0.5`. -/
theorem comma_violated (env : UrlEnv) :
    ∃ r, parseSpecifier env "!=1.*, !=0.5, !=3.5, !=2.*".toList = .ok r ∧
      r.allows (.std (V [0, 5])) = true :=
  ⟨.union [.range Option.none (some (V [1])) false false, .range (some (V [3])) Option.none true false],
    by rfl, by decide⟩

/-! ## C13 -/

/-- C13: `*`. -/
theorem specifier_text_all (env : UrlEnv) : parseSpecifier env (VSpec.all).show = .ok .all := by rfl

/-- C13: a (non-)match of a standard version. -/
theorem specifier_text_match (env : UrlEnv) (v : SV) (a : Bool) (hp : Printable v) (hpl : Plain v) :
    parseSpecifier env (VSpec.vmatch (.std v) a).show = .ok (.vmatch (.std v) a) := by
  cases a with
  | true =>
    have := parseSpecifier_clauses env [.eq v] [.vmatch (.std v) true] (.vmatch (.std v) true)
      (by simp) (by simpa [Clause.Wf, Clause.version] using ⟨hp, hpl⟩) rfl
      (by simp [interClauses, inter_all_left, bind, Except.bind])
    simpa [joinText, VSpec.show, showMatch, Clause.text] using this
  | false =>
    have := parseSpecifier_clauses env [.ne v] [.vmatch (.std v) false] (.vmatch (.std v) false)
      (by simp) (by simpa [Clause.Wf, Clause.version] using ⟨hp, hpl⟩) rfl
      (by simp [interClauses, inter_all_left, bind, Except.bind])
    simpa [joinText, VSpec.show, showMatch, Clause.text] using this

/-- C13: a range, unless it is one of those whose text is ambiguous. -/
theorem specifier_text_range_partial (env : UrlEnv) (min max : Option SV) (imin imax : Bool)
    (hok : RangeOk min max imin imax) (hp1 : ∀ m, min = some m → Printable m)
    (hp2 : ∀ m, max = some m → Printable m) (ha : ¬ TildeAmbiguous min max) :
    parseSpecifier env (VSpec.range min max imin imax).show = .ok (.range min max imin imax) := by
  obtain ⟨cs, ss, hne, hwf, htext, hss, _, hr⟩ := range_clauses min max imin imax hok hp1 hp2 ha
  rw [htext]
  exact parseSpecifier_clauses env cs ss _ hne hwf hss hr

/-- The hypotheses are met by `>=1.2, <2.1` and `~=1.2`. -/
example : RangeOk (some (V [1, 2])) (some (V [2, 1])) true false ∧
    ¬ TildeAmbiguous (some (V [1, 2])) (some (V [2, 1])) ∧
    ¬ TildeAmbiguous (some (V [1, 2])) (some (V [2, 0])) := by
  refine ⟨⟨by simp [Plain], by simp [Plain], by simp, by simp, by simp, ?_⟩, ?_, ?_⟩
  · intro a b h1 h2; simp at h1 h2; subst h1 h2; decide
  · rintro ⟨m, M, h1, h2, _, h3, _⟩; simp at h1 h2; subst h1 h2; simp [incPenult] at h3
  · rintro ⟨m, M, h1, h2, _, _, h4⟩; simp at h1 h2; subst h1 h2; simp [incPenult] at h4

/-- The clauses that a block minus a list of standard versions is printed as, and their conjunction. -/
theorem minus_clauses (vs : List SV) (b : VSpec) (hvs : vs ≠ [])
    (hp : ∀ v, v ∈ vs → Printable v ∧ Plain v) (hb : Block b)
    (hbp : ∀ m, (blockMin b).1 = some m ∨ (blockMax b).1 = some m → Printable m)
    (ha : ¬ TildeAmbiguous (blockMin b).1 (blockMax b).1) :
    ∃ cs ss r, cs ≠ [] ∧ (∀ c, c ∈ cs → c.Wf) ∧
      (VSpec.hetro (vs.map .std) b).show = joinText [',', ' '] (cs.map Clause.text) ∧
      cs.map clauseSpec = ss.map .ok ∧ interClauses .all ss = .ok r ∧ ∀ w, Candidate w →
      (r.allows (.std w) = true ↔ (VSpec.hetro (vs.map .std) b).allows (.std w) = true) := by
  obtain ⟨cs, ss, hcs, hwf, htext, hss, hconj, hb'⟩ := block_clauses b hb hbp ha
  have hmeans : ∀ w, Candidate w → (b.allows (.std w) = true ↔ ∀ c, c ∈ ss → c.allows (.std w) = true) := by
    intro w hw
    obtain ⟨r, hr, _, he⟩ := clauses_conj_partial ss hconj
    rw [hb'] at hr
    simp at hr
    subst hr
    exact he w hw
  have hwf' : ∀ c, c ∈ vs.map Clause.ne ++ cs → c.Wf := by
    intro c hc
    simp only [List.mem_append, List.mem_map] at hc
    rcases hc with ⟨v, hv, rfl⟩ | hc
    · exact ⟨(hp v hv).1, (hp v hv).2, trivial⟩
    · exact hwf c hc
  have hss' : (vs.map Clause.ne ++ cs).map clauseSpec =
      (vs.map (fun v => VSpec.vmatch (.std v) false) ++ ss).map .ok := by
    simp only [List.map_append, hss, List.map_map]
    rfl
  obtain ⟨r, hr, _, hex⟩ := clauses_conj_partial (vs.map (fun v => VSpec.vmatch (.std v) false) ++ ss)
    (by
      intro c hc
      simp only [List.mem_append, List.mem_map] at hc
      rcases hc with ⟨v, hv, rfl⟩ | hc
      · exact .vmatch _ _ (fun s hs => by simp at hs; subst hs; exact (hp v hv).2)
      · exact hconj c hc)
  refine ⟨_, _, r, by intro h; exact hvs (by simp at h; exact h.1), hwf',
    hetro_text vs b cs hvs hcs htext, hss', hr, fun w hw => ?_⟩
  rw [hex w hw]
  rw [hetro_allows_iff vs b w (fun v hv => (hp v hv).2) hw.1, hmeans w hw]
  simp only [List.mem_append, List.mem_map]
  constructor
  · intro h
    refine ⟨?_, fun c hc => h c (Or.inr hc)⟩
    intro v hv
    have := h (.vmatch (.std v) false) (Or.inl ⟨v, hv, rfl⟩)
    simp only [allows] at this
    rw [matchAllows_std v w false (hp v hv).2 hw.1] at this
    simpa using this
  · rintro ⟨h1, h2⟩ c (⟨v, hv, rfl⟩ | hc)
    · simp only [allows]
      rw [matchAllows_std v w false (hp v hv).2 hw.1]
      simpa using h1 v hv
    · exact h2 c hc

/-- C13: a block minus a list of standard versions reads back as a specifier allowing the same
versions. -/
theorem specifier_text_minus_partial (env : UrlEnv) (vs : List SV) (b : VSpec) (hvs : vs ≠ [])
    (hp : ∀ v, v ∈ vs → Printable v ∧ Plain v) (hb : Block b)
    (hbp : ∀ m, (blockMin b).1 = some m ∨ (blockMax b).1 = some m → Printable m)
    (ha : ¬ TildeAmbiguous (blockMin b).1 (blockMax b).1) :
    ∃ r, parseSpecifier env (VSpec.hetro (vs.map .std) b).show = .ok r ∧ ∀ w, Candidate w →
      (r.allows (.std w) = true ↔ (VSpec.hetro (vs.map .std) b).allows (.std w) = true) := by
  obtain ⟨cs, ss, r, hne, hwf, htext, hss, hr, hm⟩ := minus_clauses vs b hvs hp hb hbp ha
  exact ⟨r, by rw [htext]; exact parseSpecifier_clauses env cs ss r hne hwf hss hr, hm⟩

/-- C13 fails for an ambiguous `~=`: `>=1.2, <2.0a1` prints `~=1.2` and reads back as a specifier
that allows `2.0a1`. -/
theorem specifier_text_violated_tilde (env : UrlEnv) :
    ∃ r, parseSpecifier env (VSpec.range (some (V [1, 2]))
        (some { release := [2, 0], pre := some (['a'], 1) }) true false).show = .ok r ∧
      r.allows (.std { release := [2, 0], pre := some (['a'], 1) }) = true ∧
      (VSpec.range (some (V [1, 2])) (some { release := [2, 0], pre := some (['a'], 1) }) true
        false).allows (.std { release := [2, 0], pre := some (['a'], 1) }) = false :=
  ⟨.range (some (V [1, 2])) (some (V [2, 0])) true false, by rfl, by decide, by decide⟩

/-- C13 fails for the specifier of `!=1.*`: it prints `<1; >=2`, which reads back as `<1`. -/
theorem specifier_text_violated_union (env : UrlEnv) :
    ∃ s r, parseSpecifier env "!=1.*".toList = .ok s ∧ parseSpecifier env s.show = .ok r ∧
      s.allows (.std (V [2])) = true ∧ r.allows (.std (V [2])) = false :=
  ⟨.union [.range Option.none (some (V [1])) false false, .range (some (V [2])) Option.none true false],
    .range Option.none (some (V [1])) false false, by rfl, by rfl, by decide, by decide⟩

/-- C13 fails for the empty specifier and for the exclusion of a named version, whose texts do not
parse. -/
theorem specifier_text_violated_none (env : UrlEnv) :
    parseSpecifier env (VSpec.none).show = .error .value ∧
    parseSpecifier env (VSpec.vmatch (.named ['m', 'a', 'i', 'n']) false).show = .error .value := by
  exact ⟨by rfl, by rfl⟩

/-- C13 fails for a local label ending in a dot: the clause after it is lost. -/
theorem specifier_text_violated_label (env : UrlEnv) :
    parseSpecifier env (VSpec.range (some { release := [1], loc := some ['a', '.'] })
      (some (V [2])) true false).show =
      .ok (.range (some { release := [1], loc := some ['a', '.'] }) Option.none true false) := by rfl

end Pkm
