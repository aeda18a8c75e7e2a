import Verif.Conda.OfferProps
import Verif.VersionText.Props
import Verif.Http.UrlProps
set_option linter.unusedVariables false
set_option linter.unusedSimpArgs false
/-
C89: how the dependencies of conda packages are read, and which Python they are for.
-/
namespace Pkm
open Tags Conda Spec

namespace Spec

/-- The pattern of a build: `*` stands for any text. -/
inductive BuildGlob : Text → Text → Prop
  | done : BuildGlob [] []
  | char {c : Char} {b t : Text} : c ≠ '*' → BuildGlob b t → BuildGlob (c :: b) (c :: t)
  | star {b t u : Text} : BuildGlob b t → BuildGlob ('*' :: b) (u ++ t)

/-- The text of alternatives. -/
def alternatives : List Text → Text
  | [] => []
  | [t] => t
  | t :: ts => t ++ '|' :: alternatives ts

end Spec

namespace Conda

/-! ### builds -/

theorem skips_mem : ∀ (t s : Text), '\n' ∉ t → (s ∈ skips t ↔ ∃ u, t = u ++ s)
  | [], s, _ => by simp [skips]
  | c :: t, s, h => by
    simp only [List.mem_cons, not_or] at h
    have hc : c ≠ '\n' := fun e => h.1 e.symm
    simp only [skips, if_neg hc, List.mem_cons]
    rw [skips_mem t s h.2]
    constructor
    · rintro (e | ⟨u, e⟩)
      · exact ⟨[], by rw [e]; rfl⟩
      · exact ⟨c :: u, by rw [e]; rfl⟩
    · rintro ⟨u, e⟩
      cases u with
      | nil => left; exact e.symm
      | cons x u =>
        right
        simp only [List.cons_append, List.cons.injEq] at e
        exact ⟨u, e.2⟩

theorem buildMatches_iff : ∀ (b t : Text), '\n' ∉ t → (buildMatches b t = true ↔ ∃ p s, t = p ++ s ∧ BuildGlob b p)
  | [], t, _ => by
    simp only [buildMatches, true_iff]
    exact ⟨[], t, rfl, .done⟩
  | c :: b, t, h => by
    simp only [buildMatches]
    by_cases hc : c = '*'
    · subst hc
      simp only [if_true, List.any_eq_true]
      constructor
      · rintro ⟨x, hx, hb⟩
        obtain ⟨u, e⟩ := (skips_mem t x h).mp hx
        have hx' : '\n' ∉ x := fun hm => h (by rw [e]; exact List.mem_append_right _ hm)
        obtain ⟨p, s, e2, hg⟩ := (buildMatches_iff b x hx').mp hb
        exact ⟨u ++ p, s, by rw [e, e2, List.append_assoc], .star hg⟩
      · rintro ⟨p, s, e, hg⟩
        cases hg with
        | char hne _ => exact absurd rfl hne
        | @star _ q u hg =>
          refine ⟨q ++ s, (skips_mem t _ h).mpr ⟨u, by rw [e, List.append_assoc]⟩, ?_⟩
          have hx' : '\n' ∉ q ++ s := fun hm => h (by
            rw [e, List.append_assoc]; exact List.mem_append_right _ hm)
          exact (buildMatches_iff b _ hx').mpr ⟨q, s, rfl, hg⟩
    · simp only [if_neg hc]
      cases t with
      | nil =>
        simp only [Bool.false_eq_true, false_iff]
        rintro ⟨p, s, e, hg⟩
        have hp : p = [] := by
          cases p with
          | nil => rfl
          | cons => simp at e
        subst hp
        generalize hq : ([] : Text) = q at hg
        cases hg with
        | char _ _ => cases hq
        | star _ => exact hc rfl
      | cons d t =>
        simp only [List.mem_cons, not_or] at h
        simp only [Bool.and_eq_true, decide_eq_true_eq]
        rw [buildMatches_iff b t h.2]
        constructor
        · rintro ⟨rfl, p, s, e, hg⟩
          exact ⟨c :: p, s, by rw [e]; rfl, .char hc hg⟩
        · rintro ⟨p, s, e, hg⟩
          cases hg with
          | @char _ _ q hne hg =>
            simp only [List.cons_append, List.cons.injEq] at e
            exact ⟨e.1.symm, q, s, e.2, hg⟩
          | star _ => exact absurd rfl hc

theorem glob_star_end : ∀ (b t s : Text), BuildGlob (b ++ ['*']) t → BuildGlob (b ++ ['*']) (t ++ s)
  | [], t, s, h => by
    cases h with
    | char hne _ => exact absurd rfl hne
    | @star _ q u hg =>
      cases hg
      rw [List.append_nil]
      have := BuildGlob.star (u := u ++ s) BuildGlob.done
      simpa using this
  | c :: b, t, s, h => by
    cases h with
    | @char _ _ q hne hg => exact .char hne (glob_star_end b q s hg)
    | @star _ q u hg =>
      rw [List.append_assoc]
      exact .star (glob_star_end b q s hg)

end Conda

/-- C89. Every build that fits the pattern of a dependency is taken; if the pattern ends with `*`, exactly those are.
(Partial: otherwise builds that only begin like the pattern are taken too, see `conda_build_violated`.) -/
theorem conda_build_partial (b t : Text) (hn : '\n' ∉ t) :
    (BuildGlob b t → buildMatches b t = true) ∧
    (∀ c, b = c ++ ['*'] → (buildMatches b t = true ↔ BuildGlob b t)) := by
  constructor
  · intro h; exact (buildMatches_iff b t hn).mpr ⟨t, [], by simp, h⟩
  · rintro c rfl
    constructor
    · intro h
      obtain ⟨p, s, e, hg⟩ := (buildMatches_iff _ t hn).mp h
      rw [e]; exact glob_star_end c p s hg
    · intro h; exact (buildMatches_iff _ t hn).mpr ⟨t, [], by simp, h⟩

example : buildMatches t!"py37h*_0" t!"py37h1ab_0" = true ∧ buildMatches t!"py37*" t!"py36_0" = false := by decide

/-- The claim "a dependency on a build is satisfied by this build only" fails: the tenth build is taken for the first. -/
theorem conda_build_violated : buildMatches t!"py37_1" t!"py37_10" = true ∧ ¬ BuildGlob t!"py37_1" t!"py37_10" := by
  refine ⟨by decide, ?_⟩
  intro h
  repeat (cases h with | char _ h => ?_)
  cases h

/-! ### reading dependencies -/

namespace Conda

theorem split_alternatives : ∀ (ts : List Text), ts ≠ [] → (∀ t ∈ ts, '|' ∉ t) → splitOn '|' (alternatives ts) = ts
  | [], h, _ => absurd rfl h
  | [t], _, h => Tags.splitOn_one _ _ (h t (by simp))
  | t :: u :: ts, _, h => by
    simp only [alternatives]
    rw [Tags.splitOn_step _ _ _ (h t (by simp)),
      split_alternatives (u :: ts) (by simp) (fun x hx => h x (List.mem_cons_of_mem _ hx))]

theorem alternatives_blank : ∀ (ts : List Text), (∀ t ∈ ts, ' ' ∉ t) → ' ' ∉ alternatives ts
  | [], _ => by simp [alternatives]
  | [t], h => h t (by simp)
  | t :: u :: ts, h => by
    simp only [alternatives, List.mem_append, List.mem_cons, not_or]
    exact ⟨h t (by simp), by decide, alternatives_blank (u :: ts) (fun x hx => h x (List.mem_cons_of_mem _ hx))⟩

theorem parseSpecs_ok (env : UrlEnv) : ∀ (ts : List Text) (ss : List VSpec), List.Forall₂ (fun t s => parseSpec env t = .ok s) ts ss →
    parseSpecs env ts = .ok ss
  | [], _, h => by cases h; rfl
  | t :: ts, _, h => by
    cases h with
    | cons h1 h2 => simp only [parseSpecs, h1, parseSpecs_ok env ts _ h2]

theorem allowsAnySeg_iff (v : Ver) : ∀ (ss : List VSpec), VSpec.allowsAnySeg ss v = true ↔ ∃ s ∈ ss, s.allows v = true
  | [] => by simp [VSpec.allowsAnySeg]
  | s :: ss => by simp [VSpec.allowsAnySeg, allowsAnySeg_iff v ss]

end Conda

/-- C89. A dependency that is only a name is on every version of that package. -/
theorem conda_dependency_any (env : UrlEnv) (sd : Subdir) (n : Text) (h : ' ' ∉ n) :
    ∃ s, parseDep env sd n = .ok ⟨n, s⟩ ∧ ∀ v, s.allows v = true :=
  ⟨.all, by simp only [parseDep, Tags.splitOn_one _ _ h], fun v => by simp [VSpec.allows]⟩

/-- C89. A dependency `name a|b|..` is on the package of this name in the versions that one of the alternatives allows.
(Partial: of several alternatives none may be `*`, see `conda_any_alternative_violated`.) -/
theorem conda_dependency_alternatives_partial (env : UrlEnv) (sd : Subdir) (n : Text) (ts : List Text) (ss : List VSpec)
    (hn : ' ' ∉ n) (hne : ts ≠ []) (ht : ∀ t ∈ ts, ' ' ∉ t ∧ '|' ∉ t)
    (hs : List.Forall₂ (fun t s => parseSpec env t = .ok s) ts ss)
    (hp : ss.length = 1 ∨ ∀ s ∈ ss, s.isProper = true) :
    ∃ s, parseDep env sd (n ++ ' ' :: alternatives ts) = .ok ⟨n, s⟩ ∧
      ∀ v, s.allows v = true ↔ ∃ a ∈ ss, a.allows v = true := by
  have e1 : splitOn ' ' (n ++ ' ' :: alternatives ts) = [n, alternatives ts] := by
    rw [Tags.splitOn_step _ _ _ hn, Tags.splitOn_one _ _ (alternatives_blank ts (fun t h => (ht t h).1))]
  have e2 := split_alternatives ts hne (fun t h => (ht t h).2)
  have e3 := parseSpecs_ok env ts ss hs
  have hl : ss.length ≠ 0 := by
    cases hs with
    | nil => exact absurd rfl hne
    | cons _ _ => simp
  match ss, hl, hp, e3 with
  | [s], _, _, e3 => exact ⟨s, by simp only [parseDep, e1, e2, e3], fun v => by simp⟩
  | a :: b :: ss, _, hp, e3 =>
    have hp : ∀ s ∈ a :: b :: ss, s.isProper = true := by
      rcases hp with h | h
      · simp at h
      · exact h
    have hu : VSpec.mkUnion (a :: b :: ss) = .ok (.union (sortBy (fun x y => !VSpec.lt y x) (a :: b :: ss))) := by
      unfold VSpec.mkUnion
      rw [if_pos]
      simp only [List.length_cons, Bool.and_eq_true, decide_eq_true_eq, List.all_eq_true]
      exact ⟨by omega, hp⟩
    refine ⟨_, by simp only [parseDep, e1, e2, e3, union, hu]; rfl, ?_⟩
    intro v
    simp only [VSpec.allows]
    rw [allowsAnySeg_iff]
    constructor
    · rintro ⟨x, hx, h⟩; exact ⟨x, (sortBy_perm _ _).mem_iff.mp hx, h⟩
    · rintro ⟨x, hx, h⟩; exact ⟨x, (sortBy_perm _ _).mem_iff.mpr hx, h⟩

/-- The claim "a dependency with `*` among its alternatives allows everything" fails: it cannot be read. -/
theorem conda_any_alternative_violated (env : UrlEnv) (sd : Subdir) :
    parseDep env sd t!"a *|==1" = .error .assertion := rfl

namespace Conda

theorem show_start (v : SV) (hp : Printable v) (t : Text) :
    ∃ c cs, v.show ++ t = c :: cs ∧ (t!"><=!~").contains c = false ∧ c ≠ '*' := by
  obtain ⟨c, cs, e, hc⟩ := show_first v hp t
  refine ⟨c, cs, e, ?_, by rintro rfl; exact absurd hc (by decide)⟩
  cases h : (t!"><=!~").contains c with
  | false => rfl
  | true =>
    simp only [List.contains_iff_mem, List.mem_cons, List.not_mem_nil, or_false] at h
    rcases h with rfl | rfl | rfl | rfl | rfl <;> exact absurd hc (by decide)

theorem show_no_star (v : SV) (hp : Printable v) : '*' ∉ v.show :=
  fun h => absurd (show_chars v hp _ h) (by decide)

theorem showRelease_snoc : ∀ (r : List Nat), r ≠ [] → showRelease (r ++ [0]) = showRelease r ++ t!".0"
  | [], h => absurd rfl h
  | [n], _ => rfl
  | n :: m :: ns, _ => by
    have := showRelease_snoc (m :: ns) (by simp)
    simp only [List.cons_append] at this ⊢
    simp only [showRelease, this, List.append_assoc, List.cons_append]

theorem relAt_snoc (r : List Nat) (i : Nat) : relAt (r ++ [0]) i = relAt r i := by
  unfold relAt
  by_cases h : i < r.length
  · simp [List.getD, List.getElem?_append_left h]
  · have : r.length ≤ i := by omega
    simp only [List.getD, List.getElem?_append_right this, List.getElem?_eq_none this]
    cases i - r.length <;> simp

/-- The version with one more component. -/
def longer (v : SV) : SV := { v with release := v.release ++ [0] }

theorem longer_final {v : SV} (h : Final v) : Final (longer v) :=
  ⟨⟨⟨by simp [longer], h.1.1.2.1, h.1.1.2.2⟩, h.1.2⟩, h.2⟩

theorem longer_show {v : SV} (h : Final v) : (longer v).show = v.show ++ t!".0" := by
  simp only [longer, SV.show, h.2.1, h.1.2, h.2.2, h.1.1.2.2, showPre, showPost, showDev, showLoc, List.append_nil,
    showRelease_snoc _ h.1.1.1, List.append_assoc]

theorem final_printable {v : SV} (h : Final v) : Printable v :=
  ⟨h.1.1.1, by rw [h.2.1]; simp, by rw [h.1.1.2.2]; simp⟩

end Conda

/-- C89. A bare version stands for itself. -/
theorem conda_version_exact (env : UrlEnv) (v : SV) (hp : Printable v) :
    ∃ s, parseSpec env v.show = .ok s ∧ ∀ w : SV, w.loc = none → (s.allows (.std w) = true ↔ v.eqv w = true) := by
  refine ⟨.vmatch (.std v) true, ?_, ?_⟩
  · obtain ⟨c, t, e, hc, hc'⟩ := show_start v hp []
    rw [List.append_nil] at e
    have hv := version_text_round_trip env v hp
    have hs := show_no_star v hp
    rw [e] at hv hs ⊢
    simp only [parseSpec]
    rw [if_neg (by simp only [hc]; decide), if_neg (by rintro h; exact hc' (by cases h; rfl)), if_neg, hv]
    rw [List.isSuffixOf_iff_suffix]
    exact fun h => hs (h.subset (by simp))
  · intro w hw
    simp [VSpec.allows, VSpec.matchAllows, Ver.withoutLocal, SV.withoutLocal, SV.isLocal, hw, Ver.eqv]

/-- C89. `X.*` is the releases that begin with `X`. -/
theorem conda_version_star (env : UrlEnv) (v : SV) (hv : Final v) :
    ∃ s, parseSpec env (v.show ++ t!".*") = .ok s ∧
      ∀ w, Final w → (s.allows (.std w) = true ↔ SamePrefix v.release.length v w) := by
  have hl := longer_final hv
  have hwf : (Clause.tilde (longer v)).Wf :=
    ⟨final_printable hl, hl.1.1, by
      have := List.length_pos_iff.mpr hv.1.1.1
      simp [longer]; omega⟩
  obtain ⟨s, h1, h2⟩ := clause_meaning_final_partial env _ hwf
  refine ⟨s, ?_, ?_⟩
  · obtain ⟨c, t, e, hc, hc'⟩ := show_start v (final_printable hv) t!".*"
    have hd : (v.show ++ t!".*").take ((v.show ++ t!".*").length - 2) = v.show := by simp
    have hsuf : t!".*".isSuffixOf (v.show ++ t!".*") = true := by
      rw [List.isSuffixOf_iff_suffix]; exact List.suffix_append _ _
    rw [e] at hd hsuf ⊢
    simp only [parseSpec]
    rw [if_neg (by simp only [hc]; decide), if_neg (by rintro h; exact hc' (by cases h; rfl)), if_pos hsuf, hd]
    simp only [Clause.text, longer_show hv] at h1
    simp only [readSpec, List.cons_append, List.nil_append, h1]
  · intro w hw
    rw [h2 w hw]
    simp only [Clause.Means]
    have e : (longer v).release.length - 1 = v.release.length := by simp [longer]
    have hsp : SamePrefix v.release.length (longer v) w ↔ SamePrefix v.release.length v w := by
      simp only [SamePrefix, longer, relAt_snoc]
    rw [e, hsp]
    refine ⟨fun h => h.2, fun h => ⟨?_, h⟩⟩
    rw [le_iff_not_lt _ _ hl.1.1 hw.1.1, final_lt_iff _ _ hw hl]
    rintro (hlt | ⟨_, i, hi, hlt⟩)
    · have := h.1
      simp only [longer] at hlt
      omega
    · simp only [longer, relAt_snoc] at hlt
      by_cases hil : i < v.release.length
      · have := h.2 i hil; omega
      · have : relAt v.release i = 0 := by
          unfold relAt
          rw [List.getD_eq_default]; omega
        omega

/-- C89. A comparison has its usual meaning. -/
theorem conda_version_clause (env : UrlEnv) (c : Clause) (hc : c.Wf) :
    ∃ s, parseSpec env c.text = .ok s ∧ ∀ w, Final w → (s.allows (.std w) = true ↔ c.Means w) := by
  obtain ⟨s, h1, h2⟩ := clause_meaning_final_partial env c hc
  refine ⟨s, ?_, h2⟩
  have : ∃ k t, c.text = k :: t ∧ (t!"><=!~").contains k = true := by
    cases c <;> exact ⟨_, _, rfl, by decide⟩
  obtain ⟨k, t, e, hk⟩ := this
  rw [e] at h1 ⊢
  simp only [parseSpec]
  rw [if_pos hk]
  simp only [readSpec, h1]

/-- C89. The specifier `*` allows everything. -/
theorem conda_version_any (env : UrlEnv) : ∃ s, parseSpec env t!"*" = .ok s ∧ ∀ v, s.allows v = true :=
  ⟨.all, rfl, fun v => by simp [VSpec.allows]⟩

/-- the specifiers of `numpy 1.2.*`, on 1.2.7 and 1.3 -/
example : ∃ s, parseSpec ⟨fun _ => none, id⟩ t!"1.2.*" = .ok s ∧ s.allows (.std { release := [1, 2, 7] }) = true ∧
    s.allows (.std { release := [1, 3] }) = false := ⟨_, rfl, by decide, by decide⟩

/-- The claim "`X*` is the versions that begin with `X`" fails: it is version X only. -/
theorem conda_star_violated (env : UrlEnv) :
    ∃ s, parseSpec env t!"3.6*" = .ok s ∧ s.allows (.std { release := [3, 6, 1] }) = false ∧
      s.allows (.std { release := [3, 6] }) = true := ⟨.vmatch (.std { release := [3, 6] }) true, rfl, by decide, by decide⟩


/-! ### dependencies on builds -/

namespace Conda

theorem madeFor_mem (data : Repodata) (n v : Text) (a : Art) :
    a ∈ madeFor data n v ↔ a ∈ data ∧ a.2.name = n ∧ a.2.version = v := by
  simp [madeFor]

theorem matchArtifacts_mem (env : UrlEnv) (sd : Subdir) (n v b : Text) (spec : VSpec) (as : List Art)
    (hspec : (v = t!"*" ∧ spec = .all) ∨ (v ≠ t!"*" ∧ parseSpecifier env (t!"==" ++ v) = .ok spec))
    (h : matchArtifacts env sd n v b = .ok as) (a : Art) :
    a ∈ as ↔ a ∈ sd.data ∧ a.2.name = n ∧ spec.allows (parseVersion env a.2.version) = true ∧
      buildMatches b a.2.build = true := by
  have hs : (if v = t!"*" then .ok .all else readSpec env (t!"==" ++ v)) = (.ok spec : Except CErr VSpec) := by
    rcases hspec with ⟨h1, h2⟩ | ⟨h1, h2⟩
    · rw [if_pos h1, h2]
    · rw [if_neg h1]; simp only [readSpec, h2]
  simp only [matchArtifacts, hs] at h
  split at h
  · cases h
  · cases ha : allowed env spec (general sd n) with
    | error e => simp [ha] at h
    | ok ps =>
      simp only [ha, Except.ok.injEq] at h
      have e := allowed_ok env spec _ ps ha
      subst h
      rw [e]
      simp only [List.mem_flatMap, List.mem_map, List.mem_filter, general_eq, mem_packages, decide_eq_true_eq]
      constructor
      · rintro ⟨_, ⟨p, ⟨⟨⟨h1, h2⟩, h3⟩, h4⟩, rfl⟩, h5, h6⟩
        simp only at h5
        rw [h1, madeFor_mem] at h5
        exact ⟨h5.1, by rw [h5.2.1, h3], by rw [h5.2.2]; exact h4, h6⟩
      · rintro ⟨h1, h2, h3, h4⟩
        have hm : a ∈ madeFor sd.data n a.2.version := (madeFor_mem _ _ _ _).mpr ⟨h1, h2, rfl⟩
        exact ⟨_, ⟨⟨n, a.2.version, madeFor sd.data n a.2.version⟩,
          ⟨⟨⟨rfl, fun e => by simp only at e; rw [e] at hm; simp at hm⟩, rfl⟩, h3⟩, rfl⟩, hm, h4⟩

theorem urlOf_eq (env : UrlEnv) (sd : Subdir) (art s : Text)
    (hl : lower (sd.channel ++ '/' :: (sd.name ++ '/' :: art)) = sd.channel ++ '/' :: (sd.name ++ '/' :: art))
    (hn : '\n' ∉ sd.channel ++ '/' :: (sd.name ++ '/' :: art))
    (hs : env.urlScheme (sd.channel ++ '/' :: (sd.name ++ '/' :: art)) = some s) :
    urlOf env sd art = .url (sd.channel ++ '/' :: (sd.name ++ '/' :: art)) (some t!"conda") s := by
  unfold urlOf
  generalize hu : sd.channel ++ '/' :: (sd.name ++ '/' :: art) = u at *
  have e : t!"conda+" ++ sd.channel ++ '/' :: (sd.name ++ '/' :: art) = t!"conda" ++ '+' :: u := by
    rw [← hu]; simp
  simp only [e]
  have e2 : lower (t!"conda" ++ '+' :: u) = t!"conda" ++ '+' :: u := by
    have : lower (t!"conda" ++ '+' :: u) = lower t!"conda" ++ lower ['+'] ++ lower u := by simp [lower]
    rw [this, hl]; rfl
  have hw := takeWhile_append_stop isWord t!"conda" ('+' :: u) (by decide) (by simp [StartsNot]; decide)
  simp only [parseUrlVersion, e2, hw.1, hw.2]
  have hnl : u.takeWhile (fun c => c != '\n') = u := by
    have := takeWhile_append_stop (fun c => c != '\n') u [] (fun c hc => by
      simp only [bne_iff_ne, ne_eq]
      rintro rfl
      exact hn hc) trivial
    simpa using this.1
  simp only [hnl, hs]

end Conda

/-- C89. The artifacts for a dependency on a build are those of the subdirectory with this name, a version that is
allowed and a build that fits. -/
theorem conda_pin_matches (env : UrlEnv) (sd : Subdir) (n v b : Text) (spec : VSpec) (as : List Art)
    (hspec : (v = t!"*" ∧ spec = .all) ∨ (v ≠ t!"*" ∧ parseSpecifier env (t!"==" ++ v) = .ok spec))
    (h : matchArtifacts env sd n v b = .ok as) (a : Art) :
    a ∈ as ↔ a ∈ sd.data ∧ a.2.name = n ∧ spec.allows (parseVersion env a.2.version) = true ∧
      buildMatches b a.2.build = true := matchArtifacts_mem env sd n v b spec as hspec h a

/-- C89. A dependency on a build that no artifact of the channel fits cannot be satisfied. -/
theorem conda_pin_no_build (env : UrlEnv) (sd : Subdir) (n v b : Text) (hblank : ' ' ∉ n ∧ ' ' ∉ v ∧ ' ' ∉ b)
    (hm : matchArtifacts env sd n v b = .ok []) :
    ∃ d, parseDep env sd (n ++ ' ' :: (v ++ ' ' :: b)) = .ok d ∧ d.name = n ∧ ∀ w, d.spec.allows w = false := by
  have e1 : splitOn ' ' (n ++ ' ' :: (v ++ ' ' :: b)) = [n, v, b] := by
    rw [Tags.splitOn_step _ _ _ hblank.1, Tags.splitOn_step _ _ _ hblank.2.1, Tags.splitOn_one _ _ hblank.2.2]
  refine ⟨⟨n, .none⟩, ?_, rfl, fun w => by simp [VSpec.allows]⟩
  simp only [parseDep, e1, hm, List.map_nil]

example : (parseDep ⟨fun _ => none, id⟩ ⟨t!"c", t!"noarch", []⟩ t!"numpy * py37_0").toOption.map (·.name) = some t!"numpy" := by decide +kernel

/-- C89. A channel has nothing for a dependency on an artifact of another channel. -/
theorem conda_pin_other_channel (env : UrlEnv) (r : Repo) (pl : Platform) (n u s : Text)
    (h : ¬ (r.channel ++ ['/']) <+: lower u) :
    doMatch env r pl ⟨n, .vmatch (.url u (some t!"conda") s) true⟩ = .ok [] := by
  have e : urlProtocol (some t!"conda") s = t!"conda" := rfl
  simp only [doMatch, e, matchUrl]
  rw [if_neg (fun hne => hne rfl), if_neg (by rw [List.isPrefixOf_iff_prefix]; exact h)]

/-- C89. A dependency on a build that only one artifact fits is answered by the channel with this artifact alone.
(Partial: for names in lower case, as URLs of versions are put in lower case; see `conda_pin_several_violated` for
the case of more artifacts.) -/
theorem conda_pin_one_partial (env : UrlEnv) (r : Repo) (pl : Platform) (sub n v b s : Text) (a : Art)
    (hblank : ' ' ∉ n ∧ ' ' ∉ v ∧ ' ' ∉ b)
    (hm : matchArtifacts env (r.subdir sub) n v b = .ok [a])
    (ha : Dict.get (r.serve sub) a.1 = some a.2) (hname : descriptorName a.2.name ≠ none)
    (hslash : '/' ∉ sub ∧ '/' ∉ a.1)
    (hl : lower (r.channel ++ '/' :: (sub ++ '/' :: a.1)) = r.channel ++ '/' :: (sub ++ '/' :: a.1))
    (hn : '\n' ∉ r.channel ++ '/' :: (sub ++ '/' :: a.1))
    (hs : env.urlScheme (r.channel ++ '/' :: (sub ++ '/' :: a.1)) = some s) :
    ∃ d, parseDep env (r.subdir sub) (n ++ ' ' :: (v ++ ' ' :: b)) = .ok d ∧ d.name = n ∧
      doMatch env r pl d =
        .ok [(r.subdir sub, parseVersion env a.2.version, ⟨a.2.name, a.2.version, [a]⟩)] := by
  have e1 : splitOn ' ' (n ++ ' ' :: (v ++ ' ' :: b)) = [n, v, b] := by
    rw [Tags.splitOn_step _ _ _ hblank.1, Tags.splitOn_step _ _ _ hblank.2.1, Tags.splitOn_one _ _ hblank.2.2]
  refine ⟨⟨n, .vmatch (urlOf env (r.subdir sub) a.1) true⟩, ?_, rfl, ?_⟩
  · simp only [parseDep, e1, hm, List.map_cons, List.map_nil]
  · have hu := urlOf_eq env (r.subdir sub) a.1 s hl hn hs
    have hd : doMatch env r pl ⟨n, .vmatch (urlOf env (r.subdir sub) a.1) true⟩ =
        matchUrl env r (r.channel ++ '/' :: (sub ++ '/' :: a.1)) t!"conda" := by rw [hu]; rfl
    rw [hd]
    simp only [matchUrl, Repo.subdir]
    rw [if_neg (by simp), if_pos]
    · have e2 : (r.channel ++ '/' :: (sub ++ '/' :: a.1)).drop (r.channel.length + 1) = sub ++ '/' :: a.1 := by
        rw [List.drop_append]; simp
      rw [e2, Tags.splitOn_step _ _ _ hslash.1, Tags.splitOn_one _ _ hslash.2]
      simp only [Conda.single, ha]
      have : ({ name := a.2.name, ver := a.2.version, artifacts := [(a.1, a.2)] } : Pkg).version env =
          .ok (parseVersion env a.2.version) := by
        unfold Pkg.version
        split
        · rfl
        · rename_i h; exact absurd h hname
      simp only [this]
    · rw [hl, List.isPrefixOf_iff_prefix]
      exact ⟨sub ++ '/' :: a.1, by simp⟩

/-- The claim "a dependency on a build that several artifacts fit is answered with one of them" fails: the channel has
no answer at all. -/
theorem conda_pin_several_violated (env : UrlEnv) (r : Repo) (pl : Platform) (sub n v b s : Text) (x y : Art) (zs : List Art)
    (hblank : ' ' ∉ n ∧ ' ' ∉ v ∧ ' ' ∉ b) (hm : matchArtifacts env (r.subdir sub) n v b = .ok (x :: y :: zs))
    (hl : ∀ a ∈ x :: y :: zs, ∃ s, urlOf env (r.subdir sub) a.1 = .url (r.channel ++ '/' :: (sub ++ '/' :: a.1)) (some t!"conda") s)
    (hpl : subdirOf pl = .ok s) (hname : descriptorName n ≠ none)
    (hv : ∀ e ∈ r.serve s, ∀ u p q, parseVersion env e.2.version ≠ .url u p q) :
    ∃ d, parseDep env (r.subdir sub) (n ++ ' ' :: (v ++ ' ' :: b)) = .ok d ∧ doMatch env r pl d = .ok [] := by
  have e1 : splitOn ' ' (n ++ ' ' :: (v ++ ' ' :: b)) = [n, v, b] := by
    rw [Tags.splitOn_step _ _ _ hblank.1, Tags.splitOn_step _ _ _ hblank.2.1, Tags.splitOn_one _ _ hblank.2.2]
  generalize hss : (x :: y :: zs).map (fun a => VSpec.vmatch (urlOf env (r.subdir sub) a.1) true) = ss
  have hu : VSpec.mkUnion ss = .ok (.union (sortBy (fun x y => !VSpec.lt y x) ss)) := by
    unfold VSpec.mkUnion
    rw [if_pos]
    simp only [← hss, List.length_map, List.length_cons, Bool.and_eq_true, decide_eq_true_eq, List.all_eq_true]
    refine ⟨by omega, ?_⟩
    intro q hq
    obtain ⟨a, _, rfl⟩ := List.mem_map.mp hq
    rfl
  refine ⟨⟨n, .union (sortBy (fun x y => !VSpec.lt y x) ss)⟩, ?_, ?_⟩
  · simp only [parseDep, e1, hm]
    rw [hss]
    have : ∃ p q t, ss = p :: q :: t := ⟨_, _, _, hss.symm⟩
    obtain ⟨p, q, t, e⟩ := this
    rw [e] at hu ⊢
    simp only [union, hu]
  · have hnu : ¬ AsksForUrl (.union (sortBy (fun x y => !VSpec.lt y x) ss)) := fun h => h
    obtain ⟨l, h⟩ := conda_answers env r pl ⟨n, .union (sortBy (fun x y => !VSpec.lt y x) ss)⟩ s hnu hpl hname
    rw [h]
    have := (conda_offers env r pl _ s l hnu hpl h).1
    cases l with
    | nil => rfl
    | cons z l =>
      obtain ⟨p, _, _, h2, h3, h4⟩ := (this z).mp (by simp)
      simp only [VSpec.allows] at h4
      rw [allowsAnySeg_iff] at h4
      obtain ⟨q, hq, h4⟩ := h4
      rw [(sortBy_perm _ _).mem_iff, ← hss] at hq
      obtain ⟨a, ha, rfl⟩ := List.mem_map.mp hq
      obtain ⟨t, ht⟩ := hl a ha
      simp only [ht, VSpec.allows, VSpec.matchAllows] at h4
      obtain ⟨w, hw⟩ := List.exists_mem_of_ne_nil _ h3
      rw [h2, madeFor_mem] at hw
      have hv' := hv w hw.1
      rw [hw.2.2] at hv'
      cases hpv : parseVersion env p.ver with
      | url u p q => exact absurd hpv (hv' u p q)
      | named m => simp [hpv, Ver.isLocal, Ver.withoutLocal, Ver.eqv] at h4
      | std m => simp [hpv, Ver.isLocal, Ver.withoutLocal, Ver.eqv] at h4

namespace Conda.Example

def urls : UrlEnv := ⟨fun _ => some t!"https", id⟩

/-- a channel with two builds of blas and one of numpy -/
def data : Repodata :=
  [(t!"blas-1.0-mkl.tar.bz2", ⟨t!"blas", t!"1.0", t!"mkl", 0, []⟩),
   (t!"blas-1.0-openblas.tar.bz2", ⟨t!"blas", t!"1.0", t!"openblas", 0, []⟩),
   (t!"numpy-1.2-py36_0.tar.bz2", ⟨t!"numpy", t!"1.2", t!"py36_0", 0, [t!"python >=3.6,<3.7.0a0", t!"blas 1.0 mkl"]⟩),
   (t!"numpy-1.2-py36_1.tar.bz2", ⟨t!"numpy", t!"1.2", t!"py36_1", 1, [t!"python >=3.6,<3.7.0a0", t!"blas 1.0 mkl"]⟩)]

def repo : Repo := ⟨t!"https://c.org/main", fun _ => data⟩

end Conda.Example

open Conda.Example in
/-- the hypotheses of the two theorems are met -/
example : matchArtifacts urls (repo.subdir t!"linux-64") t!"blas" t!"1.0" t!"mkl" =
      .ok [(t!"blas-1.0-mkl.tar.bz2", ⟨t!"blas", t!"1.0", t!"mkl", 0, []⟩)] ∧
    (matchArtifacts urls (repo.subdir t!"linux-64") t!"blas" t!"*" t!"*").toOption.map (·.length) = some 2 :=
  ⟨by rfl, by rfl⟩

end Pkm
