import Verif.Version.SpecLemmas
set_option linter.unusedVariables false
/-
Properties C01, C02, C03, C04, C06, C49: ordering, equality, hashing and bumping of versions.
-/
namespace Pkm
open Spec

/-! ## C01: strict partial order -/

/-- C01. No version is less than itself. -/
theorem version_lt_irrefl (a : Ver) : a.lt a = false := by
  cases a with
  | url u p s => exact strLt_irrefl _
  | named n => exact strLt_irrefl _
  | std v => exact SV.eqv_stage.irrefl v

/-- C01. `a < b` and `b < c` give `a < c`, for versions of any kinds. -/
theorem version_lt_trans (a b c : Ver) (hab : a.lt b = true) (hbc : b.lt c = true) :
    a.lt c = true := by
  cases a <;> cases b <;> cases c <;> simp_all [Ver.lt]
  · exact strLt_trans _ _ _ hab hbc
  · exact strLt_trans _ _ _ hab hbc
  · exact SV.eqv_stage.ltTrans _ _ _ hab hbc

/-- C01. Two versions are never each less than the other. -/
theorem version_lt_asymm (a b : Ver) (h : a.lt b = true) : b.lt a = false := by
  cases hb : b.lt a with
  | false => rfl
  | true =>
    have := version_lt_trans a b a h hb
    rw [version_lt_irrefl] at this; exact absurd this (by simp)

example : (Ver.std { release := [1, 2] }).lt (.std { release := [1, 10] }) = true ∧
    (Ver.std { release := [1, 10] }).lt (.std { release := [1, 10], post := some 1 }) = true := by
  decide

/-- C01. URL versions sort before named versions, which sort before standard versions. -/
theorem version_lt_kinds (u s n : Text) (p : Option Text) (v : SV) :
    (Ver.url u p s).lt (.named n) = true ∧ (Ver.named n).lt (.std v) = true ∧
      (Ver.url u p s).lt (.std v) = true := ⟨rfl, rfl, rfl⟩

/-- C01. Standard versions: the epoch decides first (a missing epoch counts as 0). -/
theorem std_lt_by_epoch (a b : SV) (h : a.epoch.getD 0 ≠ b.epoch.getD 0) :
    a.lt b = true ↔ a.epoch.getD 0 < b.epoch.getD 0 := by
  have h' : a.epoch0 ≠ b.epoch0 := h
  simp only [SV.lt, if_pos h', decide_eq_true_eq]; exact Iff.rfl

/-- C01. Then the release, numerically and component by component. -/
theorem std_lt_by_release (a b : SV) (h : a.epoch.getD 0 = b.epoch.getD 0)
    (hr : ¬ RelSame a.release b.release) :
    a.lt b = true ↔ RelBefore a.release b.release := by
  have h' : a.epoch0 = b.epoch0 := h
  rw [SV.relSame_iff, Bool.not_eq_true] at hr
  rw [SV.lt_eq_casc, SV.relBefore_iff]
  simp [SV.cascL, lexL, h', hr]

example : (⟨[1, 9], none, none, none, none, none⟩ : SV).lt ⟨[1, 10], some 0, none, none, none, none⟩
    = true := by decide

/-- C01. Then the dev number (an absent one is last), then pre-release, then post-release. -/
theorem std_lt_by_suffix (a b : SV) (h : a.epoch.getD 0 = b.epoch.getD 0)
    (hr : RelSame a.release b.release) :
    (a.dev ≠ b.dev → (a.lt b = true ↔ DevBefore a.dev b.dev)) ∧
    (a.dev = b.dev → a.pre = b.pre → a.post ≠ b.post →
      (a.lt b = true ↔ PostBefore a.post b.post)) ∧
    (∀ t n u m, a.dev = b.dev → a.pre = some (t, n) → b.pre = some (u, m) → (t, n) ≠ (u, m) →
      (a.lt b = true ↔ strLt t u = true ∨ (t = u ∧ n < m))) ∧
    (a.dev = b.dev → a.pre.isSome = true → b.pre = none → a.lt b = true) := by
  have h' : a.epoch0 = b.epoch0 := h
  rw [SV.relSame_iff] at hr
  simp only [SV.lt_eq_casc, SV.cascL, lexL, h', hr, beq_self_eq_true, if_true]
  refine ⟨?_, ?_, ?_, ?_⟩
  · intro hd
    have : (a.dev == b.dev) = false := by simpa using hd
    simp only [this, Bool.false_eq_true, if_false]
    cases h1 : a.dev <;> cases h2 : b.dev <;> simp_all [SV.devLt, DevBefore]
  · intro hd hp hpo
    have : (a.post == b.post) = false := by simpa using hpo
    simp only [hd, hp, this, beq_self_eq_true, if_true, Bool.false_eq_true, if_false]
    cases h1 : a.post <;> cases h2 : b.post <;> simp_all [SV.postLt, PostBefore]
  · intro t n u m hd ha hb hne
    simp only [hd, ha, hb, beq_self_eq_true, if_true]
    have : (some (t, n) == some (u, m)) = false := by simpa using hne
    simp only [this, Bool.false_eq_true, if_false, SV.preLt, SV.prePairLt]
    by_cases htu : t = u
    · subst htu; simp [strLt_irrefl]
    · simp [htu]
  · intro hd ha hb
    obtain ⟨p, hp⟩ := Option.isSome_iff_exists.mp ha
    simp [hd, hb, hp, SV.preLt]

/-! ## C02: trichotomy -/

/-- C02 fails: `1.0+1` and `1.0+2` are different but neither is less than the other. -/
theorem version_trichotomy_violated :
    ¬ ∀ a b : Ver, ExactlyOne (a.lt b = true) (a.eqv b = true) (b.lt a = true) := by
  intro h
  have := h (.std { release := [1, 0], loc := some ['1'] }) (.std { release := [1, 0], loc := some ['2'] })
  simp only [ExactlyOne] at this
  revert this; decide

/-- C02 fails for URLs too: `http+http://x` equals `http://x` and is also less than it. -/
theorem version_trichotomy_violated_url :
    ∃ a b : Ver, a.eqv b = true ∧ a.lt b = true := by
  refine ⟨.url "http://x".toList (some "http".toList) "http".toList,
    .url "http://x".toList none "http".toList, ?_, ?_⟩ <;> decide

/-- C02, exact extent: two standard versions are ordered or equal (exactly one of the three) unless
they only differ in local labels that first differ in two numeric pieces, or are absent vs. empty. -/
theorem std_trichotomy_iff (a b : SV) :
    ExactlyOne (a.lt b = true) (a.eqv b = true) (b.lt a = true) ↔
      ¬ (SamePublic a b ∧ LabelClash a.loc b.loc) := by
  have hirr : a.lt b = true → a.eqv b = false := SV.eqv_stage.ne a b
  have hirr' : b.lt a = true → a.eqv b = false := by
    intro h
    cases h' : a.eqv b with
    | false => rfl
    | true =>
      have := SV.eqv_stage.ne b a h
      rw [SV.eqv_stage.symm _ _ h'] at this; exact absurd this (by simp)
  have hasym : a.lt b = true → b.lt a = false := SV.eqv_stage.asymm a b
  by_cases hsp : SamePublic a b
  · have hsp' : SamePublic b a := by
      obtain ⟨h1, h2, h3, h4, h5⟩ := hsp
      exact ⟨h1.symm, fun i => (h2 i).symm, h3.symm, h4.symm, h5.symm⟩
    have e1 := SV.lt_samePublic a b hsp
    have e2 := SV.lt_samePublic b a hsp'
    have e3 : a.eqv b = true ↔ a.loc = b.loc := by rw [SV.eqv_iff]; simp [hsp]
    simp only [hsp, true_and]
    constructor
    · intro hone hcl
      rcases hcl with ⟨p, m, n, s, t, hx, hy, hmn, hm, hn⟩ | ⟨hx, hy⟩ | ⟨hx, hy⟩
      · have k1 : a.lt b = false := by
          rw [e1, SV.localSegments, SV.localSegments, hx, hy]; exact SV.localLoop_clash hmn hm hn
        have k2 : b.lt a = false := by
          rw [e2, SV.localSegments, SV.localSegments, hx, hy]
          exact SV.localLoop_clash (Ne.symm hmn) hn hm
        have k3 : ¬ a.eqv b = true := by
          rw [e3]; intro hl
          rw [hl, hy] at hx
          exact hmn (by have := List.append_cancel_left hx; simp at this; exact this.1.symm)
        simp [ExactlyOne, k1, k2, k3] at hone
      · have k1 : a.lt b = false := by rw [e1, hx, hy]; rfl
        have k2 : b.lt a = false := by rw [e2, hx, hy]; rfl
        have k3 : ¬ a.eqv b = true := by rw [e3, hx, hy]; simp
        simp [ExactlyOne, k1, k2, k3] at hone
      · have k1 : a.lt b = false := by rw [e1, hx, hy]; rfl
        have k2 : b.lt a = false := by rw [e2, hx, hy]; rfl
        have k3 : ¬ a.eqv b = true := by rw [e3, hx, hy]; simp
        simp [ExactlyOne, k1, k2, k3] at hone
    · intro hcl
      rcases SV.localLoop_cases (SV.localSegments a.loc) (SV.localSegments b.loc)
        with h | h | h | ⟨p, m, n, s, t, h1, h2, h3⟩
      · have hl : a.loc.getD [] = b.loc.getD [] := SV.splitOn_inj _ _ h
        have hll : a.loc = b.loc := by
          cases ha : a.loc with
          | none =>
            cases hb : b.loc with
            | none => rfl
            | some y =>
              rw [ha, hb] at hl; simp at hl; subst hl
              exact absurd (Or.inr (Or.inl ⟨ha, hb⟩)) hcl
          | some x =>
            cases hb : b.loc with
            | none =>
              rw [ha, hb] at hl; simp at hl; subst hl
              exact absurd (Or.inr (Or.inr ⟨ha, hb⟩)) hcl
            | some y => rw [ha, hb] at hl; simpa using hl
        have he := e3.mpr hll
        right; left
        refine ⟨?_, he, ?_⟩
        · intro hh; rw [hirr hh] at he; exact absurd he (by simp)
        · intro hh; rw [hirr' hh] at he; exact absurd he (by simp)
      · have hh : a.lt b = true := by rw [e1]; exact h
        left; exact ⟨hh, by simp [hirr hh], by simp [hasym hh]⟩
      · have hh : b.lt a = true := by rw [e2]; exact h
        right; right
        refine ⟨?_, by simp [hirr' hh], hh⟩
        intro hab; rw [hasym hab] at hh; exact absurd hh (by simp)
      · exact absurd (Or.inl ⟨p, m, n, s, t, h1, h2, h3⟩) hcl
  · simp only [hsp, false_and, not_false_eq_true, iff_true]
    have he : a.eqv b = false := by
      cases h : a.eqv b with
      | false => rfl
      | true => exact absurd ((SV.eqv_iff _ _).mp h).1 hsp
    rcases SV.lt_total_of_not_samePublic a b hsp with h | h
    · left; exact ⟨h, by simp [he], by simp [hasym h]⟩
    · right; right
      refine ⟨?_, by simp [he], h⟩
      intro hab; rw [hasym hab] at h; exact absurd h (by simp)

/-- Two URLs that both name how they are fetched (`git+https://..`), or both do not; what they are fetched by is then said by
the URL itself. -/
def UrlsAlike : Ver → Ver → Prop
  | .url u p s, .url u' p' s' =>
    (p = none ∧ p' = none ∧ (u = u' → s = s')) ∨
      ∃ q q', p = some q ∧ p' = some q' ∧ q ≠ [] ∧ q' ≠ [] ∧ '+' ∉ q ∧ '+' ∉ q'
  | _, _ => True

theorem append_plus_inj : ∀ (q q' u u' : Text), '+' ∉ q → '+' ∉ q' → q ++ '+' :: u = q' ++ '+' :: u' → q = q' ∧ u = u'
  | [], [], _, _, _, _, h => by simpa using h
  | [], c :: cs, _, _, _, h', h => by simp at h; exact absurd (h.1 ▸ List.mem_cons_self ..) h'
  | c :: cs, [], _, _, h', _, h => by simp at h; exact absurd (by simp [h.1]) h'
  | c :: cs, d :: ds, u, u', h1, h2, h => by
    simp only [List.cons_append, List.cons.injEq] at h
    obtain ⟨e1, e2⟩ := append_plus_inj cs ds u u' (fun m => h1 (List.mem_cons_of_mem _ m)) (fun m => h2 (List.mem_cons_of_mem _ m)) h.2
    exact ⟨by rw [h.1, e1], e2⟩

theorem url_same {u u' s s' : Text} {p p' : Option Text} (h : UrlsAlike (.url u p s) (.url u' p' s')) :
    (Ver.url u p s).eqv (.url u' p' s') = true ↔ urlStr u p = urlStr u' p' := by
  simp only [Ver.eqv, Bool.and_eq_true, beq_iff_eq]
  rcases h with ⟨rfl, rfl, hs⟩ | ⟨q, q', rfl, rfl, hq, hq', hp, hp'⟩
  · simp only [urlProtocol, orText, urlStr]
    exact ⟨fun x => x.2, fun x => ⟨hs x, x⟩⟩
  · cases q with
    | nil => exact absurd rfl hq
    | cons c cs =>
      cases q' with
      | nil => exact absurd rfl hq'
      | cons d ds =>
        simp only [urlProtocol, orText, urlStr]
        constructor
        · rintro ⟨e1, e2⟩; rw [e1, e2]
        · intro e; exact append_plus_inj _ _ _ _ hp hp' e

/-- C02 (partial): versions are totally ordered if their local labels do not clash, and URLs if both or none name how they are
fetched. Missing from the full statement: clashing labels, and URLs of which one does and one does not, where it is false. -/
theorem version_trichotomy_partial (a b : Ver) (hu : UrlsAlike a b)
    (hl : ∀ v w, a = .std v → b = .std w → ¬ LabelClash v.loc w.loc) :
    ExactlyOne (a.lt b = true) (a.eqv b = true) (b.lt a = true) := by
  cases a with
  | url u p s =>
    cases b with
    | url u' p' s' =>
      have he := url_same hu
      cases heq : (Ver.url u p s).eqv (.url u' p' s') with
      | true =>
        have := he.1 heq
        simp only [Ver.lt, this, strLt_irrefl]
        simp [ExactlyOne]
      | false =>
        have hne : urlStr u p ≠ urlStr u' p' := fun e => by rw [he.2 e] at heq; simp at heq
        rcases strLt_total (urlStr u p) (urlStr u' p') with h | h | h
        · exact absurd h hne
        · have h2 : strLt (urlStr u' p') (urlStr u p) = false := version_lt_asymm (.named _) (.named _) h
          simp [ExactlyOne, Ver.lt, h, h2]
        · have h2 : strLt (urlStr u p) (urlStr u' p') = false := version_lt_asymm (.named _) (.named _) h
          simp [ExactlyOne, Ver.lt, h, h2]
    | named m => simp [Ver.lt, Ver.eqv, ExactlyOne]
    | std w => simp [Ver.lt, Ver.eqv, ExactlyOne]
  | named n =>
    cases b with
    | url u p s => simp [Ver.lt, Ver.eqv, ExactlyOne]
    | named m =>
      simp only [Ver.lt, Ver.eqv, beq_iff_eq]
      rcases strLt_total n m with h | h | h
      · subst h; simp [ExactlyOne, strLt_irrefl]
      · have h2 : strLt m n = false := version_lt_asymm (.named n) (.named m) h
        have h3 : n ≠ m := by intro e; subst e; rw [strLt_irrefl] at h; simp at h
        simp [ExactlyOne, h, h2, h3]
      · have h2 : strLt n m = false := version_lt_asymm (.named m) (.named n) h
        have h3 : n ≠ m := by intro e; subst e; rw [strLt_irrefl] at h; simp at h
        simp [ExactlyOne, h, h2, h3]
    | std w => simp [Ver.lt, Ver.eqv, ExactlyOne]
  | std v =>
    cases b with
    | url u p s => simp [Ver.lt, Ver.eqv, ExactlyOne]
    | named m => simp [Ver.lt, Ver.eqv, ExactlyOne]
    | std w =>
      exact (std_trichotomy_iff v w).mpr (fun h => hl v w rfl rfl h.2)

example : UrlsAlike (.url "https://x".toList (some "git".toList) "https".toList) (.url "https://y".toList (some "hg".toList) "https".toList) ∧
    UrlsAlike (.url "https://x".toList none "https".toList) (.url "https://y".toList none "https".toList) ∧
    UrlsAlike (.url "https://x".toList none "https".toList) (.named ['n']) :=
  ⟨.inr ⟨_, _, rfl, rfl, by decide, by decide, by decide, by decide⟩, .inl ⟨rfl, rfl, fun _ => rfl⟩, trivial⟩

example : ¬ LabelClash (some ['a', '.', '1']) (some ['b', '.', '2']) := by
  rintro (⟨p, m, n, s, t, hx, hy, hmn, hm, hn⟩ | h | h)
  · simp [splitOn] at hx hy
    cases p with
    | nil => simp at hx hy; obtain ⟨rfl, _⟩ := hx; simp [isNumeric, isDigit] at hm
    | cons q qs => simp at hx hy; obtain ⟨rfl, _⟩ := hx; simp at hy
  · simp at h
  · simp at h

/-! ## C03: equality -/

/-- C03. Version equality is an equivalence relation. -/
theorem version_eq_equivalence :
    (∀ a : Ver, a.eqv a = true) ∧ (∀ a b : Ver, a.eqv b = true → b.eqv a = true) ∧
    (∀ a b c : Ver, a.eqv b = true → b.eqv c = true → a.eqv c = true) := by
  refine ⟨?_, ?_, ?_⟩
  · intro a; cases a <;> simp [Ver.eqv]; exact SV.eqv_stage.refl _
  · intro a b h
    cases a <;> cases b <;> simp_all [Ver.eqv]
    exact SV.eqv_stage.symm _ _ h
  · intro a b c h h'
    cases a <;> cases b <;> cases c <;> simp_all [Ver.eqv]
    exact SV.eqv_stage.trans _ _ _ h h'

/-- C03. Standard versions are equal iff they agree in epoch (absent = 0), release up to trailing
zeros, pre, post, dev and local label. -/
theorem std_eq_iff (a b : SV) : a.eqv b = true ↔ SamePublic a b ∧ a.loc = b.loc := SV.eqv_iff a b

/-- C03. Appending zero release components changes neither equality nor order. -/
theorem std_padding (v w : SV) (n : Nat) :
    let v' := { v with release := v.release ++ List.replicate n 0 }
    v.eqv v' = true ∧ (v'.lt w = v.lt w) ∧ (w.lt v' = w.lt v) ∧ (v'.eqv w = v.eqv w) := by
  intro v'
  have he : v.eqv v' = true := by
    rw [SV.eqv_iff]
    refine ⟨⟨rfl, fun i => ?_, rfl, rfl, rfl⟩, rfl⟩
    show relAt v.release i = relAt (v.release ++ List.replicate n 0) i
    have := SV.comp_padTo (v.release.length + n) v.release i
    simp only [SV.padTo, Nat.add_sub_cancel_left] at this
    exact this.symm
  have he' := SV.eqv_stage.symm _ _ he
  refine ⟨he, SV.eqv_stage.congrL _ _ _ he', SV.eqv_stage.congrR _ _ _ he', ?_⟩
  cases h : v.eqv w with
  | true => exact SV.eqv_stage.trans _ _ _ he' h
  | false =>
    cases h' : v'.eqv w with
    | false => rfl
    | true => rw [SV.eqv_stage.trans _ _ _ he h'] at h; exact absurd h (by simp)

/-- C03. Equal standard versions are interchangeable in comparisons. -/
theorem std_eq_lt_congr (a b c : SV) (h : a.eqv b = true) :
    a.lt c = b.lt c ∧ c.lt a = c.lt b :=
  ⟨SV.eqv_stage.congrL a b c h, SV.eqv_stage.congrR a b c h⟩

/-- C03 (partial): equal versions are interchangeable in comparisons unless they are URLs. -/
theorem version_eq_lt_congr_partial (a b c : Ver) (hu : ∀ u p s, a ≠ .url u p s)
    (h : a.eqv b = true) : a.lt c = b.lt c ∧ c.lt a = c.lt b := by
  cases a with
  | url u p s => exact absurd rfl (hu u p s)
  | named n => cases b <;> simp_all [Ver.eqv]
  | std v =>
    cases b with
    | std w =>
      cases c with
      | std x => exact std_eq_lt_congr v w x h
      | url => simp [Ver.lt]
      | named => simp [Ver.lt]
    | url => simp [Ver.eqv] at h
    | named => simp [Ver.eqv] at h

/-- C03 fails for URLs: equal URL versions can compare differently with a third version. -/
theorem version_eq_lt_congr_violated :
    ¬ ∀ a b c : Ver, a.eqv b = true → a.lt c = b.lt c ∧ c.lt a = c.lt b := by
  intro h
  have := h (.url ['x'] (some ['f']) ['h']) (.url ['x'] none ['f']) (.url ['x'] none ['f'])
  revert this; decide

example : (⟨[1, 0], none, none, none, none, none⟩ : SV).eqv ⟨[1], some 0, none, none, none, none⟩
    = true := by decide

/-! ## C04: hash contract -/

/-- C04 fails: `0!1.0 == 1.0` but the hashed tuples differ. -/
theorem version_hash_violated : ¬ ∀ a b : Ver, a.eqv b = true → a.hashKey = b.hashKey := by
  intro h
  have := h (.std { release := [1, 0], epoch := some 0 }) (.std { release := [1, 0] })
  simp only [Ver.hashKey] at this
  revert this
  simp [SV.hashKey, SV.standartize, Ver.eqv]
  decide

/-- C04 (partial): equal standard versions with a non-empty release and the same way of writing the
epoch (both absent or both present) have equal hashes; equal named versions too.
Missing: an explicit epoch `0!` against an absent one, and URL versions, where it is false. -/
theorem version_hash_partial (a b : SV) (h : a.eqv b = true)
    (hep : a.epoch.isSome = b.epoch.isSome) (ha : a.release ≠ []) (hb : b.release ≠ []) :
    (Ver.std a).hashKey = (Ver.std b).hashKey := by
  rw [SV.eqv_iff] at h
  obtain ⟨⟨h1, h2, h3, h4, h5⟩, h6⟩ := h
  have hrel : SV.trimRelease a.release = SV.trimRelease b.release := by
    obtain ⟨ca, ca'⟩ := trim_canon a.release ha
    obtain ⟨cb, cb'⟩ := trim_canon b.release hb
    refine canon_unique _ _ ca cb ca' cb' (fun i => ?_)
    rw [trim_same, trim_same]; exact h2 i
  have hepo : a.epoch = b.epoch := by
    cases hx : a.epoch <;> cases hy : b.epoch <;> simp_all
  simp [Ver.hashKey, SV.hashKey, SV.standartize, hrel, hepo, h3, h4, h5, h6]

theorem named_hash (n m : Text) (h : (Ver.named n).eqv (.named m) = true) :
    (Ver.named n).hashKey = (Ver.named m).hashKey := by
  simp [Ver.eqv] at h; simp [h]

/-- C04 fails for URLs as well: equality reads `protocol`, the hash reads the raw fields. -/
theorem url_hash_violated : ∃ a b : Ver, a.eqv b = true ∧ a.hashKey ≠ b.hashKey :=
  ⟨.url ['x'] (some ['h']) ['h'], .url ['x'] none ['h'], by decide, by decide⟩

example : (⟨[1, 0], none, none, none, none, none⟩ : SV).eqv ⟨[1, 0, 0], none, none, none, none, none⟩
    = true := by decide

/-! ## C06: bump -/

/-- C06. major/minor/patch bumps of a three component version give a greater version with the lower
components reset and no suffixes. -/
theorem bump_release_greater (v : SV) (x y z : Nat) (hv : v.release = [x, y, z]) :
    (∃ w, v.bump SV.pMajor = some w ∧ v.lt w = true ∧ w = { release := [x + 1, 0, 0], epoch := v.epoch }) ∧
    (∃ w, v.bump SV.pMinor = some w ∧ v.lt w = true ∧ w = { release := [x, y + 1, 0], epoch := v.epoch }) ∧
    (∃ w, v.bump SV.pPatch = some w ∧ v.lt w = true ∧ w = { release := [x, y, z + 1], epoch := v.epoch }) := by
  have hlt : ∀ w : SV, w.epoch = v.epoch → SV.relEq v.release w.release = false →
      SV.relLt v.release w.release = true → v.lt w = true := by
    intro w he h1 h2
    rw [SV.lt_eq_casc]
    simp [SV.cascL, lexL, SV.epoch0, he, h1, h2]
  refine ⟨⟨_, by simp [SV.bump, hv, SV.bumpRelease]; rfl, ?_, rfl⟩,
    ⟨_, by simp [SV.bump, hv, SV.bumpRelease, SV.pMajor, SV.pMinor]; rfl, ?_, rfl⟩,
    ⟨_, by simp [SV.bump, hv, SV.bumpRelease, SV.pMajor, SV.pMinor, SV.pPatch]; rfl, ?_, rfl⟩⟩
  all_goals
    apply hlt
    · rfl
    · simp [SV.updateRelease, hv, SV.relEq]
    · simp [SV.updateRelease, hv, SV.relLt]

/-- C06 fails for pre-release particles on a final release: 1.0.0 bumped by `a` is 1.0.0a0 < 1.0.0. -/
theorem bump_pre_violated :
    ¬ ∀ (v w : SV) (p : Text), v.bump p = some w → v.lt w = true := by
  intro h
  have := h { release := [1, 0, 0] } { release := [1, 0, 0], pre := some (['a'], 0) } ['a']
  revert this; decide

/-- C06 (partial): bumping a version that is already a pre-release always gives a greater version.
Missing: final releases with a pre-release particle, where it is false. -/
theorem bump_greater_partial (v w : SV) (p : Text) (hpre : v.pre.isSome = true)
    (h : v.bump p = some w) : v.lt w = true := by
  unfold SV.bump at h
  split at h
  · rename_i x y z hv
    obtain ⟨b1, b2, b3⟩ := bump_release_greater v x y z hv
    by_cases h1 : p = SV.pMajor
    · subst h1; obtain ⟨w', hw, hl, _⟩ := b1
      simp [SV.bump, hv] at hw
      rw [hw] at h; simp at h; subst h; exact hl
    by_cases h2 : p = SV.pMinor
    · subst h2; obtain ⟨w', hw, hl, _⟩ := b2
      simp [SV.bump, hv] at hw
      rw [hw] at h; simp at h; subst h; exact hl
    by_cases h3 : p = SV.pPatch
    · subst h3; obtain ⟨w', hw, hl, _⟩ := b3
      simp [SV.bump, hv] at hw
      rw [hw] at h; simp at h; subst h; exact hl
    simp only [SV.bumpRelease, h1, h2, h3, if_false, SV.bumpPre, Option.some.injEq] at h
    cases hp : v.pre with
    | none => rw [hp] at hpre; simp at hpre
    | some tn =>
      obtain ⟨t, n⟩ := tn
      rw [hp] at h
      simp only at h
      by_cases ht : strLt p t = true
      · obtain ⟨w', hw, hl, hw'⟩ := b3
        simp only [ht, if_true] at h
        subst h
        have : ({ SV.updateRelease v [x, y, z + 1] with pre := none } : SV) = w' := by
          rw [hw']; rfl
        rw [this]; exact hl
      · have same : SV.relEq v.release v.release = true := SV.relStage.refl _
        simp only [ht] at h
        by_cases ht2 : strLt t p = true
        · simp [ht2] at h; subst h
          have hne : t ≠ p := by intro e; subst e; rw [strLt_irrefl] at ht2; simp at ht2
          rw [SV.lt_eq_casc]
          simp [SV.cascL, lexL, SV.epoch0, same, hp, SV.preLt, SV.prePairLt, hne, ht2]
        · have heq : t = p := by
            rcases strLt_total t p with e | e | e
            · exact e
            · exact absurd e ht2
            · exact absurd e ht
          simp [ht2] at h; subst h; subst heq
          rw [SV.lt_eq_casc]
          simp [SV.cascL, lexL, SV.epoch0, same, hp, SV.preLt, SV.prePairLt]
  · simp at h

/-- C06. Only three component versions can be bumped. -/
theorem bump_needs_three (v : SV) (p : Text) : (v.bump p).isSome = true ↔ v.release.length = 3 := by
  unfold SV.bump
  split
  · rename_i x y z hv
    split <;> simp [hv]
  · rename_i hne
    constructor
    · intro h; simp at h
    · intro h
      exfalso
      match hr : v.release, h with
      | [x, y, z], _ => exact hne x y z hr

example : (⟨[1, 2, 3], none, some (['r', 'c'], 1), none, none, none⟩ : SV).bump ['a']
    = some { release := [1, 2, 4] } := by decide

/-! ## C49: agreement with PEP 440 -/

/-- C49 fails when dev is combined with pre or post: PEP 440 has 1.0a1 < 1.0a2.dev1 and
1.0 < 1.0.post1.dev1; the code has both the other way around. -/
theorem pep440_order_violated :
    (∃ a b : SV, a.loc = none ∧ b.loc = none ∧ PepBefore a b ∧ b.lt a = true ∧ a.pre.isSome) ∧
    (∃ a b : SV, a.loc = none ∧ b.loc = none ∧ PepBefore a b ∧ b.lt a = true ∧ b.post.isSome) := by
  refine ⟨⟨{ release := [1, 0], pre := some (['a'], 1) },
      { release := [1, 0], pre := some (['a'], 2), dev := some 1 }, rfl, rfl, ?_, by decide, rfl⟩,
    ⟨{ release := [1, 0] }, { release := [1, 0], post := some 1, dev := some 1 },
      rfl, rfl, ?_, by decide, rfl⟩⟩
  · right; refine ⟨rfl, Or.inr ⟨fun i => rfl, Or.inl ?_⟩⟩
    simp [preKey, PreKey.Before]
  · right; refine ⟨rfl, Or.inr ⟨fun i => rfl, Or.inr ⟨rfl, Or.inl trivial⟩⟩⟩

/-- C49 (partial): for versions without local label in which dev is not combined with pre or post,
the code's order is exactly the PEP 440 order.
Missing: dev combined with pre/post, and numeric local labels, where it is false. -/
theorem pep440_order_partial (a b : SV) (ha : a.loc = none) (hb : b.loc = none)
    (da : DevAlone a) (db : DevAlone b) : a.lt b = true ↔ PepBefore a b := by
  have hloc : SV.localLoop (SV.localSegments a.loc) (SV.localSegments b.loc) = false := by
    rw [ha, hb]; exact SV.localLoop_irrefl _
  unfold PepBefore
  by_cases h1 : a.epoch.getD 0 = b.epoch.getD 0
  · by_cases h2 : RelSame a.release b.release
    · have nb : ¬ RelBefore a.release b.release := by
        rintro ⟨i, _, hi⟩; rw [h2 i] at hi; omega
      have h1' : a.epoch0 = b.epoch0 := h1
      have h2' := (SV.relSame_iff _ _).mp h2
      rw [SV.lt_eq_casc]
      simp only [SV.cascL, lexL, h1', h2', hloc, beq_self_eq_true, if_true, h1, h2, nb,
        Nat.lt_irrefl, true_and, false_or]
      clear h1' h2' nb h1 h2 hloc ha hb
      obtain ⟨ar, ae, ap, aq, ad, al⟩ := a
      obtain ⟨br, be, bp, bq, bd, bl⟩ := b
      simp only [DevAlone] at da db
      simp only [preKey]
      cases ad <;> cases bd <;> cases ap <;> cases bp <;> cases aq <;> cases bq <;>
        simp [SV.devLt, SV.preLt, SV.postLt, PreKey.Before, PostBefore, DevBefore] at da db ⊢
      · omega
      · rename_i p q
        have := pre_ne p q
        rw [SV_prePairLt_iff] at this ⊢
        constructor
        · exact fun h => h.2
        · exact fun h => ⟨this h, h⟩
      · rename_i p q _
        rw [SV_prePairLt_iff, Prod.ext_iff]; exact or_comm
      · rename_i p q _
        have := pre_ne p q
        rw [SV_prePairLt_iff] at this ⊢
        constructor
        · exact fun h => h.2
        · exact fun h => ⟨this h, h⟩
      · rename_i p q x y
        rw [SV_prePairLt_iff]
        split
        · rename_i hpq
          subst hpq
          simp [strLt_irrefl]; omega
        · rename_i hpq
          rw [← Prod.ext_iff]; simp [hpq]
      · omega
    · rw [std_lt_by_release a b h1 h2]
      simp [h1, h2]
  · rw [std_lt_by_epoch a b h1]
    simp [h1]

end Pkm
