import Verif.Conda.Model
import Verif.Repos.IndexProps
import Verif.Repos.Props
import Verif.Tags.Props
set_option linter.unusedVariables false
set_option linter.unusedSimpArgs false
/-
C89: what a conda channel offers.
-/
namespace Pkm
open Tags Conda

namespace Spec

/-- The artifacts of a package in a version, in the order of the file. -/
def madeFor (data : Repodata) (name ver : Text) : List Art :=
  data.filter (fun e => decide (e.2.name = name ∧ e.2.version = ver))

/-- An artifact can be installed, with the score its tag has for the interpreter: its dependencies can be read, none
of them is impossible, and the interpreter takes its tag. -/
def Installable (env : UrlEnv) (sys : Sys) (sd : Subdir) (a : Art) (s : Score) : Prop :=
  ∃ all tag, allDeps env sd a.2.depends = .ok all ∧ compatTag sd all = .ok tag ∧
    compatibilityScore sys tag = some s ∧ ∀ d ∈ all, d.name ≠ t!"python" → possible d = true

/-- Is the request one for a certain artifact. -/
def AsksForUrl : VSpec → Prop
  | .vmatch (.url _ _ _) true => True
  | _ => False

end Spec
open Spec

namespace Conda

/-! ### the packages of a subdirectory -/

theorem general_eq (sd : Subdir) (n : Text) : general sd n = (packages sd).filter (fun p => decide (p.name = n)) := by
  unfold general
  rw [groupby_groups]
  split
  · rename_i h
    split at h
    · cases h
    · cases h; rfl
  · rename_i h
    split at h
    · rename_i e; exact (List.isEmpty_iff.mp e).symm
    · cases h

theorem mem_packages (sd : Subdir) (p : Pkg) :
    p ∈ packages sd ↔ p.artifacts = madeFor sd.data p.name p.ver ∧ p.artifacts ≠ [] := by
  have hwf := (groupby_keys sd.data (fun e => (e.2.name, e.2.version))).1
  have hg := groupby_groups sd.data (fun e : Art => (e.2.name, e.2.version)) (p.name, p.ver)
  have hf : sd.data.filter (fun x : Art => decide ((x.2.name, x.2.version) = (p.name, p.ver))) =
      madeFor sd.data p.name p.ver := by
    unfold madeFor
    congr 1
    funext e
    simp [Prod.mk.injEq]
  rw [hf] at hg
  unfold packages
  simp only [List.mem_map]
  constructor
  · rintro ⟨g, hg', rfl⟩
    have := Dict.mem_get _ g.1 g.2 hwf hg'
    simp only at hg ⊢
    have e : (g.1.1, g.1.2) = g.1 := rfl
    rw [e, this] at hg
    split at hg
    · cases hg
    · rename_i hne
      simp only [Option.some.injEq] at hg
      refine ⟨hg, ?_⟩
      rw [hg]
      intro e; rw [e] at hne; exact hne rfl
  · rintro ⟨h1, h2⟩
    rw [if_neg (by rw [← h1]; simpa using h2)] at hg
    exact ⟨_, Dict.get_mem _ _ _ hg, by cases p; simp only at *; rw [h1]⟩

theorem packages_nodup (sd : Subdir) : ((packages sd).map (fun p => (p.name, p.ver))).Nodup := by
  have h := (groupby_keys sd.data (fun e => (e.2.name, e.2.version))).1
  unfold packages
  rw [List.map_map]
  exact h

theorem general_nodup (sd : Subdir) (n : Text) : ((general sd n).map (·.ver)).Nodup := by
  rw [general_eq]
  have h := packages_nodup sd
  rw [List.Nodup, List.pairwise_map] at h ⊢
  refine List.Pairwise.imp_of_mem ?_ (h.filter _)
  intro a b ha hb hab e
  simp only [List.mem_filter, decide_eq_true_eq] at ha hb
  exact hab (by rw [ha.2, hb.2, e])

theorem allowed_ok (env : UrlEnv) (spec : VSpec) : ∀ (ps : List Pkg) (r : List (Ver × Pkg)),
    allowed env spec ps = .ok r →
    r = (ps.filter (fun p => spec.allows (parseVersion env p.ver))).map (fun p => (parseVersion env p.ver, p))
  | [], r, h => by simp only [allowed, Except.ok.injEq] at h; subst h; rfl
  | p :: ps, r, h => by
    simp only [allowed] at h
    cases hv : p.version env with
    | error e => simp [hv] at h
    | ok v =>
      simp only [hv] at h
      have ev : v = parseVersion env p.ver := by
        unfold Pkg.version at hv
        split at hv
        · cases hv; rfl
        · cases hv
      subst ev
      cases hr : allowed env spec ps with
      | error e => simp [hr] at h
      | ok q =>
        simp only [hr, Except.ok.injEq] at h
        rw [← h, allowed_ok env spec ps q hr]
        by_cases hs : spec.allows (parseVersion env p.ver) = true
        · simp [hs]
        · simp [hs]

theorem allowed_total (env : UrlEnv) (spec : VSpec) : ∀ (ps : List Pkg), (∀ p ∈ ps, descriptorName p.name ≠ none) →
    ∃ r, allowed env spec ps = .ok r
  | [], _ => ⟨_, rfl⟩
  | p :: ps, h => by
    obtain ⟨r, hr⟩ := allowed_total env spec ps (fun q hq => h q (List.mem_cons_of_mem _ hq))
    have hp := h p (List.mem_cons_self ..)
    have : p.version env = .ok (parseVersion env p.ver) := by
      unfold Pkg.version
      split
      · rfl
      · rename_i e; exact absurd e hp
    exact ⟨_, by simp only [allowed, this, hr]; rfl⟩

theorem allowed_fails (env : UrlEnv) (spec : VSpec) : ∀ (ps : List Pkg) (p : Pkg), p ∈ ps → descriptorName p.name = none →
    ∃ e, allowed env spec ps = .error e
  | [], _, h, _ => by simp at h
  | q :: ps, p, h, hn => by
    simp only [allowed]
    cases hv : q.version env with
    | error e => exact ⟨e, by simp only [hv]⟩
    | ok v =>
      simp only [hv]
      rcases List.mem_cons.mp h with e | e
      · subst e
        simp [Pkg.version, hn] at hv
      · obtain ⟨x, hx⟩ := allowed_fails env spec ps p e hn
        exact ⟨x, by simp only [hx]⟩

theorem doMatch_general (env : UrlEnv) (r : Repo) (pl : Platform) (d : Dep) (h : ¬ AsksForUrl d.spec) :
    doMatch env r pl d = matchGeneral env r pl d := by
  unfold doMatch
  split
  · rename_i e; rw [e] at h; exact absurd trivial h
  · rfl

theorem sortDown_mem (l : List (Ver × Pkg)) (p : Ver × Pkg) : p ∈ sortDown l ↔ p ∈ l := (sortBy_perm _ l).mem_iff

theorem sortDown_sorted (ps : List (Ver × Pkg)) (h : ∀ p ∈ ps, NoLabel p.1) :
    (sortDown ps).Pairwise (fun a b => a.1.lt b.1 = false) := by
  have e : sortDown ps = sortBy (fun a b : Ver × Pkg => !((Index.clean a.1).lt (Index.clean b.1))) ps := by
    apply Index.sortBy_congr
    intro a ha b hb
    rw [Index.clean_id _ (h a ha), Index.clean_id _ (h b hb)]
  have hs := sortBy_sorted (fun a b : Ver × Pkg => !((Index.clean a.1).lt (Index.clean b.1)))
    (fun a b => by
      cases hab : (Index.clean a.1).lt (Index.clean b.1) with
      | false => left; rfl
      | true => right; rw [version_lt_asymm _ _ hab]; rfl)
    (fun a b c hab hbc => by
      simp only [Bool.not_eq_true'] at *
      exact Index.clean_neg_trans _ _ _ hab hbc) ps
  rw [e]
  refine List.Pairwise.imp_of_mem ?_ hs
  intro a b ha hb hab
  have ha := (sortBy_perm _ ps).mem_iff.mp ha
  have hb := (sortBy_perm _ ps).mem_iff.mp hb
  simp only [Bool.not_eq_true'] at hab
  rwa [Index.clean_id _ (h a ha), Index.clean_id _ (h b hb)] at hab

end Conda

/-! ### what is offered -/

/-- C89. Asked for versions of a package, a conda channel gives the packages of the subdirectory of the platform that have
exactly this name and a version that is allowed, each with all the artifacts made for it, and none twice. -/
theorem conda_offers (env : UrlEnv) (r : Repo) (pl : Platform) (d : Dep) (s : Text) (l : List (Subdir × Ver × Pkg))
    (hd : ¬ AsksForUrl d.spec) (hs : subdirOf pl = .ok s) (h : doMatch env r pl d = .ok l) :
    (∀ x, x ∈ l ↔ ∃ p : Pkg, x = (⟨r.channel, s, r.serve s⟩, parseVersion env p.ver, p) ∧ p.name = d.name ∧
      p.artifacts = madeFor (r.serve s) d.name p.ver ∧ p.artifacts ≠ [] ∧ d.spec.allows (parseVersion env p.ver) = true) ∧
    (l.map (·.2.2.ver)).Nodup := by
  rw [doMatch_general env r pl d hd] at h
  simp only [matchGeneral, hs] at h
  cases ha : allowed env d.spec (general (r.subdir s) d.name) with
  | error e => simp [ha] at h
  | ok ps =>
    simp only [ha, Except.ok.injEq] at h
    subst h
    have e := allowed_ok env d.spec _ ps ha
    constructor
    · intro x
      simp only [List.mem_map, Conda.sortDown_mem]
      rw [e]
      simp only [List.mem_map, List.mem_filter, general_eq, decide_eq_true_eq, mem_packages]
      constructor
      · rintro ⟨_, ⟨p, ⟨⟨⟨h1, h2⟩, h3⟩, h4⟩, rfl⟩, rfl⟩
        exact ⟨p, rfl, h3, by rw [← h3]; exact h1, h2, h4⟩
      · rintro ⟨p, rfl, h3, h1, h2, h4⟩
        exact ⟨_, ⟨p, ⟨⟨⟨by rw [h3]; exact h1, h2⟩, h3⟩, h4⟩, rfl⟩, rfl⟩
    · rw [List.map_map]
      have hp : ((sortDown ps).map ((fun x : Subdir × Ver × Pkg => x.2.2.ver) ∘ fun p => (r.subdir s, p))).Perm
          (ps.map (fun p => p.2.ver)) := (sortBy_perm _ ps).map _
      rw [hp.nodup_iff, e, List.map_map]
      exact (general_nodup (r.subdir s) d.name).sublist (List.filter_sublist.map _)

/-- C89. They come newest first. (Partial: for versions without local labels, as labels have no order: see C02.) -/
theorem conda_order_partial (env : UrlEnv) (r : Repo) (pl : Platform) (d : Dep) (l : List (Subdir × Ver × Pkg))
    (hd : ¬ AsksForUrl d.spec) (h : doMatch env r pl d = .ok l) (hl : ∀ x ∈ l, NoLabel x.2.1) :
    l.Pairwise (fun a b => a.2.1.lt b.2.1 = false) := by
  rw [doMatch_general env r pl d hd] at h
  simp only [matchGeneral] at h
  cases hs : subdirOf pl with
  | error e => simp [hs] at h
  | ok s =>
    simp only [hs] at h
    cases ha : allowed env d.spec (general (r.subdir s) d.name) with
    | error e => simp [ha] at h
    | ok ps =>
      simp only [ha, Except.ok.injEq] at h
      subst h
      rw [List.pairwise_map]
      apply sortDown_sorted
      intro p hp
      exact hl _ (List.mem_map_of_mem ((Conda.sortDown_mem ps p).mpr hp))

/-- C89. On a platform that is known, the channel answers every request for a package name that packages can have. -/
theorem conda_answers (env : UrlEnv) (r : Repo) (pl : Platform) (d : Dep) (s : Text) (hd : ¬ AsksForUrl d.spec)
    (hs : subdirOf pl = .ok s) (hn : descriptorName d.name ≠ none) : ∃ l, doMatch env r pl d = .ok l := by
  rw [doMatch_general env r pl d hd]
  obtain ⟨ps, h⟩ := allowed_total env d.spec (general (r.subdir s) d.name) (fun p hp => by
    rw [general_eq, List.mem_filter] at hp
    rw [of_decide_eq_true hp.2]
    exact hn)
  exact ⟨_, by simp only [matchGeneral, hs, h]; rfl⟩

/-! ### the best artifact -/

namespace Conda

theorem scored_mem (env : UrlEnv) (sys : Sys) (sd : Subdir) : ∀ (as : List Art) (r : List (Art × Score × Nat)),
    scored env sys sd as = .ok r → ∀ x, x ∈ r ↔ x.1 ∈ as ∧ Installable env sys sd x.1 x.2.1 ∧ x.2.2 = x.1.2.buildNumber
  | [], r, h => by simp only [scored, Except.ok.injEq] at h; subst h; simp
  | a :: as, r, h => by
    simp only [scored] at h
    cases ha : allDeps env sd a.2.depends with
    | error e => simp [ha] at h
    | ok all =>
      simp only [ha] at h
      cases ht : compatTag sd all with
      | error e => simp [ht] at h
      | ok tag =>
        simp only [ht] at h
        cases hq : scored env sys sd as with
        | error e => simp [hq] at h
        | ok q =>
          simp only [hq] at h
          have ih := scored_mem env sys sd as q hq
          have hdeps : ((depsOf all).all possible = true) ↔ ∀ d ∈ all, d.name ≠ t!"python" → possible d = true := by
            simp [depsOf, List.mem_filter, Decidable.or_iff_not_imp_left]
          have hinst : ∀ s, Installable env sys sd a s ↔ compatibilityScore sys tag = some s ∧
              ∀ d ∈ all, d.name ≠ t!"python" → possible d = true := by
            intro s
            constructor
            · rintro ⟨all', tag', h1, h2, h3, h4⟩
              rw [ha] at h1; cases h1
              rw [ht] at h2; cases h2
              exact ⟨h3, h4⟩
            · rintro ⟨h3, h4⟩; exact ⟨all, tag, ha, ht, h3, h4⟩
          intro x
          cases hsc : compatibilityScore sys tag with
          | none =>
            simp only [hsc, Except.ok.injEq] at h
            subst h
            rw [ih x]
            constructor
            · rintro ⟨h1, h2⟩; exact ⟨List.mem_cons_of_mem _ h1, h2⟩
            · rintro ⟨h1, h2, h3⟩
              rcases List.mem_cons.mp h1 with e | e
              · rw [e, hinst, hsc] at h2; exact absurd h2.1 (by simp)
              · exact ⟨e, h2, h3⟩
          | some s =>
            simp only [hsc, Except.ok.injEq] at h
            subst h
            obtain ⟨xa, xs, xn⟩ := x
            by_cases hp : (depsOf all).all possible = true
            · rw [if_pos hp, List.mem_cons, ih]
              constructor
              · rintro (e | ⟨h1, h2⟩)
                · cases e
                  exact ⟨List.mem_cons_self .., (hinst s).mpr ⟨hsc, hdeps.mp hp⟩, rfl⟩
                · exact ⟨List.mem_cons_of_mem _ h1, h2⟩
              · rintro ⟨h1, h2, h3⟩
                rcases List.mem_cons.mp h1 with e | e
                · left
                  simp only at e h2 h3
                  subst e
                  rw [hinst, hsc] at h2
                  obtain ⟨h2, _⟩ := h2
                  cases h2
                  rw [h3]
                · right; exact ⟨e, h2, h3⟩
            · rw [if_neg hp, ih]
              constructor
              · rintro ⟨h1, h2⟩; exact ⟨List.mem_cons_of_mem _ h1, h2⟩
              · rintro ⟨h1, h2, h3⟩
                rcases List.mem_cons.mp h1 with e | e
                · simp only at e h2
                  subst e
                  exact absurd (hdeps.mpr ((hinst xs).mp h2).2) hp
                · exact ⟨e, h2, h3⟩

theorem keyLt_irrefl (a : Score × Nat) : keyLt a a = false := by simp [keyLt, scoreLt_irrefl]

theorem keyLt_asymm {a b : Score × Nat} (h : keyLt a b = true) : keyLt b a = false := by
  simp only [keyLt] at *
  by_cases x : scoreLt a.1 b.1 = true
  · simp [x, scoreLt_asymm x]
  · by_cases y : scoreLt b.1 a.1 = true
    · simp [x, y] at h
    · simp only [x, y, if_false, Bool.false_eq_true, decide_eq_true_eq, decide_eq_false_iff_not] at *
      omega

theorem keyLe_trans (a b c : Score × Nat) (h1 : keyLt b a = false) (h2 : keyLt c b = false) : keyLt c a = false := by
  simp only [keyLt] at *
  have x1 : scoreLt b.1 a.1 = false := by
    cases h : scoreLt b.1 a.1 with
    | false => rfl
    | true => simp [h] at h1
  have x2 : scoreLt c.1 b.1 = false := by
    cases h : scoreLt c.1 b.1 with
    | false => rfl
    | true => simp [h] at h2
  have x3 := scoreLe_trans _ _ _ x1 x2
  simp only [x1, x2, x3, if_false, Bool.false_eq_true] at h1 h2 ⊢
  by_cases y : scoreLt a.1 c.1 = true
  · simp [y]
  · have y' : scoreLt a.1 c.1 = false := by simpa using y
    have z1 : scoreLt a.1 b.1 = false := scoreLe_trans _ _ _ x2 y'
    have z2 : scoreLt b.1 c.1 = false := scoreLe_trans _ _ _ y' x1
    simp only [y', z1, z2, if_false, Bool.false_eq_true, decide_eq_false_iff_not] at h1 h2 ⊢
    omega

theorem maxFrom_max : ∀ (xs : List (Art × Score × Nat)) (b : Art × Score × Nat),
    maxFrom b xs ∈ b :: xs ∧ ∀ x ∈ b :: xs, keyLt (maxFrom b xs).2 x.2 = false
  | [], b => by simp [maxFrom, keyLt_irrefl]
  | y :: ys, b => by
    obtain ⟨h1, h2⟩ := maxFrom_max ys (if keyLt b.2 y.2 then y else b)
    simp only [maxFrom]
    by_cases h : keyLt b.2 y.2 = true
    · simp only [h, if_true] at h1 h2 ⊢
      refine ⟨List.mem_cons_of_mem _ h1, ?_⟩
      intro x hx
      rcases List.mem_cons.mp hx with e | hx
      · rw [e]
        exact keyLe_trans _ _ _ (keyLt_asymm h) (h2 y (List.mem_cons_self ..))
      · exact h2 x hx
    · simp only [h, if_false, Bool.false_eq_true] at h1 h2 ⊢
      refine ⟨?_, ?_⟩
      · rcases List.mem_cons.mp h1 with e | e
        · rw [e]; exact List.mem_cons_self ..
        · exact List.mem_cons_of_mem _ (List.mem_cons_of_mem _ e)
      · intro x hx
        rcases List.mem_cons.mp hx with e | hx
        · rw [e]; exact h2 b (List.mem_cons_self ..)
        · rcases List.mem_cons.mp hx with e | hx
          · rw [e]
            exact keyLe_trans _ _ _ (by simpa using h) (h2 b (List.mem_cons_self ..))
          · exact h2 x (List.mem_cons_of_mem _ hx)

end Conda

/-- C89. The artifact that is installed for a package is one of its artifacts that can be installed; no other one that
can be installed has a better score, and none of the same score has a higher build number. -/
theorem conda_best (env : UrlEnv) (sys : Sys) (sd : Subdir) (p : Pkg) (a : Art)
    (h : best env sys sd p = .ok (some a)) :
    a ∈ p.artifacts ∧ ∃ s, Installable env sys sd a s ∧ ∀ b t, b ∈ p.artifacts → Installable env sys sd b t →
      scoreLt s t = false ∧ (scoreLt t s = false → b.2.buildNumber ≤ a.2.buildNumber) := by
  simp only [best] at h
  cases hs : scored env sys sd p.artifacts with
  | error e => simp [hs] at h
  | ok r =>
    simp only [hs] at h
    have hm := scored_mem env sys sd p.artifacts r hs
    cases r with
    | nil => simp at h
    | cons x xs =>
      simp only [Except.ok.injEq, Option.some.injEq] at h
      subst h
      obtain ⟨h1, h2⟩ := maxFrom_max xs x
      obtain ⟨k1, k2, k3⟩ := (hm _).mp h1
      refine ⟨k1, _, k2, ?_⟩
      intro b t hb ht
      have hbm := (hm (b, t, b.2.buildNumber)).mpr ⟨hb, ht, rfl⟩
      have hk := h2 _ hbm
      simp only [keyLt] at hk
      constructor
      · cases hq : scoreLt (maxFrom x xs).2.1 t with
        | false => rfl
        | true => simp [hq] at hk
      · intro hq
        have hq' : scoreLt (maxFrom x xs).2.1 t = false := by
          cases hq' : scoreLt (maxFrom x xs).2.1 t with
          | false => rfl
          | true => simp [hq'] at hk
        simp only [hq, hq', if_false, Bool.false_eq_true, decide_eq_false_iff_not, k3] at hk
        omega

/-- C89. No artifact is chosen only if none of them can be installed. -/
theorem conda_best_exists (env : UrlEnv) (sys : Sys) (sd : Subdir) (p : Pkg) (h : best env sys sd p = .ok none) :
    ∀ a s, a ∈ p.artifacts → ¬ Installable env sys sd a s := by
  simp only [best] at h
  cases hs : scored env sys sd p.artifacts with
  | error e => simp [hs] at h
  | ok r =>
    simp only [hs] at h
    have hm := scored_mem env sys sd p.artifacts r hs
    cases r with
    | cons x xs => simp at h
    | nil =>
      intro a s ha hi
      have := (hm (a, s, a.2.buildNumber)).mpr ⟨ha, hi, rfl⟩
      simp at this

namespace Conda

theorem compatible_mem (env : UrlEnv) (sys : Sys) : ∀ (l r : List (Subdir × Ver × Pkg)), compatible env sys l = .ok r →
    ∀ x, x ∈ r ↔ x ∈ l ∧ ∃ a, best env sys x.1 x.2.2 = .ok (some a)
  | [], r, h => by simp only [compatible, Except.ok.injEq] at h; subst h; simp
  | p :: ps, r, h => by
    simp only [compatible] at h
    cases hb : best env sys p.1 p.2.2 with
    | error e => simp [hb] at h
    | ok b =>
      simp only [hb] at h
      cases hq : compatible env sys ps with
      | error e => simp [hq] at h
      | ok q =>
        simp only [hq, Except.ok.injEq] at h
        subst h
        have ih := compatible_mem env sys ps q hq
        intro x
        cases b with
        | none =>
          simp only [Option.isSome_none, Bool.false_eq_true, if_false]
          rw [ih x, List.mem_cons]
          constructor
          · rintro ⟨h1, h2⟩; exact ⟨.inr h1, h2⟩
          · rintro ⟨h1 | h1, a, h2⟩
            · rw [h1, hb] at h2; simp at h2
            · exact ⟨h1, a, h2⟩
        | some b =>
          simp only [Option.isSome_some, if_true]
          rw [List.mem_cons, ih x, List.mem_cons]
          constructor
          · rintro (h1 | ⟨h1, h2⟩)
            · subst h1; exact ⟨.inl rfl, b, hb⟩
            · exact ⟨.inr h1, h2⟩
          · rintro ⟨h1 | h1, h2⟩
            · exact .inl h1
            · exact .inr ⟨h1, h2⟩

end Conda

/-- C89. Matching gives exactly the packages with an artifact that can be installed; of these the pre-releases only if the
request allows them or there is nothing else. -/
theorem conda_match (env : UrlEnv) (sys : Sys) (r : Repo) (pl : Platform) (d : Dep) (m l : List (Subdir × Ver × Pkg))
    (hm : doMatch env r pl d = .ok m) (h : find env sys r pl d = .ok l) (x : Subdir × Ver × Pkg) :
    x ∈ l ↔ x ∈ m ∧ (∃ a, best env sys x.1 x.2.2 = .ok (some a)) ∧
      (x.2.1.isPreOrDev = false ∨ d.spec.allowsPre = true ∨
        ∀ y ∈ m, (∃ a, best env sys y.1 y.2.2 = .ok (some a)) → y.2.1.isPreOrDev = true) := by
  simp only [find, hm] at h
  cases hc : compatible env sys m with
  | error e => simp [hc] at h
  | ok c =>
    simp only [hc, Except.ok.injEq] at h
    rw [filterPre_eq] at h
    have hmem := compatible_mem env sys m c hc
    subst h
    by_cases hall : d.spec.allowsPre = true ∨ ∀ p ∈ c, p.2.1.isPreOrDev = true
    · rw [if_pos hall, hmem]
      constructor
      · rintro ⟨h1, h2⟩
        refine ⟨h1, h2, .inr ?_⟩
        rcases hall with h3 | h3
        · exact .inl h3
        · exact .inr (fun y hy ha => h3 y ((hmem y).mpr ⟨hy, ha⟩))
      · rintro ⟨h1, h2, _⟩
        exact ⟨h1, h2⟩
    · rw [if_neg hall, List.mem_filter, hmem]
      constructor
      · rintro ⟨⟨h1, h2⟩, h3⟩
        exact ⟨h1, h2, .inl (by simpa using h3)⟩
      · rintro ⟨h1, h2, h3⟩
        refine ⟨⟨h1, h2⟩, ?_⟩
        rcases h3 with h3 | h3 | h3
        · simp [h3]
        · exact absurd (.inl h3) hall
        · exact absurd (.inr (fun p hp => h3 p ((hmem p).mp hp).1 ((hmem p).mp hp).2)) hall

end Pkm
