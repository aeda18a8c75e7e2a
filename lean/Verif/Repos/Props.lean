import Verif.Repos.Model
import Verif.Collections.Props
set_option linter.unusedVariables false
set_option linter.unusedSimpArgs false
/-
Properties C36 (pre-releases), C37 (best artifact), C38 (composite repositories) and C39 (lookup chain).
-/
namespace Pkm
open Repos
variable {P : Type}

/-! ## C36 -/

theorem filterPre_eq (isPre : P → Bool) (ps : List P) (allows : Bool) :
    filterPre isPre ps allows =
      if allows = true ∨ ∀ p ∈ ps, isPre p = true then ps else ps.filter (fun p => !isPre p) := by
  unfold filterPre
  rw [(partition_exact ps isPre).1]
  cases allows with
  | true => simp
  | false =>
    simp only [Bool.false_eq_true, if_false, false_or]
    by_cases h : ∀ p ∈ ps, isPre p = true
    · rw [if_pos h, if_pos]
      simpa using h
    · rw [if_neg h, if_neg]
      simpa using h

/-- C36: what `match` returns, given what the repository found: the compatible packages, all of them if
pre-releases are allowed or nothing else is there, otherwise exactly the final releases, in order. -/
theorem match_result (I : PkgInfo P) (q : Query) (found : List P) :
    abstractMatch I q found =
      if q.allowsPre = true ∨ ∀ p ∈ found, I.compatible p = true → I.isPre p = true
      then found.filter I.compatible
      else found.filter (fun p => I.compatible p && !I.isPre p) := by
  unfold abstractMatch
  rw [filterPre_eq]
  have e : (∀ p ∈ found.filter I.compatible, I.isPre p = true) ↔
      ∀ p ∈ found, I.compatible p = true → I.isPre p = true := by
    simp [List.mem_filter]
  simp only [e, List.filter_filter]
  have e2 : (fun p => I.compatible p && !I.isPre p) = fun p => !I.isPre p && I.compatible p := by
    funext p; exact Bool.and_comm _ _
  rw [e2]

/-- C36: a pre-release is only offered if asked for or if no final release matches. -/
theorem pre_release_only_if (I : PkgInfo P) (q : Query) (found : List P) (p : P)
    (hp : p ∈ abstractMatch I q found) (hpre : I.isPre p = true) :
    q.allowsPre = true ∨ ∀ r ∈ found, I.compatible r = true → I.isPre r = true := by
  rw [match_result] at hp
  split at hp
  · rename_i h; exact h
  · simp [List.mem_filter, hpre] at hp

/-- C36: every final release that matches is offered, and nothing incompatible or not found. -/
theorem final_release_offered (I : PkgInfo P) (q : Query) (found : List P) (p : P) :
    (p ∈ found → I.compatible p = true → I.isPre p = false → p ∈ abstractMatch I q found) ∧
    (p ∈ abstractMatch I q found → p ∈ found ∧ I.compatible p = true) ∧
    (abstractMatch I q found = [] ↔ ∀ r ∈ found, I.compatible r = false) := by
  rw [match_result]
  refine ⟨?_, ?_, ?_⟩
  · intro h1 h2 h3
    split <;> simp [List.mem_filter, h1, h2, h3]
  · intro h
    split at h <;> simp [List.mem_filter] at h
    · exact h
    · exact ⟨h.1, h.2.1⟩
  · split
    · simp [List.filter_eq_nil_iff]
    · rename_i hn
      constructor
      · intro h
        exfalso
        apply hn
        right
        intro p hp hc
        rw [List.filter_eq_nil_iff] at h
        have := h p hp
        simpa [hc] using this
      · intro h
        rw [List.filter_eq_nil_iff]
        intro p hp; simp [h p hp]

/-- C36: matching the answer of another repository again changes nothing. -/
theorem match_idempotent (I : PkgInfo P) (q : Query) (found : List P) :
    abstractMatch I q (abstractMatch I q found) = abstractMatch I q found := by
  have key : ∀ l : List P, abstractMatch I q l = l ↔
      (∀ p ∈ l, I.compatible p = true) ∧
      (q.allowsPre = true ∨ (∀ p ∈ l, I.isPre p = true) ∨ ∀ p ∈ l, I.isPre p = false) := by
    intro l
    rw [match_result]
    constructor
    · intro h
      split at h
      · rename_i hc
        rw [List.filter_eq_self] at h
        refine ⟨h, ?_⟩
        rcases hc with hc | hc
        · exact Or.inl hc
        · exact Or.inr (Or.inl (fun p hp => hc p hp (h p hp)))
      · rw [List.filter_eq_self] at h
        simp only [Bool.and_eq_true, Bool.not_eq_true'] at h
        exact ⟨fun p hp => (h p hp).1, Or.inr (Or.inr (fun p hp => (h p hp).2))⟩
    · rintro ⟨h1, h2⟩
      split
      · rw [List.filter_eq_self]; exact h1
      · rename_i hn
        rw [List.filter_eq_self]
        rcases h2 with h2 | h2 | h2
        · exact absurd (Or.inl h2) hn
        · exact absurd (Or.inr (fun p hp _ => h2 p hp)) hn
        · intro p hp; simp [h1 p hp, h2 p hp]
  rw [key, match_result]
  split
  · rename_i h
    refine ⟨by simp [List.mem_filter], ?_⟩
    rcases h with h | h
    · exact Or.inl h
    · exact Or.inr (Or.inl (by simpa [List.mem_filter] using h))
  · refine ⟨fun p hp => ?_, Or.inr (Or.inr (by simp [List.mem_filter]))⟩
    have := (List.mem_filter.1 hp).2
    simp at this; exact this.1

/-- Packages are numbers, the odd ones are pre-releases, numbers above 9 are incompatible. -/
example :
    let I : PkgInfo Nat := ⟨fun n => n ≤ 9, fun n => n % 2 == 1⟩
    abstractMatch I ⟨[], none, false⟩ [11, 5, 4, 2] = [4, 2] ∧
    abstractMatch I ⟨[], none, false⟩ [12, 5, 3] = [5, 3] ∧
    abstractMatch I ⟨[], none, true⟩ [5, 4] = [5, 4] := by decide

/-! ## C37 -/

namespace Spec

/-- An artifact that can be installed: its Python requirement lets the interpreter through and, if it is
a wheel, one of its tags has a score. -/
def Usable {S : Type} (interp : Ver) (score : Text → Option S) (a : Artifact) : Prop :=
  (∀ s, a.requires = some s → s.allows interp = true) ∧
  (a.isBinary = true → ∃ s, score a.fileName = some s)

end Spec
open Spec

theorem pythonOk_iff (interp : Ver) (a : Artifact) :
    a.pythonOk interp = true ↔ ∀ s, a.requires = some s → s.allows interp = true := by
  unfold Artifact.pythonOk
  cases a.requires <;> simp

/-- What is known after the artifacts `done`. -/
structure BestInv {S : Type} (interp : Ver) (score : Text → Option S) (lt : S → S → Bool)
    (done : List Artifact) (source : Option Artifact) (best : Option (Artifact × S)) : Prop where
  source_none : source = none → ∀ a ∈ done, Usable interp score a → a.isBinary = true
  source_some : ∀ a, source = some a → Usable interp score a ∧ a.isBinary = false ∧
    ∃ pre post, done = pre ++ a :: post ∧ ∀ b ∈ post, Usable interp score b → b.isBinary = true
  best_none : best = none → ∀ a ∈ done, Usable interp score a → a.isBinary = false
  best_some : ∀ a t, best = some (a, t) → Usable interp score a ∧ a.isBinary = true ∧
    score a.fileName = some t ∧
    (∃ pre post, done = pre ++ a :: post ∧
      ∀ b ∈ pre, Usable interp score b → b.isBinary = true → ∀ s, score b.fileName = some s → lt s t = true) ∧
    ∀ b ∈ done, Usable interp score b → b.isBinary = true → ∀ s, score b.fileName = some s → lt t s = false

theorem bestLoop_spec {S : Type} (interp : Ver) (score : Text → Option S) (lt : S → S → Bool)
    (irrefl : ∀ a, lt a a = false)
    (trans : ∀ a b c, lt a b = true → lt b c = true → lt a c = true)
    (negtrans : ∀ a b c, lt a b = false → lt b c = false → lt a c = false)
    (todo : List Artifact) : ∀ (done : List Artifact) (source : Option Artifact)
    (best : Option (Artifact × S)), BestInv interp score lt done source best →
    ∃ source' best', BestInv interp score lt (done ++ todo) source' best' ∧
      bestLoop interp score lt todo source best =
        (match best' with
         | some (a, _) => some a
         | none => source') := by
  induction todo with
  | nil => intro done source best h; exact ⟨source, best, by simpa using h, by unfold bestLoop; cases best <;> rfl⟩
  | cons a todo ih =>
    intro done source best h
    have happ : done ++ a :: todo = (done ++ [a]) ++ todo := by simp
    rw [happ]
    -- an artifact that is not usable changes nothing
    have skip : ¬ Usable interp score a → BestInv interp score lt (done ++ [a]) source best := by
      intro hu
      refine ⟨?_, ?_, ?_, ?_⟩
      · intro hs b hb hub
        rcases List.mem_append.1 hb with hb | hb
        · exact h.source_none hs b hb hub
        · simp at hb; subst hb; exact absurd hub hu
      · intro b hb
        obtain ⟨h1, h2, pre, post, he, hpost⟩ := h.source_some b hb
        refine ⟨h1, h2, pre, post ++ [a], by simp [he], ?_⟩
        intro c hc huc
        rcases List.mem_append.1 hc with hc | hc
        · exact hpost c hc huc
        · simp at hc; subst hc; exact absurd huc hu
      · intro hs b hb hub
        rcases List.mem_append.1 hb with hb | hb
        · exact h.best_none hs b hb hub
        · simp at hb; subst hb; exact absurd hub hu
      · intro b t hb
        obtain ⟨h1, h2, h3, ⟨pre, post, he, hpre⟩, h5⟩ := h.best_some b t hb
        refine ⟨h1, h2, h3, ⟨pre, post ++ [a], by simp [he], hpre⟩, ?_⟩
        intro c hc huc hbc s hs
        rcases List.mem_append.1 hc with hc | hc
        · exact h5 c hc huc hbc s hs
        · simp at hc; subst hc; exact absurd huc hu
    unfold bestLoop
    by_cases hok : a.pythonOk interp = true
    · rw [if_pos hok]
      by_cases hbin : a.isBinary = true
      · rw [if_pos hbin]
        cases hsc : score a.fileName with
        | none =>
          refine ih (done ++ [a]) source best (skip ?_)
          rintro ⟨_, hu⟩
          obtain ⟨s, hs⟩ := hu hbin
          rw [hsc] at hs; simp at hs
        | some s =>
          have hu : Usable interp score a := ⟨(pythonOk_iff _ _).1 hok, fun _ => ⟨s, hsc⟩⟩
          have hsrc_none : source = none → ∀ b ∈ done ++ [a], Usable interp score b → b.isBinary = true := by
            intro hs b hb hub
            rcases List.mem_append.1 hb with hb | hb
            · exact h.source_none hs b hb hub
            · simp at hb; subst hb; exact hbin
          have hsrc_some : ∀ b, source = some b → Usable interp score b ∧ b.isBinary = false ∧
              ∃ pre post, done ++ [a] = pre ++ b :: post ∧
                ∀ c ∈ post, Usable interp score c → c.isBinary = true := by
            intro b hb
            obtain ⟨h1, h2, pre, post, he, hpost⟩ := h.source_some b hb
            refine ⟨h1, h2, pre, post ++ [a], by simp [he], ?_⟩
            intro c hc huc
            rcases List.mem_append.1 hc with hc | hc
            · exact hpost c hc huc
            · simp at hc; subst hc; exact hbin
          cases best with
          | none =>
            dsimp only
            refine ih (done ++ [a]) source (some (a, s)) ⟨hsrc_none, hsrc_some, by simp, ?_⟩
            intro b t hb
            simp at hb; obtain ⟨rfl, rfl⟩ := hb
            refine ⟨hu, hbin, hsc, ⟨done, [], by simp, ?_⟩, ?_⟩
            · intro b hb hub hbb
              rw [h.best_none rfl b hb hub] at hbb; simp at hbb
            · intro b hb hub hbb s' hs'
              rcases List.mem_append.1 hb with hb | hb
              · rw [h.best_none rfl b hb hub] at hbb; simp at hbb
              · simp at hb; subst hb; rw [hsc] at hs'; simp at hs'; subst hs'; exact irrefl _
          | some bt =>
            obtain ⟨b, t⟩ := bt
            obtain ⟨h1, h2, h3, ⟨pre, post, he, hpre⟩, h5⟩ := h.best_some b t rfl
            dsimp only
            cases hlt : lt t s with
            | true =>
              simp only [if_true]
              refine ih (done ++ [a]) source (some (a, s)) ⟨hsrc_none, hsrc_some, by simp, ?_⟩
              intro c u hc
              simp at hc; obtain ⟨rfl, rfl⟩ := hc
              refine ⟨hu, hbin, hsc, ⟨done, [], by simp, ?_⟩, ?_⟩
              · intro c hc huc hbc s' hs'
                cases hx : lt s' s with
                | true => rfl
                | false =>
                  have := negtrans t s' s (h5 c hc huc hbc s' hs') hx
                  rw [hlt] at this; simp at this
              · intro c hc huc hbc s' hs'
                rcases List.mem_append.1 hc with hc | hc
                · cases hx : lt s s' with
                  | false => rfl
                  | true =>
                    have h6 := h5 c hc huc hbc s' hs'
                    rw [trans t s s' hlt hx] at h6; simp at h6
                · simp at hc; subst hc; rw [hsc] at hs'; simp at hs'; subst hs'; exact irrefl _
            | false =>
              simp only [Bool.false_eq_true, if_false]
              refine ih (done ++ [a]) source (some (b, t)) ⟨hsrc_none, hsrc_some, by simp, ?_⟩
              intro c u hc
              simp at hc; obtain ⟨rfl, rfl⟩ := hc
              refine ⟨h1, h2, h3, ⟨pre, post ++ [a], by simp [he], hpre⟩, ?_⟩
              intro c hc huc hbc s' hs'
              rcases List.mem_append.1 hc with hc | hc
              · exact h5 c hc huc hbc s' hs'
              · simp at hc; subst hc; rw [hsc] at hs'; simp at hs'; subst hs'; exact hlt
      · rw [if_neg hbin]
        have hbin' : a.isBinary = false := by simpa using hbin
        have hu : Usable interp score a :=
          ⟨(pythonOk_iff _ _).1 hok, fun hb => absurd hb hbin⟩
        refine ih (done ++ [a]) (some a) best ⟨by simp, ?_, ?_, ?_⟩
        · intro b hb
          simp at hb; subst hb
          exact ⟨hu, hbin', done, [], by simp, by simp⟩
        · intro hs b hb hub
          rcases List.mem_append.1 hb with hb | hb
          · exact h.best_none hs b hb hub
          · simp at hb; subst hb; exact hbin'
        · intro b t hb
          obtain ⟨h1, h2, h3, ⟨pre, post, he, hpre⟩, h5⟩ := h.best_some b t hb
          refine ⟨h1, h2, h3, ⟨pre, post ++ [a], by simp [he], hpre⟩, ?_⟩
          intro c hc huc hbc s hs
          rcases List.mem_append.1 hc with hc | hc
          · exact h5 c hc huc hbc s hs
          · simp at hc; subst hc; exact absurd hbc hbin
    · rw [if_neg hok]
      refine ih (done ++ [a]) source best (skip ?_)
      rintro ⟨hu, _⟩
      exact hok ((pythonOk_iff _ _).2 hu)

/-- C37: `best_artifact_for` returns nothing exactly if no artifact is usable; a wheel only with maximal
score (the first such one), a source distribution only if no wheel is usable (the last such one). -/
theorem best_artifact_spec {S : Type} (interp : Ver) (score : Text → Option S) (lt : S → S → Bool)
    (irrefl : ∀ a, lt a a = false)
    (trans : ∀ a b c, lt a b = true → lt b c = true → lt a c = true)
    (negtrans : ∀ a b c, lt a b = false → lt b c = false → lt a c = false)
    (artifacts : List Artifact) :
    (bestArtifact interp score lt artifacts = none ↔ ∀ a ∈ artifacts, ¬ Usable interp score a) ∧
    ∀ a, bestArtifact interp score lt artifacts = some a →
      a ∈ artifacts ∧ Usable interp score a ∧
      (a.isBinary = true → ∃ t, score a.fileName = some t ∧
        (∀ b ∈ artifacts, Usable interp score b → b.isBinary = true →
          ∀ s, score b.fileName = some s → lt t s = false) ∧
        ∃ pre post, artifacts = pre ++ a :: post ∧ ∀ b ∈ pre, Usable interp score b → b.isBinary = true →
          ∀ s, score b.fileName = some s → lt s t = true) ∧
      (a.isBinary = false → (∀ b ∈ artifacts, Usable interp score b → b.isBinary = false) ∧
        ∃ pre post, artifacts = pre ++ a :: post ∧ ∀ b ∈ post, ¬ Usable interp score b) := by
  obtain ⟨source, best, hinv, hres⟩ := bestLoop_spec interp score lt irrefl trans negtrans artifacts [] none none
    ⟨by simp, by simp, by simp, by simp⟩
  simp only [List.nil_append] at hinv
  unfold bestArtifact
  rw [hres]
  cases best with
  | some bt =>
    obtain ⟨b, t⟩ := bt
    obtain ⟨h1, h2, h3, ⟨pre, post, he, hpre⟩, h5⟩ := hinv.best_some b t rfl
    have hb : b ∈ artifacts := by rw [he]; simp
    refine ⟨⟨by simp, fun h => absurd h1 (h b hb)⟩, ?_⟩
    intro a ha
    simp at ha; subst ha
    refine ⟨hb, h1, fun _ => ⟨t, h3, h5, pre, post, he, hpre⟩, fun hn => by rw [h2] at hn; simp at hn⟩
  | none =>
    cases source with
    | none =>
      refine ⟨⟨fun _ a ha hu => ?_, fun _ => rfl⟩, by simp⟩
      have h1 := hinv.source_none rfl a ha hu
      have h2 := hinv.best_none rfl a ha hu
      rw [h1] at h2; simp at h2
    | some b =>
      obtain ⟨h1, h2, pre, post, he, hpost⟩ := hinv.source_some b rfl
      have hb : b ∈ artifacts := by rw [he]; simp
      refine ⟨⟨by simp, fun h => absurd h1 (h b hb)⟩, ?_⟩
      intro a ha
      simp at ha; subst ha
      refine ⟨hb, h1, fun hn => by rw [h2] at hn; simp at hn, fun _ => ⟨hinv.best_none rfl, pre, post, he, ?_⟩⟩
      intro c hc huc
      have h3 := hpost c hc huc
      have h4 := hinv.best_none rfl c (by rw [he]; simp [hc]) huc
      rw [h3] at h4; simp at h4

/-- Scores are numbers; two wheels and a source archive. The hypotheses on the order hold. -/
example :
    let src : Artifact := ⟨"p.tar.gz".toList, none⟩
    let w1 : Artifact := ⟨"p1.whl".toList, none⟩
    let w2 : Artifact := ⟨"p22.whl".toList, some .all⟩
    let w3 : Artifact := ⟨"p333.whl".toList, some .none⟩
    let score : Text → Option Nat := fun t => some t.length
    let lt : Nat → Nat → Bool := fun a b => decide (a < b)
    ((bestArtifact (.std { release := [3] }) score lt [src, w1, w3, w2]).map (·.fileName) =
      some "p22.whl".toList) ∧
    ((bestArtifact (.std { release := [3] }) score lt [w3, src]).map (·.fileName) = some "p.tar.gz".toList) ∧
    (bestArtifact (.std { release := [3] }) score lt [w3]).isNone ∧
    (∀ a, lt a a = false) ∧ (∀ a b c, lt a b = true → lt b c = true → lt a c = true) ∧
    (∀ a b c, lt a b = false → lt b c = false → lt a c = false) := by
  refine ⟨by decide, by decide, by decide, ?_, ?_, ?_⟩
  · intro a; simp
  · intro a b c; simp; omega
  · intro a b c; simp; omega

/-! ## C38 -/

/-- C38: a bound package is only asked for at the repository it is bound to (the first one of that name
in the search list). -/
theorem bound_package (search : List (Repo P)) (bindOnly : List Text) (bindings : Dict Text Text) (q : Query)
    (target : Text) (pre post : List (Repo P)) (r : Repo P)
    (hu : q.url = none) (hb : Dict.get bindings q.name = some target) (hne : target ≠ [])
    (hs : search = pre ++ r :: post) (hr : r.name = target) (ha : r.acceptNonUrl = true)
    (hpre : ∀ x ∈ pre, x.name ≠ target) :
    compositeDoMatch search bindOnly bindings q = r.find q := by
  have hbf : (Dict.get bindings q.name).filter (fun n => !n.isEmpty) = some target := by
    rw [hb]; simp [Option.filter, hne]
  have hf : (search.filter (·.acceptNonUrl)).find? (fun r => r.name == target) = some r := by
    subst hs
    rw [List.filter_append, List.filter_cons_of_pos (by simpa using ha), List.find?_append]
    have : (pre.filter (·.acceptNonUrl)).find? (fun r => r.name == target) = none := by
      rw [List.find?_eq_none]
      intro x hx
      simpa using hpre x (List.mem_filter.1 hx).1
    rw [this]
    simp [hr]
  unfold compositeDoMatch
  simp only [hu, hbf, hf]

/-- C38: a package bound to a repository that does not exist is an error, not an unbound lookup. -/
theorem bound_package_missing (search : List (Repo P)) (bindOnly : List Text) (bindings : Dict Text Text)
    (q : Query) (target : Text) (hu : q.url = none) (hb : Dict.get bindings q.name = some target)
    (hne : target ≠ []) (hs : ∀ r ∈ search, r.acceptNonUrl = true → r.name ≠ target) :
    compositeDoMatch search bindOnly bindings q = .error .noSuchElement := by
  have hbf : (Dict.get bindings q.name).filter (fun n => !n.isEmpty) = some target := by
    rw [hb]; simp [Option.filter, hne]
  have hf : (search.filter (·.acceptNonUrl)).find? (fun r => r.name == target) = none := by
    rw [List.find?_eq_none]
    intro x hx
    have := List.mem_filter.1 hx
    simpa using hs x this.1 (by simpa using this.2)
  unfold compositeDoMatch
  simp only [hu, hbf, hf]

theorem firstNonEmpty_spec (q : Query) (rs : List (Repo P)) :
    (∀ found, firstNonEmpty q rs = .ok (some found) ↔
      ∃ pre r post, rs = pre ++ r :: post ∧ (∀ x ∈ pre, x.find q = .ok []) ∧ r.find q = .ok found ∧ found ≠ []) ∧
    (firstNonEmpty q rs = .ok none ↔ ∀ r ∈ rs, r.find q = .ok []) := by
  induction rs with
  | nil => simp [firstNonEmpty]
  | cons r rs ih =>
    unfold firstNonEmpty
    cases hr : r.find q with
    | error e =>
      refine ⟨fun found => ⟨by simp, ?_⟩, ⟨by simp, fun h => by rw [h r (by simp)] at hr; simp at hr⟩⟩
      rintro ⟨pre, r', post, he, hpre, hf, hne⟩
      cases pre with
      | nil => simp at he; rw [← he.1, hr] at hf; simp at hf
      | cons x xs => simp at he; rw [← he.1] at hpre; rw [hpre r (by simp)] at hr; simp at hr
    | ok found0 =>
      dsimp only
      by_cases he0 : found0 = []
      · subst he0
        simp only [List.isEmpty_nil, if_true]
        refine ⟨fun found => ?_, ?_⟩
        · rw [ih.1 found]
          constructor
          · rintro ⟨pre, r', post, he, hpre, hf, hne⟩
            exact ⟨r :: pre, r', post, by simp [he], by simpa [hr] using hpre, hf, hne⟩
          · rintro ⟨pre, r', post, he, hpre, hf, hne⟩
            cases pre with
            | nil => simp at he; rw [← he.1, hr] at hf; simp at hf; exact absurd hf hne
            | cons x xs =>
              simp at he
              exact ⟨xs, r', post, he.2, fun y hy => hpre y (by simp [hy]), hf, hne⟩
        · rw [ih.2]; simp [hr]
      · have : found0.isEmpty = false := by simpa using he0
        simp only [this, Bool.false_eq_true, if_false]
        refine ⟨fun found => ?_, ?_⟩
        · constructor
          · intro h; simp at h; subst h; exact ⟨[], r, rs, rfl, by simp, hr, he0⟩
          · rintro ⟨pre, r', post, he, hpre, hf, hne⟩
            cases pre with
            | nil => simp at he; rw [← he.1, hr] at hf; simp at hf; simp [hf]
            | cons x xs =>
              simp at he
              have := hpre x (by simp)
              rw [← he.1, hr] at this; simp at this; exact absurd this he0
        · simp [hr, he0]

/-- C38: a package without a binding comes from the first repository that has it, in the declared
order and skipping the repositories reserved for bound packages; if no repository has it the answer is
empty. -/
theorem unbound_package (search : List (Repo P)) (bindOnly : List Text) (bindings : Dict Text Text)
    (q : Query) (hu : q.url = none) (hb : Dict.get bindings q.name = none) (found : List P) :
    (found ≠ [] → (compositeDoMatch search bindOnly bindings q = .ok found ↔
      ∃ pre r post, search.filter (fun r => r.acceptNonUrl && !bindOnly.contains r.name) = pre ++ r :: post ∧
        (∀ x ∈ pre, x.find q = .ok []) ∧ r.find q = .ok found)) ∧
    (compositeDoMatch search bindOnly bindings q = .ok [] ↔
      ∀ r ∈ search, r.acceptNonUrl = true → bindOnly.contains r.name = false → r.find q = .ok []) := by
  have hff : (search.filter (·.acceptNonUrl)).filter (fun r => !bindOnly.contains r.name) =
      search.filter (fun r => r.acceptNonUrl && !bindOnly.contains r.name) := by
    rw [List.filter_filter]
    congr 1; funext r; exact Bool.and_comm _ _
  have hspec := firstNonEmpty_spec q (search.filter (fun r => r.acceptNonUrl && !bindOnly.contains r.name))
  have hmem : (∀ r ∈ search.filter (fun r => r.acceptNonUrl && !bindOnly.contains r.name), r.find q = .ok []) ↔
      ∀ r ∈ search, r.acceptNonUrl = true → bindOnly.contains r.name = false → r.find q = .ok [] := by
    simp [List.mem_filter]
  unfold compositeDoMatch
  simp only [hu, hb, Option.filter, hff]
  rw [hmem] at hspec
  generalize firstNonEmpty q (search.filter (fun r => r.acceptNonUrl && !bindOnly.contains r.name)) = res at hspec
  cases res with
  | error e =>
    have h1 := (hspec.1 found)
    have h2 := hspec.2
    simp only [reduceCtorEq, false_iff] at h1 h2
    refine ⟨fun hne => ?_, by simpa using h2⟩
    simp only [reduceCtorEq, false_iff]
    rintro ⟨pre, r, post, a, b, c⟩
    exact h1 ⟨pre, r, post, a, b, c, hne⟩
  | ok o =>
    cases o with
    | none =>
      have h1 := (hspec.1 found)
      have h2 := hspec.2
      simp only [Except.ok.injEq, reduceCtorEq, false_iff] at h1
      refine ⟨fun hne => ?_, by simpa using h2⟩
      constructor
      · intro h; simp at h; exact absurd h hne
      · rintro ⟨pre, r, post, a, b, c⟩
        exact absurd ⟨pre, r, post, a, b, c, hne⟩ h1
    | some f =>
      have h2 := hspec.2
      simp only [Except.ok.injEq, reduceCtorEq, false_iff] at h2
      have hf : f ≠ [] := by
        obtain ⟨_, _, _, _, _, _, h⟩ := (hspec.1 f).1 rfl
        exact h
      refine ⟨fun hne => ?_, ?_⟩
      · have h1 := hspec.1 found
        simp only [Except.ok.injEq, Option.some.injEq] at h1 ⊢
        rw [h1]
        constructor
        · rintro ⟨pre, r, post, a, b, c, d⟩; exact ⟨pre, r, post, a, b, c⟩
        · rintro ⟨pre, r, post, a, b, c⟩; exact ⟨pre, r, post, a, b, c, hne⟩
      · constructor
        · intro h; simp at h; exact absurd h hf
        · intro h; exact absurd h h2

/-- C38 for URL dependencies: the first repository that accepts the protocol and has an answer. If there
is none, the code raises `TypeError` (it executes `raise []`) instead of answering nothing. -/
theorem url_package (search : List (Repo P)) (bindOnly : List Text) (bindings : Dict Text Text)
    (q : Query) (protocol : Text) (hu : q.url = some protocol) :
    (∀ found, compositeDoMatch search bindOnly bindings q = .ok found ↔
      found ≠ [] ∧ ∃ pre r post, search.filter (fun r => r.protocols.contains protocol) = pre ++ r :: post ∧
        (∀ x ∈ pre, x.find q = .ok []) ∧ r.find q = .ok found) ∧
    ((∀ r ∈ search, r.protocols.contains protocol = true → r.find q = .ok []) →
      compositeDoMatch search bindOnly bindings q = .error .typeError) := by
  have hspec := firstNonEmpty_spec q (search.filter (fun r => r.protocols.contains protocol))
  unfold compositeDoMatch
  simp only [hu]
  generalize hres : firstNonEmpty q (search.filter (fun r => r.protocols.contains protocol)) = res at hspec
  refine ⟨fun found => ?_, ?_⟩
  · have h1 := hspec.1 found
    have h3 : (found ≠ [] ∧ ∃ pre r post, search.filter (fun r => r.protocols.contains protocol) = pre ++ r :: post ∧
        (∀ x ∈ pre, x.find q = .ok []) ∧ r.find q = .ok found) ↔ res = .ok (some found) := by
      rw [h1]
      constructor
      · rintro ⟨h, a, b, c, d, e, f⟩; exact ⟨a, b, c, d, e, f, h⟩
      · rintro ⟨a, b, c, d, e, f, h⟩; exact ⟨h, a, b, c, d, e, f⟩
    rw [h3]
    cases res with
    | error e => simp
    | ok o => cases o <;> simp
  · intro h
    have := hspec.2.2 (by simpa [List.mem_filter] using h)
    rw [this]

/-- C38: through nested composite repositories (a configuration that inherits from the next one) the
answer is again the first non-empty one, of the repositories in the order of the chain. `Settled`: the
repositories themselves follow C36, as every `AbstractRepository` does. -/
def Settled (I : PkgInfo P) (r : Repo P) : Prop := ∀ q found, r.find q = .ok found → abstractMatch I q found = found

theorem composite_settled (I : PkgInfo P) (name : Text) (search : List (Repo P)) (bo : List Text)
    (b : Dict Text Text) : Settled I (composite I name search bo b) := by
  intro q found h
  simp only [composite] at h
  cases hm : compositeDoMatch search bo b q with
  | error e => rw [hm] at h; simp [Except.map] at h
  | ok l => rw [hm] at h; simp [Except.map] at h; subst h; exact match_idempotent I q l

theorem firstNonEmpty_append (q : Query) (a b : List (Repo P)) :
    firstNonEmpty q (a ++ b) = (match firstNonEmpty q a with
      | .error e => .error e
      | .ok (some f) => .ok (some f)
      | .ok none => firstNonEmpty q b) := by
  induction a with
  | nil => rfl
  | cons r rs ih =>
    simp only [List.cons_append, firstNonEmpty]
    cases r.find q with
    | error e => rfl
    | ok f =>
      dsimp only
      by_cases h : f.isEmpty = true
      · simp only [h, if_true]; exact ih
      · simp only [h, if_false, Bool.false_eq_true]

theorem nested_lookup_order (I : PkgInfo P) (name name' : Text) (rs rs' : List (Repo P)) (q : Query)
    (hu : q.url = none)
    (hs : ∀ r ∈ rs, r.acceptNonUrl = true ∧ Settled I r) (hs' : ∀ r ∈ rs', r.acceptNonUrl = true ∧ Settled I r) :
    (composite I name (rs ++ [composite I name' rs' [] []]) [] []).find q =
      (composite I name (rs ++ rs') [] []).find q := by
  have e1 : ∀ (l : List (Repo P)), (∀ r ∈ l, r.acceptNonUrl = true) → compositeDoMatch l [] [] q =
      (match firstNonEmpty q l with
      | .error e => .error e
      | .ok (some found) => .ok found
      | .ok none => .ok []) := by
    intro l hl
    have f1 : l.filter (·.acceptNonUrl) = l := by
      rw [List.filter_eq_self]; exact hl
    have f2 : l.filter (fun r => !([] : List Text).contains r.name) = l := by
      rw [List.filter_eq_self]; intro a _; rfl
    unfold compositeDoMatch
    simp only [hu, Dict.get, Option.filter, f1, f2]
    cases firstNonEmpty q l with
    | error e => rfl
    | ok o => cases o <;> rfl
  have hall : ∀ r ∈ rs ++ rs', r.acceptNonUrl = true := by
    intro r hr
    rcases List.mem_append.1 hr with hr | hr
    · exact (hs r hr).1
    · exact (hs' r hr).1
  have hall2 : ∀ r ∈ rs ++ [composite I name' rs' [] []], r.acceptNonUrl = true := by
    intro r hr
    rcases List.mem_append.1 hr with hr | hr
    · exact (hs r hr).1
    · simp at hr; subst hr; rfl
  -- answers of settled repositories survive the filter of the inner repository
  have hset : ∀ (l : List (Repo P)) (f : List P), (∀ r ∈ l, Settled I r) → firstNonEmpty q l = .ok (some f) →
      abstractMatch I q f = f ∧ f ≠ [] := by
    intro l f hl h
    obtain ⟨pre, r, post, he, _, hf, hne⟩ := ((firstNonEmpty_spec q l).1 f).1 h
    exact ⟨hl r (by rw [he]; simp) q f hf, hne⟩
  change Except.map (abstractMatch I q) (compositeDoMatch (rs ++ [composite I name' rs' [] []]) [] [] q) =
    Except.map (abstractMatch I q) (compositeDoMatch (rs ++ rs') [] [] q)
  rw [e1 _ hall, e1 _ hall2, firstNonEmpty_append, firstNonEmpty_append]
  cases h1 : firstNonEmpty q rs with
  | error e => rfl
  | ok o =>
    cases o with
    | some f => rfl
    | none =>
      dsimp only
      have hfind : (composite I name' rs' [] []).find q =
          Except.map (abstractMatch I q) (compositeDoMatch rs' [] [] q) := rfl
      simp only [firstNonEmpty, hfind, e1 rs' (fun r hr => (hs' r hr).1)]
      cases h2 : firstNonEmpty q rs' with
      | error e => rfl
      | ok o =>
        cases o with
        | none =>
          have : abstractMatch I q ([] : List P) = [] := by rw [match_result]; simp
          simp [Except.map, this]
        | some f =>
          obtain ⟨h3, h4⟩ := hset rs' f (fun r hr => (hs' r hr).2) h2
          have h5 : f.isEmpty = false := by simpa using h4
          simp [Except.map, h3, h5, h4]

section
private def I0 : PkgInfo Nat := ⟨fun _ => true, fun _ => false⟩
/-- A repository that has exactly one package, under any name. -/
private def single (name : Text) (n : Nat) : Repo Nat := ⟨name, true, [], fun _ => .ok [n]⟩
private def emptyRepo (name : Text) : Repo Nat := ⟨name, true, [], fun _ => .ok []⟩
private def B0 : Builders Nat := fun t => if t = ['t'] then some (fun n a => single n a) else none
private def q0 (n : Text) : Query := ⟨n, none, false⟩

/-- Order, bindings and bind-only repositories on three repositories. -/
example :
    let rs := [emptyRepo ['e'], single ['a'] 1, single ['b'] 2]
    compositeDoMatch rs [] [] (q0 ['p']) = .ok [1] ∧
    compositeDoMatch rs [['a']] [] (q0 ['p']) = .ok [2] ∧
    compositeDoMatch rs [['b']] [(['p'], ['b'])] (q0 ['p']) = .ok [2] := ⟨rfl, rfl, rfl⟩

example : Settled I0 (single ['a'] 1) := by
  intro q found h
  simp [single] at h
  subst h
  rw [match_result]; simp [I0]

/-- C38 fails for inline bindings: two packages are bound to two different inline repositories, but
both of these get the name of the configuration, so both packages come from the first one. -/
theorem inline_binding_violated :
    ∃ r c, load I0 B0 (emptyRepo ['g']) [] ['m']
        ⟨[], .noInherit, [(['p'], .inline ['t'] 1), (['q'], .inline ['t'] 2)]⟩ (emptyRepo ['n']) = .ok (r, c) ∧
      r.find (q0 ['p']) = .ok [1] ∧ r.find (q0 ['q']) = .ok [1] := ⟨_, _, rfl, rfl, rfl⟩

/-- C38 fails for two definitions of the same repository: the instance is shared and keeps its first
name, so a package bound to the second name is an error. -/
theorem shared_instance_violated :
    ∃ r c, load I0 B0 (emptyRepo ['g']) [] ['m']
        ⟨[(['a'], ⟨['t'], false, 1⟩), (['b'], ⟨['t'], false, 1⟩)], .noInherit, [(['p'], .repo ['b'])]⟩
        (emptyRepo ['n']) = .ok (r, c) ∧
      r.find (q0 ['p']) = .error .noSuchElement := ⟨_, _, rfl, rfl⟩

/-- A configuration with a bound package loads into a repository that honours the binding. -/
example : ∃ r c, load I0 B0 (emptyRepo ['g']) [] ['m']
    ⟨[(['a'], ⟨['t'], false, 1⟩), (['b'], ⟨['t'], true, 2⟩)], .context, [(['p'], .repo ['b'])]⟩
    (single ['n'] 3) = .ok (r, c) ∧ r.find (q0 ['p']) = .ok [2] ∧ r.find (q0 ['q']) = .ok [1] :=
  ⟨_, _, rfl, rfl, rfl⟩
end

/-- C38: `register_bindings` binds exactly the given packages; without a repository it unbinds them. -/
theorem register_bindings_spec (cfg : RepoConfig) (packages : List Text) (repo : Option Binding) (p : Text) :
    Dict.get (registerBindings cfg packages repo).bindings p =
      if p ∈ packages then repo else Dict.get cfg.bindings p := by
  cases repo with
  | some b =>
    simp only [registerBindings]
    generalize cfg.bindings = d
    induction packages generalizing d with
    | nil => simp
    | cons x xs ih =>
      rw [List.foldl_cons, ih, Dict.get_put]
      by_cases h1 : p ∈ xs
      · simp [h1]
      · by_cases h2 : x = p
        · subst h2; simp
        · have : ¬ p = x := fun e => h2 e.symm
          simp [h1, h2, this]
  | none =>
    simp only [registerBindings]
    generalize cfg.bindings = d
    induction d with
    | nil => simp [Dict.get]
    | cons e d ih =>
      obtain ⟨k, v⟩ := e
      by_cases hk : k ∈ packages
      · rw [List.filter_cons_of_neg (by simpa using hk), ih]
        by_cases h2 : k = p
        · subst h2; simp [hk]
        · simp [Dict.get, h2]
      · rw [List.filter_cons_of_pos (by simpa using hk)]
        by_cases h2 : k = p
        · subst h2; simp [Dict.get, hk]
        · simp only [Dict.get, h2, if_false]; exact ih

/-- C38: `remove_repository` removes the definition and every binding to it, and nothing else. -/
theorem remove_repository_spec (cfg : RepoConfig) (name other : Text) (hwf : Dict.Wf cfg.bindings) :
    Dict.get (removeRepository cfg name).repos other = (if name = other then none else Dict.get cfg.repos other) ∧
    Dict.get (removeRepository cfg name).bindings other =
      (Dict.get cfg.bindings other).filter (fun b => decide (b ≠ .repo name)) := by
  refine ⟨Dict.get_del _ _ _, ?_⟩
  simp only [removeRepository]
  generalize cfg.bindings = d at hwf
  induction d with
  | nil => simp [Dict.get, Option.filter]
  | cons e d ih =>
    obtain ⟨k, v⟩ := e
    have hk : k ∉ Dict.keys d ∧ Dict.Wf d := by
      simpa only [Dict.Wf, Dict.keys, List.map_cons, List.nodup_cons] using hwf
    have ih' := ih hk.2
    by_cases hv : v = .repo name
    · subst hv
      rw [List.filter_cons_of_neg (by simp), ih']
      by_cases h2 : k = other
      · subst h2
        rw [(Dict.get_none_iff d k).2 hk.1]
        simp [Dict.get, Option.filter]
      · simp [Dict.get, h2]
    · rw [List.filter_cons_of_pos (by simpa using hv)]
      by_cases h2 : k = other
      · subst h2; simp [Dict.get, Option.filter, hv]
      · simp only [Dict.get, h2, if_false]; exact ih'

/-- C38: `all_repositories` lists every name once, with the definition nearest in the chain. -/
theorem all_repositories_nearest (chain : List RepoConfig) :
    ((allRepositories chain).map (·.1)).Nodup ∧
    ∀ e, e ∈ allRepositories chain ↔ ∃ pre post, chain.flatMap (·.repos) = pre ++ e :: post ∧
      e.1 ∉ pre.map (·.1) := by
  have h := unique_by_first (chain.flatMap (fun c : RepoConfig => c.repos)) (fun e => e.1)
  exact ⟨h.2.1, h.2.2⟩

end Pkm
