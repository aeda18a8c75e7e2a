import Verif.VersionText.Clauses
set_option linter.unusedVariables false
set_option linter.unusedSimpArgs false
/-
The clauses a printed specifier consists of.
-/
namespace Pkm
open PS Spec VSpec

/-- Ranges printed with `~=` whose upper end is not the one `~=` stands for. -/
def Spec.TildeAmbiguous (min max : Option SV) : Prop :=
  ∃ m M, min = some m ∧ max = some M ∧ 1 < m.release.length ∧ M.release = incPenult m.release ∧
    M ≠ { release := incPenult m.release, epoch := m.epoch }

theorem inter_all_left (s : VSpec) : VSpec.all.inter s = .ok s := rfl

theorem starRange_create' (v M : SV) (i I : Bool) (h : v.lt M = true) :
    createRange (some v) (some M) i I = .ok (.range (some v) (some M) i I) := by
  have hne := SV.eqv_stage.ne v M h
  simp [createRange, optEq, mkRange, hne, h]

theorem inter_ends (m M : SV) (lo hi : Bool) (h : m.lt M = true) :
    (VSpec.range (some m) Option.none lo false).inter (.range Option.none (some M) false hi) =
      .ok (.range (some m) (some M) lo hi) := by
  have hne := SV.eqv_stage.ne m M h
  have e : (VSpec.range (some m) Option.none lo false).inter (.range Option.none (some M) false hi) =
      rangeInter (some m) Option.none lo false Option.none (some M) false hi := by
    have f : VSpec.fuelFor (.range (some m) Option.none lo false) (.range Option.none (some M) false hi)
      = 23 + 1 := rfl
    rw [VSpec.inter, f]
    simp [interF, eqv, rangeEq, optEq]
  rw [e]
  simp only [rangeInter, rangeLt, rangeEq, optEq]
  simp
  unfold rangeInterCore
  simp [optEq, starRange_create', h, hne]

theorem clauseSpec_candidate (c : Clause) (hc : c.Wf)
    (hk : ∀ v, c ≠ .eqStar v ∧ c ≠ .neStar v ∧ c ≠ .tilde v) :
    ∃ s, clauseSpec c = .ok s ∧ ∀ w, Candidate w → (s.allows (.std w) = true ↔ c.Means w) := by
  obtain ⟨hp, hpl, hx⟩ := hc
  cases c with
  | ge v =>
    refine ⟨_, rfl, fun w hw => ?_⟩
    simp only [clauseBase, allows]
    rw [rangeAllows_iff _ _ _ _ (from_ok v true hpl) w hw]
    simp [AboveMin, BelowMax, Clause.Means]
  | gt v =>
    refine ⟨_, rfl, fun w hw => ?_⟩
    simp only [clauseBase, allows]
    rw [rangeAllows_iff _ _ _ _ (from_ok v false hpl) w hw]
    simp [AboveMin, BelowMax, Clause.Means]
  | le v =>
    refine ⟨_, rfl, fun w hw => ?_⟩
    simp only [clauseBase, allows]
    rw [rangeAllows_iff _ _ _ _ (upto_ok v true hpl) w hw]
    simp [AboveMin, BelowMax, Clause.Means, eqv_symm v w]
  | lt v =>
    refine ⟨_, rfl, fun w hw => ?_⟩
    simp only [clauseBase, allows]
    rw [rangeAllows_iff _ _ _ _ (upto_ok v false hpl) w hw]
    simp [AboveMin, BelowMax, Clause.Means]
  | eq v =>
    refine ⟨_, rfl, fun w hw => ?_⟩
    simp only [clauseBase, allows, Clause.Means]
    rw [matchAllows_std v w true hpl hw.1, eqv_symm]
    simp
  | ne v =>
    refine ⟨_, rfl, fun w hw => ?_⟩
    simp only [clauseBase, allows, Clause.Means]
    rw [matchAllows_std v w false hpl hw.1, eqv_symm]
    simp
  | eqStar v => exact absurd rfl (hk v).1
  | neStar v => exact absurd rfl (hk v).2.1
  | tilde v => exact absurd rfl (hk v).2.2

theorem clauseSpecs_means (cs : List Clause) (h : ∀ c, c ∈ cs → c.Wf) :
    ∃ ss : List VSpec, cs.map clauseSpec = ss.map .ok ∧
      ((∀ c, c ∈ cs → c.isNeStar = false) → ∀ s, s ∈ ss → Conj s) ∧
      ((∀ c, c ∈ cs → c.isNe = false) → ∀ s, s ∈ ss → Region s) ∧
      ∀ w, Final w → ((∀ s, s ∈ ss → s.allows (.std w) = true) ↔ ∀ c, c ∈ cs → c.Means w) := by
  induction cs with
  | nil => exact ⟨[], rfl, by simp, by simp, by simp⟩
  | cons c cs ih =>
    obtain ⟨ss, h1, h2, h3, h4⟩ := ih (fun x hx => h x (by simp [hx]))
    obtain ⟨s, g1, g2, g3, g4⟩ := clauseSpec_means c (h c (by simp))
    refine ⟨s :: ss, by simp [h1, g1], ?_, ?_, ?_⟩
    · intro hh x hx
      simp at hx
      rcases hx with rfl | hx
      · exact g2 (hh c (by simp))
      · exact h2 (fun y hy => hh y (by simp [hy])) x hx
    · intro hh x hx
      simp at hx
      rcases hx with rfl | hx
      · exact g3 (hh c (by simp))
      · exact h3 (fun y hy => hh y (by simp [hy])) x hx
    · intro w hw
      simp only [List.mem_cons, forall_eq_or_imp, g4 w hw, h4 w hw]

theorem range_clauses (min max : Option SV) (imin imax : Bool)
    (hok : RangeOk min max imin imax) (hp1 : ∀ m, min = some m → Printable m)
    (hp2 : ∀ m, max = some m → Printable m) (ha : ¬ TildeAmbiguous min max) :
    ∃ cs ss, cs ≠ [] ∧ (∀ c, c ∈ cs → c.Wf) ∧
      (VSpec.range min max imin imax).show = joinText [',', ' '] (cs.map Clause.text) ∧
      cs.map clauseSpec = ss.map .ok ∧ (∀ s, s ∈ ss → Conj s) ∧
      interClauses .all ss = .ok (.range min max imin imax) := by
  have hpl1 := hok.plainMin
  have hpl2 := hok.plainMax
  cases min with
  | none =>
    have hi : imin = false := by
      cases imin with
      | false => rfl
      | true => have := hok.inclMin rfl; simp at this
    subst hi
    cases max with
    | none => have := hok.some; simp at this
    | some M =>
      cases imax with
      | false =>
        exact ⟨[.lt M], [.range Option.none (some M) false false], by simp, by simpa [Clause.Wf, Clause.version] using ⟨hp2 M rfl, hpl2 M rfl⟩,
          by simp [joinText, VSpec.show, showRange, tildeForm, showMax, Clause.text], rfl, by simpa using .block _ (.range _ _ _ _ hok), rfl⟩
      | true =>
        exact ⟨[.le M], [.range Option.none (some M) false true], by simp, by simpa [Clause.Wf, Clause.version] using ⟨hp2 M rfl, hpl2 M rfl⟩,
          by simp [joinText, VSpec.show, showRange, tildeForm, showMax, Clause.text], rfl, by simpa using .block _ (.range _ _ _ _ hok), rfl⟩
  | some m =>
    cases max with
    | none =>
      have hi : imax = false := by
        cases imax with
        | false => rfl
        | true => have := hok.inclMax rfl; simp at this
      subst hi
      cases imin with
      | false =>
        exact ⟨[.gt m], [.range (some m) Option.none false false], by simp, by simpa [Clause.Wf, Clause.version] using ⟨hp1 m rfl, hpl1 m rfl⟩,
          by simp [joinText, VSpec.show, showRange, tildeForm, showMin, Clause.text], rfl, by simpa using .block _ (.range _ _ _ _ hok), rfl⟩
      | true =>
        exact ⟨[.ge m], [.range (some m) Option.none true false], by simp, by simpa [Clause.Wf, Clause.version] using ⟨hp1 m rfl, hpl1 m rfl⟩,
          by simp [joinText, VSpec.show, showRange, tildeForm, showMin, Clause.text], rfl, by simpa using .block _ (.range _ _ _ _ hok), rfl⟩
    | some M =>
      have hlt := hok.ordered m M rfl rfl
      have w1 : Printable m ∧ Plain m := ⟨hp1 m rfl, hpl1 m rfl⟩
      have w2 : Printable M ∧ Plain M := ⟨hp2 M rfl, hpl2 M rfl⟩
      cases ht : tildeForm (some m) (some M) imin imax with
      | some x =>
        have : imin = true ∧ imax = false ∧ x = m ∧ 1 < m.release.length ∧
            M.release = incPenult m.release := by
          cases imin <;> cases imax <;> simp [tildeForm] at ht
          exact ⟨rfl, rfl, ht.2.symm, ht.1.1, ht.1.2⟩
        obtain ⟨rfl, rfl, rfl, h1, h2⟩ := this
        have hM : M = { release := incPenult x.release, epoch := x.epoch } := by
          apply Classical.byContradiction
          intro h
          exact ha ⟨x, M, rfl, rfl, h1, h2, h⟩
        have e : clauseBase (.tilde x) = .range (some x) (some M) true false := by
          simp [clauseBase, tildeMax, hM]
        exact ⟨[.tilde x], [.range (some x) (some M) true false], by simp,
          by simpa [Clause.Wf, Clause.version] using ⟨w1.1, w1.2, h1⟩,
          by simp [joinText, VSpec.show, showRange, ht, Clause.text], by simp [clauseSpec, e],
          by simpa using .block _ (.range _ _ _ _ hok), rfl⟩
      | none =>
        have hI := fun lo hi => inter_ends m M lo hi hlt
        have hshow : (VSpec.range (some m) (some M) imin imax).show =
            joinText [',', ' '] ([(if imin then .ge m else .gt m), (if imax then .le M else .lt M)].map
              Clause.text) := by
          simp only [VSpec.show, showRange, ht, showMin, showMax]
          cases imin <;> cases imax <;> simp [joinText, Clause.text]
        refine ⟨_, [.range (some m) Option.none imin false, .range Option.none (some M) false imax],
          by simp, ?_, hshow, ?_, ?_, ?_⟩
        · cases imin <;> cases imax <;> simpa [Clause.Wf, Clause.version] using ⟨w1, w2⟩
        · cases imin <;> cases imax <;> rfl
        · intro s hs
          simp at hs
          rcases hs with rfl | rfl
          · exact .block _ (.range _ _ _ _ (from_ok m imin w1.2))
          · exact .block _ (.range _ _ _ _ (upto_ok M imax w2.2))
        · simp [interClauses, inter_all_left, bind, Except.bind, hI]


theorem block_clauses (b : VSpec) (hb : Block b)
    (hbp : ∀ m, (blockMin b).1 = some m ∨ (blockMax b).1 = some m → Printable m)
    (ha : ¬ TildeAmbiguous (blockMin b).1 (blockMax b).1) :
    ∃ cs ss, (cs = [] ↔ b = .all) ∧ (∀ c, c ∈ cs → c.Wf) ∧
      (b ≠ .all → b.show = joinText [',', ' '] (cs.map Clause.text)) ∧
      cs.map clauseSpec = ss.map .ok ∧ (∀ s, s ∈ ss → Conj s) ∧ interClauses .all ss = .ok b := by
  cases hb with
  | all => exact ⟨[], [], by simp, by simp, by simp, rfl, by simp, rfl⟩
  | range min max imin imax hok =>
    obtain ⟨cs, ss, hne, hwf, htext, hss, hc, hr⟩ := range_clauses min max imin imax hok
      (fun m hm => hbp m (Or.inl (by simpa [blockMin] using hm)))
      (fun m hm => hbp m (Or.inr (by simpa [blockMax] using hm))) ha
    exact ⟨cs, ss, by simp [hne], hwf, fun _ => htext, hss, hc, hr⟩
  | one s hs =>
    refine ⟨[.eq s], [.vmatch (.std s) true], by simp, ?_, ?_, rfl, ?_, rfl⟩
    · simpa [Clause.Wf, Clause.version] using ⟨hbp s (Or.inl rfl), hs⟩
    · intro _; simp [VSpec.show, showMatch, joinText, Clause.text]
    · simpa using .block _ (.one s hs)

theorem joinText_append (sep : Text) (xs ys : List Text) (hx : xs ≠ []) (hy : ys ≠ []) :
    joinText sep (xs ++ ys) = joinText sep xs ++ (sep ++ joinText sep ys) := by
  induction xs with
  | nil => exact absurd rfl hx
  | cons x xs ih =>
    cases xs with
    | nil =>
      cases ys with
      | nil => exact absurd rfl hy
      | cons y ys => rfl
    | cons x' xs' =>
      have := ih (by simp)
      simp only [List.cons_append, joinText] at this ⊢
      rw [this]
      simp

theorem hetro_text (vs : List SV) (b : VSpec) (cs : List Clause) (hvs : vs ≠ [])
    (hcs : cs = [] ↔ b = .all)
    (htext : b ≠ .all → b.show = joinText [',', ' '] (cs.map Clause.text)) :
    (VSpec.hetro (vs.map .std) b).show =
      joinText [',', ' '] ((vs.map Clause.ne ++ cs).map Clause.text) := by
  have h1 : (vs.map Ver.std).map (fun v => '!' :: '=' :: v.show) = (vs.map Clause.ne).map Clause.text := by
    simp only [List.map_map]; rfl
  by_cases hb : b = .all
  · have := hcs.2 hb
    subst this; subst hb
    simp only [VSpec.show, h1, List.append_nil]
  · have hne : cs ≠ [] := fun h => hb (hcs.1 h)
    rw [List.map_append, joinText_append _ _ _ (by simpa using hvs) (by simpa using hne), ← htext hb, ← h1]
    have e : (VSpec.hetro (vs.map .std) b).show = joinText [',', ' ']
        ((vs.map Ver.std).map (fun v => '!' :: '=' :: v.show)) ++ (',' :: ' ' :: b.show) := by
      rw [VSpec.show]
      exact fun h => hb h
    exact e

theorem hetro_allows_iff (vs : List SV) (b : VSpec) (w : SV) (hp : ∀ v, v ∈ vs → Plain v)
    (hw : Plain w) : (VSpec.hetro (vs.map .std) b).allows (.std w) = true ↔
      (∀ v, v ∈ vs → ¬ v.eqv w = true) ∧ b.allows (.std w) = true := by
  have := memSet_iff w (vs.map .std) hw (by
    intro v hv s hs
    simp at hv
    obtain ⟨a, ha, rfl⟩ := hv
    simp at hs; subst hs; exact hp _ ha)
  simp only [allows]
  have hm : memSet (.std w) (vs.map .std) = true ↔ ∃ v, v ∈ vs ∧ v.eqv w = true := by
    rw [this]
    constructor
    · rintro ⟨v, hv, he⟩
      simp at hv
      obtain ⟨a, ha, rfl⟩ := hv
      exact ⟨a, ha, he⟩
    · rintro ⟨v, hv, he⟩
      exact ⟨.std v, by simp; exact hv, he⟩
  by_cases h : memSet (.std w) (vs.map .std) = true
  · simp only [h, if_true]
    obtain ⟨v, hv, he⟩ := hm.1 h
    constructor
    · intro h; simp at h
    · intro hh; exact absurd he (hh.1 v hv)
  · simp only [h, if_false]
    have : ∀ v, v ∈ vs → ¬ v.eqv w = true := fun v hv he => h (hm.2 ⟨v, hv, he⟩)
    simp [Ver.isStd, this]
    intro _ v hv
    simpa using this v hv

end Pkm
