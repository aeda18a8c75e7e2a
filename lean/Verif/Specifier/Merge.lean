import Verif.Specifier.Inverse
set_option linter.unusedVariables false
/-
Lemmas about `union_with` of single ranges and matches.
-/
namespace Pkm
open Spec
namespace VSpec

theorem mkUnion_two (a b : VSpec) (ha : isProper a = true) (hb : isProper b = true) :
    ∃ r, mkUnion [a, b] = .ok r ∧ ∀ v, r.allows v = true ↔ a.allows v = true ∨ b.allows v = true := by
  obtain ⟨t, ht, hp⟩ := mkUnion_ok [a, b] (by simp) (by simp [ha, hb])
  refine ⟨_, ht, fun v => ?_⟩
  rw [union_allows]
  simp [hp.mem_iff]

/-- The overlap test of `_union_with` and `_intersect_with`. -/
def overlaps (m2 M1 : Option SV) : Bool :=
  match m2, M1 with
  | some a, some b => a.lt b
  | _, _ => true

theorem rangeUnionCore_eq (m1 M1 : Option SV) (i1 I1 : Bool) (m2 M2 : Option SV) (i2 I2 : Bool) :
    rangeUnionCore m1 M1 i1 I1 m2 M2 i2 I2 =
      if overlaps m2 M1 then
        createRange m1 M2 (if optEq m1 m2 then i1 || i2 else i1)
          (if optEq M1 M2 then I1 || I2 else I2)
      else if (!I1 && !i2) || !optEq m2 M1 then
        mkUnion [.range m1 M1 i1 I1, .range m2 M2 i2 I2]
      else createRange m1 M2 i1 I2 := rfl

theorem rangeUnionCore_staggered (m1 M1 : Option SV) (i1 I1 : Bool) (m2 M2 : Option SV)
    (i2 I2 : Bool) (h1 : RangeOk m1 M1 i1 I1) (h2 : RangeOk m2 M2 i2 I2)
    (hs : Staggered m1 M1 i1 m2 M2 i2) :
    ∃ r, rangeUnionCore m1 M1 i1 I1 m2 M2 i2 I2 = .ok r ∧
      AllowsExactly r (fun w => (VSpec.range m1 M1 i1 I1).allows (.std w) = true ∨
        (VSpec.range m2 M2 i2 I2).allows (.std w) = true) := by
  have a1 := rangeAllows_iff m1 M1 i1 I1 h1
  have a2 := rangeAllows_iff m2 M2 i2 I2 h2
  -- all versions in sight, ranked
  have rk : ∀ w, Plain w → ∃ f : SV → Nat, ∀ a b,
      a ∈ w :: (m1.toList ++ M1.toList ++ m2.toList ++ M2.toList) →
      b ∈ w :: (m1.toList ++ M1.toList ++ m2.toList ++ M2.toList) →
      (a.lt b = decide (f a < f b)) ∧ (a.eqv b = decide (f a = f b)) := by
    intro w hw
    apply ranks
    intro v hv
    simp only [List.mem_cons, List.mem_append, Option.mem_toList] at hv
    rcases hv with rfl | ((h | h) | h) | h
    · exact hw
    · exact h1.plainMin _ h
    · exact h1.plainMax _ h
    · exact h2.plainMin _ h
    · exact h2.plainMax _ h
  have hi1 := h1.inclMin; have hI1 := h1.inclMax; have ho1 := h1.ordered
  have hi2 := h2.inclMin; have hI2 := h2.inclMax; have ho2 := h2.ordered
  obtain ⟨hs1, hs2, hs3⟩ := hs
  have ord : ∀ a b, m1 = some a → M2 = some b → a.lt b = true := by
    intro a b ha hb
    subst ha hb
    obtain ⟨y, rfl, hy⟩ := hs3 b rfl
    have := ho1 a y rfl rfl
    rcases hy with hy | hy
    · exact SV.eqv_stage.ltTrans _ _ _ this hy
    · exact lt_of_lt_eqv this hy
  rw [rangeUnionCore_eq]
  by_cases hov : overlaps m2 M1 = true
  · -- overlapping
    rw [if_pos hov]
    obtain ⟨r, hr, _, hex⟩ := createRange_spec m1 M2
      (if optEq m1 m2 then i1 || i2 else i1) (if optEq M1 M2 then I1 || I2 else I2)
      h1.plainMin h2.plainMax
      (by
        cases m1 with
        | some a => simp
        | none =>
          cases m2 with
          | none => simp [optEq]; simp at hi1 hi2; simp [hi1, hi2]
          | some b => simp [optEq]; simpa using hi1)
      (by
        cases M2 with
        | some a => simp
        | none =>
          cases M1 with
          | none => simp [optEq]; simp at hI1 hI2; simp [hI1, hI2]
          | some b => simp [optEq]; simpa using hI2)
      (fun a b ha hb => Or.inl (ord a b ha hb))
    refine ⟨r, hr, fun w hw => ?_⟩
    refine (hex w hw).trans ?_
    dsimp only
    rw [allows, allows, a1 w hw, a2 w hw]
    obtain ⟨f, hf⟩ := rk w hw.1
    have hf1 := fun a b ha hb => (hf a b ha hb).1
    have hf2 := fun a b ha hb => (hf a b ha hb).2
    clear hex hr a1 a2 rk hf ord h1 h2
    cases m1 <;> cases M1 <;> cases m2 <;> cases M2 <;>
      simp at hf1 hf2 <;>
      simp [AboveMin_none, BelowMax_none, AboveMin_some, BelowMax_some, optEq, overlaps, hf1, hf2]
        at hs1 hs2 hs3 ho1 ho2 hov ⊢ <;>
      (try omega) <;>
      (cases i1 <;> cases i2 <;> cases I1 <;> cases I2 <;>
        first
        | omega
        | (simp at hi1; done)
        | (simp at hi2; done)
        | (simp at hI1; done)
        | (simp at hI2; done)
        | (simp; done)
        | (simp; omega)
        | (simp at hs1 ⊢; omega))
  · rw [if_neg hov]
    by_cases hg : ((!I1 && !i2) || !optEq m2 M1) = true
    · rw [if_pos hg]
      obtain ⟨r, hr, hex⟩ := mkUnion_two (.range m1 M1 i1 I1) (.range m2 M2 i2 I2) rfl rfl
      exact ⟨r, hr, fun w hw => hex _⟩
    · rw [if_neg hg]
      obtain ⟨r, hr, _, hex⟩ := createRange_spec m1 M2 i1 I2 h1.plainMin h2.plainMax hi1 hI2
        (fun a b ha hb => Or.inl (ord a b ha hb))
      refine ⟨r, hr, fun w hw => ?_⟩
      refine (hex w hw).trans ?_
      dsimp only
      rw [allows, allows, a1 w hw, a2 w hw]
      obtain ⟨f, hf⟩ := rk w hw.1
      have hf1 := fun a b ha hb => (hf a b ha hb).1
      have hf2 := fun a b ha hb => (hf a b ha hb).2
      clear hex hr a1 a2 rk hf ord h1 h2
      cases m1 <;> cases M1 <;> cases m2 <;> cases M2 <;>
        simp at hf1 hf2 <;>
        simp [AboveMin_none, BelowMax_none, AboveMin_some, BelowMax_some, optEq, overlaps, hf1, hf2]
          at hs1 hs2 hs3 ho1 ho2 hov hg ⊢ <;>
        (try omega) <;>
        (cases i1 <;> cases i2 <;> cases I1 <;> cases I2 <;>
          first
          | omega
          | (simp at hi1; done)
          | (simp at hi2; done)
          | (simp at hI1; done)
          | (simp at hI2; done)
          | (simp at hg; done)
          | (simp; done)
          | (simp; omega)
          | (simp at hg ⊢; omega)
          | (simp at hs1 ⊢; omega)
          | (simp at hs1 hg ⊢; omega))

/-- If the code swaps two staggered ranges they are staggered the other way round as well. -/
theorem staggered_swap (m1 M1 : Option SV) (i1 I1 : Bool) (m2 M2 : Option SV) (i2 I2 : Bool)
    (hs : Staggered m1 M1 i1 m2 M2 i2) (h : rangeLt m2 M2 i2 I2 m1 M1 i1 I1 = true) :
    Staggered m2 M2 i2 m1 M1 i1 := by
  obtain ⟨hs1, hs2, hs3⟩ := hs
  rw [rangeLt_eq] at h
  have as : ∀ a b : SV, a.lt b = true → b.lt a = false := fun a b h => SV.eqv_stage.asymm a b h
  have ne : ∀ a b : SV, a.lt b = true → a.eqv b = false := fun a b h => SV.eqv_stage.ne a b h
  -- the upper ends
  have up : upperTail M2 M1 I1 = true → ∀ y, M1 = some y → ∃ x, M2 = some x ∧
      (x.lt y = true ∨ x.eqv y = true) := by
    intro hu y hy
    subst hy
    cases M2 with
    | none => simp [upperTail] at hu
    | some b =>
      obtain ⟨x, hx, hxb⟩ := hs3 b rfl
      simp at hx; subst hx
      rcases hxb with hxb | hxb
      · have e : b.eqv y = false := by rw [eqv_symm]; exact ne _ _ hxb
        simp [upperTail, e, as _ _ hxb] at hu
      · exact ⟨b, rfl, Or.inr (by rw [eqv_symm]; exact hxb)⟩
  split at h
  · simp at h
  · cases m1 with
    | none =>
      cases m2 with
      | none => exact ⟨by simp, by simp, up h⟩
      | some y => simp at h
    | some x =>
      cases m2 with
      | none => exact absurd (hs2 rfl) (by simp)
      | some y =>
        have := hs1 y rfl
        simp at this
        rcases this with hxy | ⟨hxy, hi⟩
        · have e : y.eqv x = false := by rw [eqv_symm]; exact ne _ _ hxy
          simp [e, as _ _ hxy] at h
        · have e : y.eqv x = true := by rw [eqv_symm]; exact hxy
          simp [e] at h
          split at h
          · rename_i hii
            subst hii
            exact ⟨by simp [e], by simp, up h⟩
          · cases i1 <;> cases i2 <;> simp_all

/-- Two different ranges are comparable. -/
theorem rangeLt_total (m1 M1 : Option SV) (i1 I1 : Bool) (m2 M2 : Option SV) (i2 I2 : Bool)
    (h1 : RangeOk m1 M1 i1 I1) (h2 : RangeOk m2 M2 i2 I2)
    (he : rangeEq m1 M1 i1 I1 m2 M2 i2 I2 = false) :
    rangeLt m1 M1 i1 I1 m2 M2 i2 I2 = true ∨ rangeLt m2 M2 i2 I2 m1 M1 i1 I1 = true := by
  have os : ∀ a b : Option SV, optEq a b = optEq b a := by
    intro a b; cases a <;> cases b <;> simp [optEq, eqv_symm]
  have es : rangeEq m2 M2 i2 I2 m1 M1 i1 I1 = rangeEq m1 M1 i1 I1 m2 M2 i2 I2 := by
    simp only [rangeEq, os m1 m2, os M1 M2]
    cases i1 <;> cases i2 <;> cases I1 <;> cases I2 <;> rfl
  rw [rangeLt_eq, rangeLt_eq, es, he]
  have tail : i1 = i2 → optEq m1 m2 = true → upperTail M1 M2 I2 = true ∨ upperTail M2 M1 I1 = true := by
    intro hi hm
    cases M1 with
    | none =>
      cases M2 with
      | some b => simp [upperTail]
      | none =>
        have e1 : I1 = false := by cases I1; rfl; exact absurd (h1.inclMax rfl) (by simp)
        have e2 : I2 = false := by cases I2; rfl; exact absurd (h2.inclMax rfl) (by simp)
        simp [rangeEq, hi, hm, e1, e2] at he
        simp [optEq] at he
    | some a =>
      cases M2 with
      | none => simp [upperTail]
      | some b =>
        rcases plain_tri a b (h1.plainMax a rfl) (h2.plainMax b rfl) with h | h | h
        · simp [upperTail, SV.eqv_stage.ne a b h, h]
        · have : optEq (some a) (some b) = true := h
          simp [rangeEq, hi, hm, this] at he
          have h' : b.eqv a = true := by rw [eqv_symm]; exact h
          simp [upperTail, h, h']
          cases I1 <;> cases I2 <;> simp_all
        · simp [upperTail, SV.eqv_stage.ne b a h, h]
  cases m1 with
  | none =>
    cases m2 with
    | some y => simp
    | none =>
      have e1 : i1 = false := by cases i1; rfl; exact absurd (h1.inclMin rfl) (by simp)
      have e2 : i2 = false := by cases i2; rfl; exact absurd (h2.inclMin rfl) (by simp)
      simpa using tail (by rw [e1, e2]) rfl
  | some x =>
    cases m2 with
    | none => simp
    | some y =>
      rcases plain_tri x y (h1.plainMin x rfl) (h2.plainMin y rfl) with h | h | h
      · simp [SV.eqv_stage.ne x y h, h]
      · have h' : y.eqv x = true := by rw [eqv_symm]; exact h
        by_cases hi : i1 = i2
        · subst hi
          simpa [h, h'] using tail rfl h
        · cases i1 <;> cases i2 <;> simp [h, h'] at hi ⊢
      · simp [SV.eqv_stage.ne y x h, h]

theorem range_range_union (k : Nat) (m1 M1 : Option SV) (i1 I1 : Bool) (m2 M2 : Option SV)
    (i2 I2 : Bool) (h1 : RangeOk m1 M1 i1 I1) (h2 : RangeOk m2 M2 i2 I2)
    (hs : Staggered m1 M1 i1 m2 M2 i2 ∨ Staggered m2 M2 i2 m1 M1 i1) :
    ∃ r, unionF (k + 1) (.range m1 M1 i1 I1) (.range m2 M2 i2 I2) = .ok r ∧
      AllowsExactly r (fun w => (VSpec.range m1 M1 i1 I1).allows (.std w) = true ∨
        (VSpec.range m2 M2 i2 I2).allows (.std w) = true) := by
  simp only [unionF]
  by_cases he : eqv (.range m1 M1 i1 I1) (.range m2 M2 i2 I2) = true
  · rw [if_pos he]
    exact ⟨_, rfl, fun w hw => by dsimp only; rw [eqv_allows _ _ he (.std w)]; simp⟩
  · rw [if_neg he]
    have core12 : Staggered m1 M1 i1 m2 M2 i2 → _ :=
      rangeUnionCore_staggered m1 M1 i1 I1 m2 M2 i2 I2 h1 h2
    have core21 : Staggered m2 M2 i2 m1 M1 i1 → _ :=
      rangeUnionCore_staggered m2 M2 i2 I2 m1 M1 i1 I1 h2 h1
    unfold rangeUnion
    cases hlt : rangeLt m2 M2 i2 I2 m1 M1 i1 I1 with
    | true =>
      have : Staggered m2 M2 i2 m1 M1 i1 := by
        rcases hs with hs | hs
        · exact staggered_swap _ _ _ _ _ _ _ _ hs hlt
        · exact hs
      obtain ⟨r, hr, hex⟩ := core21 this
      exact ⟨r, hr, fun w hw => by rw [hex w hw]; exact or_comm⟩
    | false =>
      rcases hs with hs | hs
      · exact core12 hs
      · -- the code did not swap although the second range comes first
        cases hlt' : rangeLt m1 M1 i1 I1 m2 M2 i2 I2 with
        | true => exact core12 (staggered_swap _ _ _ _ _ _ _ _ hs hlt')
        | false =>
          have e : rangeEq m1 M1 i1 I1 m2 M2 i2 I2 = false := by
            rw [Bool.not_eq_true] at he; exact he
          rcases rangeLt_total _ _ _ _ _ _ _ _ h1 h2 e with h | h
          · rw [hlt'] at h; simp at h
          · rw [hlt] at h; simp at h

/-- Changing an exclusive lower end that equals `s` to inclusive. -/
theorem min_flag (s a : SV) (w : SV) (h : a.eqv s = true) :
    AboveMin (some a) true w ↔ s.eqv w = true ∨ AboveMin (some a) false w := by
  rw [AboveMin_some, AboveMin_some, ← eqv_congrL w h]
  simp [or_comm]

theorem max_flag (s a : SV) (w : SV) (h : a.eqv s = true) :
    BelowMax (some a) true w ↔ s.eqv w = true ∨ BelowMax (some a) false w := by
  rw [BelowMax_some, BelowMax_some, ← eqv_congrL w h]
  simp [or_comm]

theorem match_range_union (k : Nat) (v : Ver) (al : Bool) (m M : Option SV) (i I : Bool)
    (hv : PlainVer v) (h : RangeOk m M i I) :
    ∃ r, unionF (k + 1) (.vmatch v al) (.range m M i I) = .ok r ∧
      AllowsExactly r (fun w => (VSpec.vmatch v al).allows (.std w) = true ∨
        (VSpec.range m M i I).allows (.std w) = true) := by
  have al1 := fun w (hw : Candidate w) => match_allows_iff v al w hv hw.1
  have bv := fun w (hw : Candidate w) => block_allows_ver _ (.range _ _ _ _ h) v hv w hw.1
  have ha := rangeAllows_iff m M i I h
  simp only [allows] at bv
  simp only [unionF]
  by_cases h1 : rangeAllows m M i I v = true
  · rw [if_pos h1]
    cases al with
    | true =>
      refine ⟨_, rfl, fun w hw => ?_⟩
      dsimp only
      rw [al1 w hw]
      simp only [allows]
      constructor
      · exact Or.inr
      · rintro (h2 | h2)
        · rw [← (bv w hw h2).2]; exact h1
        · exact h2
    | false =>
      refine ⟨_, rfl, fun w hw => ?_⟩
      dsimp only
      rw [al1 w hw]
      simp only [allows, true_iff]
      cases h2 : v.eqv (.std w) with
      | true => right; rw [← (bv w hw h2).2]; exact h1
      | false => left; rfl
  · rw [if_neg h1]
    cases al with
    | false =>
      refine ⟨_, rfl, fun w hw => ?_⟩
      dsimp only
      rw [al1 w hw]
      simp only [allows]
      constructor
      · exact Or.inl
      · rintro (h2 | h2)
        · exact h2
        · cases h3 : v.eqv (.std w) with
          | false => rfl
          | true => rw [(bv w hw h3).2] at h1; exact absurd h2 h1
    | true =>
      simp only [Bool.not_true, Bool.false_eq_true, if_false]
      by_cases h2 : (!i && endEq m v) = true
      · rw [if_pos h2]
        simp at h2
        obtain ⟨rfl, h2⟩ := h2
        cases m with
        | none => simp [endEq] at h2
        | some a =>
          cases v with
          | std s =>
            have h2' : a.eqv s = true := h2
            have hok : RangeOk (some a) M true I := ⟨h.plainMin, h.plainMax, h.some, by simp, h.inclMax, h.ordered⟩
            refine ⟨.range (some a) M true I, ?_, fun w hw => ?_⟩
            · have hI := h.inclMax
              have ho := h.ordered a
              cases M with
              | none => simp [mkRange]; simpa using hI
              | some b => simp [mkRange, ho b rfl rfl]
            · dsimp only
              rw [al1 w hw]
              simp only [allows]
              rw [rangeAllows_iff _ _ _ _ hok w hw, ha w hw, min_flag s a w h2']
              simp only [Ver.eqv]
              constructor
              · rintro ⟨h3 | h3, h4⟩
                · exact Or.inl h3
                · exact Or.inr ⟨h3, h4⟩
              · rintro (h3 | ⟨h3, h4⟩)
                · refine ⟨Or.inl h3, fun b hb => ?_⟩
                  left
                  exact lt_of_eqv_lt (SV.eqv_stage.symm _ _ (SV.eqv_stage.trans _ _ _ h2' h3)) (h.ordered a b rfl hb)
                · exact ⟨Or.inr h3, h4⟩
          | url u p s => simp [endEq, Ver.eqv] at h2
          | named n => simp [endEq, Ver.eqv] at h2
      · rw [if_neg h2]
        by_cases h3 : (!I && endEq M v) = true
        · rw [if_pos h3]
          simp at h3
          obtain ⟨rfl, h3⟩ := h3
          cases M with
          | none => simp [endEq] at h3
          | some b =>
            cases v with
            | std s =>
              have h3' : b.eqv s = true := h3
              have hok : RangeOk m (some b) i true := ⟨h.plainMin, h.plainMax, h.some, h.inclMin, by simp, h.ordered⟩
              refine ⟨.range m (some b) i true, ?_, fun w hw => ?_⟩
              · have hI := h.inclMin
                cases m with
                | none => simp [mkRange]; simpa using hI
                | some a => simp [mkRange, h.ordered a b rfl rfl]
              · dsimp only
                rw [al1 w hw]
                simp only [allows]
                rw [rangeAllows_iff _ _ _ _ hok w hw, ha w hw, max_flag s b w h3']
                simp only [Ver.eqv]
                constructor
                · rintro ⟨h4, h5 | h5⟩
                  · exact Or.inl h5
                  · exact Or.inr ⟨h4, h5⟩
                · rintro (h4 | ⟨h4, h5⟩)
                  · refine ⟨fun a ha' => ?_, Or.inl h4⟩
                    left
                    exact lt_of_lt_eqv (h.ordered a b ha' rfl) (SV.eqv_stage.trans _ _ _ h3' h4)
                  · exact ⟨h4, Or.inr h5⟩
            | url u p s => simp [endEq, Ver.eqv] at h3
            | named n => simp [endEq, Ver.eqv] at h3
        · rw [if_neg h3]
          obtain ⟨r, hr, hex⟩ := mkUnion_two (.vmatch v true) (.range m M i I) rfl rfl
          exact ⟨r, hr, fun w hw => hex _⟩

theorem match_match_union (k : Nat) (v v' : Ver) (al al' : Bool) (hv : PlainVer v)
    (hv' : PlainVer v') :
    ∃ r, unionF (k + 1) (.vmatch v al) (.vmatch v' al') = .ok r ∧
      AllowsExactly r (fun w => (VSpec.vmatch v al).allows (.std w) = true ∨
        (VSpec.vmatch v' al').allows (.std w) = true) := by
  simp only [unionF]
  by_cases he : eqv (.vmatch v al) (.vmatch v' al') = true
  · rw [if_pos he]
    exact ⟨_, rfl, fun w hw => by dsimp only; rw [eqv_allows _ _ he (.std w)]; simp⟩
  · rw [if_neg he]
    by_cases h2 : (v.eqv v' && al != al') = true
    · rw [if_pos h2]
      refine ⟨_, rfl, fun w hw => ?_⟩
      simp at h2
      dsimp only
      rw [match_allows_iff v al w hv hw.1, match_allows_iff v' al' w hv' hw.1,
        ver_eqv_congrL (.std w) h2.1]
      simp only [allows, true_iff]
      cases al <;> cases al' <;> cases v'.eqv (.std w) <;> simp at h2 ⊢
    · rw [if_neg h2]
      obtain ⟨r, hr, hex⟩ := mkUnion_two (.vmatch v al) (.vmatch v' al') rfl rfl
      exact ⟨r, hr, fun w hw => hex _⟩

/-- Union of simple specifiers. -/
theorem simple_union (n : Nat) (a b : VSpec) (ha : Simple a) (hb : Simple b)
    (hs : ∀ m1 M1 i1 I1 m2 M2 i2 I2, a = .range m1 M1 i1 I1 → b = .range m2 M2 i2 I2 →
      Staggered m1 M1 i1 m2 M2 i2 ∨ Staggered m2 M2 i2 m1 M1 i1) :
    ∃ r, unionF (n + 2) a b = .ok r ∧
      AllowsExactly r (fun w => a.allows (.std w) = true ∨ b.allows (.std w) = true) := by
  cases ha with
  | none => exact ⟨b, rfl, fun w hw => by simp [allows]⟩
  | all => exact ⟨.all, rfl, fun w hw => by simp [allows]⟩
  | vmatch v al hv =>
    cases hb with
    | none => exact ⟨.vmatch v al, rfl, fun w hw => by simp [allows]⟩
    | all => exact ⟨.all, rfl, fun w hw => by simp [allows]⟩
    | vmatch v' al' hv' => exact match_match_union _ _ _ _ _ hv hv'
    | range m M i I h => exact match_range_union _ _ _ _ _ _ _ hv h
  | range m M i I h =>
    cases hb with
    | none => exact ⟨.range m M i I, rfl, fun w hw => by simp [allows]⟩
    | all => exact ⟨.all, rfl, fun w hw => by simp [allows]⟩
    | vmatch v al hv =>
      obtain ⟨r, hr, hex⟩ := match_range_union n v al m M i I hv h
      exact ⟨r, hr, fun w hw => by rw [hex w hw]; exact or_comm⟩
    | range m2 M2 i2 I2 h2 =>
      exact range_range_union (n + 1) _ _ _ _ _ _ _ _ h h2 (hs _ _ _ _ _ _ _ _ rfl rfl)

end VSpec
end Pkm
