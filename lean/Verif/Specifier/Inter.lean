import Verif.Specifier.Lemmas
set_option linter.unusedVariables false
/-
Intersection of blocks and of conjunctions.
-/
namespace Pkm
open Spec
namespace VSpec

/-- Order of lower ends; a missing end is below everything. -/
def MinLe (m1 m2 : Option SV) : Prop :=
  ∀ a, m1 = some a → ∃ b, m2 = some b ∧ (a.lt b = true ∨ a.eqv b = true)

theorem optEq_iff (a b : Option SV) : optEq a b = true ↔
    (a = Option.none ∧ b = Option.none) ∨ ∃ x y, a = some x ∧ b = some y ∧ x.eqv y = true := by
  cases a <;> cases b <;> simp [optEq]

theorem minLe_of_rangeLt (m1 M1 : Option SV) (i1 I1 : Bool) (m2 M2 : Option SV) (i2 I2 : Bool)
    (h : rangeLt m1 M1 i1 I1 m2 M2 i2 I2 = true) : MinLe m1 m2 := by
  intro a ha; subst ha
  unfold rangeLt at h
  split at h
  · simp at h
  · cases m2 with
    | none => simp at h
    | some b =>
      refine ⟨b, rfl, ?_⟩
      cases he : a.eqv b with
      | true => exact Or.inr rfl
      | false => simp [he] at h; exact Or.inl h

theorem minLe_of_not_rangeLt (m1 M1 : Option SV) (i1 I1 : Bool) (m2 M2 : Option SV) (i2 I2 : Bool)
    (h1 : ∀ s, m1 = some s → Plain s) (h2 : ∀ s, m2 = some s → Plain s)
    (h : rangeLt m1 M1 i1 I1 m2 M2 i2 I2 = false) : MinLe m2 m1 := by
  intro b hb; subst hb
  unfold rangeLt at h
  cases m1 with
  | none =>
    split at h
    · rename_i he; simp [rangeEq, optEq] at he
    · simp at h
  | some a =>
    refine ⟨a, rfl, ?_⟩
    split at h
    · rename_i he
      simp [rangeEq, optEq] at he
      exact Or.inr (SV.eqv_stage.symm _ _ he.1.2)
    · cases he : a.eqv b with
      | true => exact Or.inr (SV.eqv_stage.symm _ _ he)
      | false =>
        simp [he] at h
        rcases plain_tri a b (h1 a rfl) (h2 b rfl) with h3 | h3 | h3
        · rw [h3] at h; simp at h
        · rw [h3] at he; simp at he
        · exact Or.inl h3

theorem AboveMin_none (i : Bool) (w : SV) : AboveMin Option.none i w ↔ True := by
  simp [AboveMin]
theorem BelowMax_none (i : Bool) (w : SV) : BelowMax Option.none i w ↔ True := by
  simp [BelowMax]
theorem AboveMin_some (m : SV) (i : Bool) (w : SV) :
    AboveMin (some m) i w ↔ m.lt w = true ∨ (i = true ∧ m.eqv w = true) := by
  simp [AboveMin]
theorem BelowMax_some (m : SV) (i : Bool) (w : SV) :
    BelowMax (some m) i w ↔ w.lt m = true ∨ (i = true ∧ m.eqv w = true) := by
  simp [BelowMax]

theorem lower_meet (m1 m2 : Option SV) (i1 i2 : Bool) (h1 : ∀ s, m1 = some s → Plain s)
    (h2 : ∀ s, m2 = some s → Plain s) (hle : MinLe m1 m2) (w : SV) (hw : Plain w) :
    AboveMin m2 (if optEq m1 m2 then i1 && i2 else i2) w ↔ AboveMin m1 i1 w ∧ AboveMin m2 i2 w := by
  cases m1 with
  | none => cases m2 <;> simp [optEq, AboveMin_none]
  | some a =>
    obtain ⟨b, hb, hab⟩ := hle a rfl
    subst hb
    obtain ⟨f, hf⟩ := ranks [w, a, b] (by
      intro v hv; simp at hv
      rcases hv with rfl | rfl | rfl
      · exact hw
      · exact h1 _ rfl
      · exact h2 _ rfl)
    have e1 := hf a w (by simp) (by simp)
    have e2 := hf b w (by simp) (by simp)
    have e3 := hf a b (by simp) (by simp)
    simp only [e3, decide_eq_true_eq] at hab
    simp only [optEq, AboveMin_some, e1, e2, e3, decide_eq_true_eq]
    by_cases h : f a = f b <;> cases i1 <;> cases i2 <;> simp [h] <;> omega

/-- The smaller of two upper ends, as chosen by the code. -/
def useOther (M1 M2 : Option SV) : Bool :=
  match M1, M2 with
  | .none, _ => true
  | some a, some b => b.lt a
  | some _, .none => false

theorem upper_meet (M1 M2 : Option SV) (I1 I2 : Bool) (h1 : ∀ s, M1 = some s → Plain s)
    (h2 : ∀ s, M2 = some s → Plain s) (w : SV) (hw : Plain w) :
    (useOther M1 M2 = true → (BelowMax M2 I2 w ↔ BelowMax M1 I1 w ∧ BelowMax M2 I2 w)) ∧
    (useOther M1 M2 = false → (BelowMax M1 (if optEq M1 M2 then I1 && I2 else I1) w ↔
      BelowMax M1 I1 w ∧ BelowMax M2 I2 w)) := by
  cases M1 with
  | none => cases M2 <;> simp [useOther, BelowMax_none]
  | some a =>
    cases M2 with
    | none => simp [useOther, BelowMax_none, optEq]
    | some b =>
      obtain ⟨f, hf⟩ := ranks [w, a, b] (by
        intro v hv; simp at hv
        rcases hv with rfl | rfl | rfl
        · exact hw
        · exact h1 _ rfl
        · exact h2 _ rfl)
      have e1 := hf a w (by simp) (by simp)
      have e2 := hf b w (by simp) (by simp)
      have e3 := hf a b (by simp) (by simp)
      have e4 := hf b a (by simp) (by simp)
      have e5 := hf w a (by simp) (by simp)
      have e6 := hf w b (by simp) (by simp)
      simp only [useOther, optEq, BelowMax_some, e1, e2, e3, e4, e5, e6, decide_eq_true_eq,
        decide_eq_false_iff_not]
      by_cases h : f a = f b <;> cases I1 <;> cases I2 <;> simp [h] <;> omega

theorem rangeInterCore_spec (m1 M1 : Option SV) (i1 I1 : Bool) (m2 M2 : Option SV) (i2 I2 : Bool)
    (h1 : RangeOk m1 M1 i1 I1) (h2 : RangeOk m2 M2 i2 I2) (hle : MinLe m1 m2) :
    ∃ r, rangeInterCore m1 M1 i1 I1 m2 M2 i2 I2 = .ok r ∧ BlockN r ∧
      AllowsExactly r (fun w => (AboveMin m1 i1 w ∧ BelowMax M1 I1 w) ∧
        (AboveMin m2 i2 w ∧ BelowMax M2 I2 w)) := by
  have hlow := fun w hw => lower_meet m1 m2 i1 i2 h1.plainMin h2.plainMin hle w hw
  have hup := fun w hw => upper_meet M1 M2 I1 I2 h1.plainMax h2.plainMax w hw
  have o2 := h2.ordered
  have a2 := h2.inclMin
  have b1 := h1.inclMax
  have b2 := h2.inclMax
  have himin : (if optEq m1 m2 then i1 && i2 else i2) = true → m2.isSome = true := by
    intro h
    by_cases he : optEq m1 m2 = true
    · rw [if_pos he] at h; simp at h; exact a2 h.2
    · rw [if_neg he] at h; exact a2 h
  unfold rangeInterCore
  extract_lets overlap imin imax uo
  have huo : uo = useOther M1 M2 := rfl
  by_cases hov : overlap = true
  · rw [if_pos hov]
    by_cases huse : uo = true
    · rw [if_pos huse]
      obtain ⟨r, hr, hb, hex⟩ := createRange_spec m2 M2 imin I2 h2.plainMin h2.plainMax
        himin b2 (fun a b ha hb => Or.inl (o2 a b ha hb))
      refine ⟨r, hr, hb, fun w hw => ?_⟩
      rw [hex w hw]
      have e1 := hlow w hw.1
      have e2 := (hup w hw.1).1 (huo ▸ huse)
      simp only [imin]
      constructor
      · rintro ⟨p, q⟩
        have p' := e1.mp p; have q' := e2.mp q
        exact ⟨⟨p'.1, q'.1⟩, p'.2, q'.2⟩
      · rintro ⟨⟨p, q⟩, p', q'⟩
        exact ⟨e1.mpr ⟨p, p'⟩, q'⟩
    · rw [if_neg huse]
      obtain ⟨r, hr, hb, hex⟩ := createRange_spec m2 M1 imin imax h2.plainMin h1.plainMax himin
        (by
          intro h
          simp only [imax] at h
          split at h
          · simp at h; exact b1 h.1
          · exact b1 h)
        (by
          intro a b ha hb
          subst ha; subst hb
          exact Or.inl hov)
      refine ⟨r, hr, hb, fun w hw => ?_⟩
      rw [hex w hw]
      have e1 := hlow w hw.1
      have e2 := (hup w hw.1).2 (by rw [← huo]; simpa using huse)
      simp only [imin, imax]
      constructor
      · rintro ⟨p, q⟩
        have p' := e1.mp p; have q' := e2.mp q
        exact ⟨⟨p'.1, q'.1⟩, p'.2, q'.2⟩
      · rintro ⟨⟨p, q⟩, p', q'⟩
        exact ⟨e1.mpr ⟨p, p'⟩, e2.mpr ⟨q, q'⟩⟩
  · rw [if_neg hov]
    cases M1 with
    | none => simp [overlap] at hov
    | some a =>
      cases m2 with
      | none => simp [overlap] at hov
      | some b =>
        simp only [overlap] at hov
        have pa := h1.plainMax a rfl
        have pb := h2.plainMin b rfl
        by_cases hc : (I1 && i2 && optEq (some a) (some b)) = true
        · simp only [hc, if_true]
          simp [optEq] at hc
          obtain ⟨⟨rfl, rfl⟩, heq⟩ := hc
          refine ⟨_, rfl, Or.inr (.one a pa), fun w hw => ?_⟩
          rw [allows, matchAllows_std a w true pa hw.1]
          have e1 := hlow w hw.1
          have hba := SV.eqv_stage.symm _ _ heq
          have hb' : BelowMax M2 I2 w ↔ BelowMax M2 I2 w := Iff.rfl
          simp only [if_true]
          constructor
          · intro haw
            have hbw := SV.eqv_stage.trans _ _ _ hba haw
            refine ⟨⟨?_, (BelowMax_some _ _ _).mpr (Or.inr ⟨rfl, haw⟩)⟩,
              (AboveMin_some _ _ _).mpr (Or.inr ⟨rfl, hbw⟩), ?_⟩
            · intro m hm
              have := h1.ordered m a hm rfl
              exact Or.inl (by rw [← SV.eqv_stage.congrR a w m haw]; exact this)
            · intro m hm
              have := h2.ordered b m rfl hm
              exact Or.inl (by rw [← SV.eqv_stage.congrL b w m hbw]; exact this)
          · rintro ⟨⟨_, p⟩, q, _⟩
            rw [BelowMax_some] at p
            rw [AboveMin_some] at q
            rcases p with p | p
            · rcases q with q | q
              · have := SV.eqv_stage.ltTrans _ _ _ q p
                exact absurd this hov
              · exact SV.eqv_stage.trans _ _ _ heq q.2
            · exact p.2
        · simp only [hc]
          refine ⟨.none, by simp, Or.inl rfl, fun w hw => ?_⟩
          simp only [allows, Bool.false_eq_true, false_iff]
          rintro ⟨⟨_, p⟩, q, _⟩
          rw [BelowMax_some] at p
          rw [AboveMin_some] at q
          apply hov
          rcases p with p | ⟨p1, p2⟩ <;> rcases q with q | ⟨q1, q2⟩
          · exact SV.eqv_stage.ltTrans _ _ _ q p
          · rw [SV.eqv_stage.congrL b w a q2]; exact p
          · rw [SV.eqv_stage.congrR a w b p2]; exact q
          · exfalso; apply hc
            simp [optEq, p1, q1]
            exact SV.eqv_stage.trans _ _ _ p2 (SV.eqv_stage.symm _ _ q2)

theorem rangeInter_spec (m1 M1 : Option SV) (i1 I1 : Bool) (m2 M2 : Option SV) (i2 I2 : Bool)
    (h1 : RangeOk m1 M1 i1 I1) (h2 : RangeOk m2 M2 i2 I2) :
    ∃ r, rangeInter m1 M1 i1 I1 m2 M2 i2 I2 = .ok r ∧ BlockN r ∧
      AllowsExactly r (fun w => (AboveMin m1 i1 w ∧ BelowMax M1 I1 w) ∧
        (AboveMin m2 i2 w ∧ BelowMax M2 I2 w)) := by
  unfold rangeInter
  cases h : rangeLt m2 M2 i2 I2 m1 M1 i1 I1 with
  | true =>
    obtain ⟨r, hr, hb, hex⟩ := rangeInterCore_spec _ _ _ _ _ _ _ _ h2 h1
      (minLe_of_rangeLt _ _ _ _ _ _ _ _ h)
    exact ⟨r, by simpa using hr, hb, fun w hw => by rw [hex w hw]; exact and_comm⟩
  | false =>
    obtain ⟨r, hr, hb, hex⟩ := rangeInterCore_spec _ _ _ _ _ _ _ _ h1 h2
      (minLe_of_not_rangeLt _ _ _ _ _ _ _ _ h2.plainMin h1.plainMin h)
    exact ⟨r, by simpa using hr, hb, hex⟩

/-! ### blocks -/

theorem block_allows_congr (b : VSpec) (hb : Block b) (s w : SV) (hs : Plain s) (hw : Plain w)
    (h : s.eqv w = true) : b.allows (.std s) = b.allows (.std w) := by
  cases hb with
  | all => rfl
  | range min max imin imax hok => simp only [allows]; exact rangeAllows_congr _ _ _ _ _ _ h
  | one x hx =>
    simp only [allows, matchAllows_std x s true hx hs, matchAllows_std x w true hx hw]
    simp [eqv_congrR x h]

theorem eqv_range_allows {m1 M1 : Option SV} {i1 I1 : Bool} {m2 M2 : Option SV} {i2 I2 : Bool}
    (h : rangeEq m1 M1 i1 I1 m2 M2 i2 I2 = true) (w : SV) :
    rangeAllows m1 M1 i1 I1 (.std w) = rangeAllows m2 M2 i2 I2 (.std w) := by
  simp [rangeEq] at h
  obtain ⟨⟨⟨rfl, rfl⟩, hm⟩, hM⟩ := h
  rw [optEq_iff] at hm hM
  rcases hm with ⟨rfl, rfl⟩ | ⟨x, y, rfl, rfl, hxy⟩ <;>
    rcases hM with ⟨rfl, rfl⟩ | ⟨x', y', rfl, rfl, hxy'⟩
  · rfl
  · simp [rangeAllows, endEq, Ver.eqv, Ver.lt, eqv_congrL w hxy', SV.eqv_stage.congrR _ _ w hxy']
  · have : x.isPost = y.isPost := by simp [SV.isPost, eqv_post hxy]
    simp [rangeAllows, endEq, Ver.eqv, Ver.lt, eqv_congrL w hxy, SV.eqv_stage.congrL _ _ w hxy, this]
  · have : x.isPost = y.isPost := by simp [SV.isPost, eqv_post hxy]
    simp [rangeAllows, endEq, Ver.eqv, Ver.lt, eqv_congrL w hxy, SV.eqv_stage.congrL _ _ w hxy, this,
      eqv_congrL w hxy', SV.eqv_stage.congrR _ _ w hxy']

/-- A match against a block. -/
theorem one_block (s : SV) (b : VSpec) (hs : Plain s) (hb : Block b) :
    AllowsExactly (if b.allows (.std s) then .vmatch (.std s) true else .none)
      (fun w => (VSpec.vmatch (.std s) true).allows (.std w) = true ∧ b.allows (.std w) = true) := by
  intro w hw
  have e : (VSpec.vmatch (.std s) true).allows (.std w) = s.eqv w := by
    rw [allows, matchAllows_std s w true hs hw.1]; simp
  show _ ↔ (VSpec.vmatch (.std s) true).allows (.std w) = true ∧ b.allows (.std w) = true
  rw [e]
  cases h : s.eqv w with
  | true =>
    rw [← block_allows_congr b hb s w hs hw.1 h]
    cases hb' : b.allows (.std s) with
    | true => simp [e, h]
    | false => simp [allows]
  | false =>
    cases hb' : b.allows (.std s) with
    | true => simp [e, h]
    | false => simp [allows]

theorem block_inter (n : Nat) (a b : VSpec) (ha : BlockN a) (hb : BlockN b) :
    ∃ r, interF (n + 2) a b = .ok r ∧ BlockN r ∧
      AllowsExactly r (fun w => a.allows (.std w) = true ∧ b.allows (.std w) = true) := by
  rcases ha with rfl | ha
  · exact ⟨.none, by simp [interF], Or.inl rfl, fun w hw => by simp [allows]⟩
  rcases hb with rfl | hb
  · refine ⟨.none, ?_, Or.inl rfl, fun w hw => by simp [allows]⟩
    cases ha <;> simp [interF]
  have matchmatch : ∀ (s t : SV), Plain s → Plain t →
      ∃ r, interF (n + 2) (.vmatch (.std s) true) (.vmatch (.std t) true) = .ok r ∧ BlockN r ∧
      AllowsExactly r (fun w => (VSpec.vmatch (.std s) true).allows (.std w) = true ∧
        (VSpec.vmatch (.std t) true).allows (.std w) = true) := by
    intro s t hs ht
    have l1 : s.isLocal = false := by simp [SV.isLocal, hs.2.2]
    have l2 : t.isLocal = false := by simp [SV.isLocal, ht.2.2]
    have hob := one_block s _ hs (.one t ht)
    have e : (VSpec.vmatch (.std t) true).allows (.std s) = t.eqv s := by
      rw [allows, matchAllows_std t s true ht hs]; simp
    rw [e] at hob
    cases h : s.eqv t with
    | true =>
      rw [SV.eqv_stage.symm _ _ h] at hob
      exact ⟨_, by simp [interF, eqv, Ver.eqv, h], Or.inr (.one s hs), by simpa using hob⟩
    | false =>
      rw [eqv_symm, h] at hob
      exact ⟨.none, by simp [interF, eqv, Ver.eqv, h, Ver.isLocal, l1, l2], Or.inl rfl, by simpa using hob⟩
  have matchrange : ∀ (k : Nat) (s : SV) (m M : Option SV) (i I : Bool), Plain s → RangeOk m M i I →
      ∃ r, interF (k + 1) (.vmatch (.std s) true) (.range m M i I) = .ok r ∧ BlockN r ∧
      AllowsExactly r (fun w => (VSpec.vmatch (.std s) true).allows (.std w) = true ∧
        (VSpec.range m M i I).allows (.std w) = true) := by
    intro k s m M i I hs hok
    have hob := one_block s _ hs (.range _ _ _ _ hok)
    cases h : rangeAllows m M i I (.std s) with
    | true =>
      simp only [allows, h, if_true] at hob
      exact ⟨_, by simp [interF, Ver.isStd, h], Or.inr (.one s hs), by simpa [allows] using hob⟩
    | false =>
      simp only [allows, h] at hob
      exact ⟨.none, by simp [interF, Ver.isStd, h], Or.inl rfl, by simpa [allows] using hob⟩
  cases ha with
  | all => exact ⟨b, by simp [interF], Or.inr hb, fun w hw => by simp [allows]⟩
  | one s hs =>
    cases hb with
    | all => exact ⟨_, by simp [interF], Or.inr (.one s hs), fun w hw => by simp [allows]⟩
    | one t ht => exact matchmatch s t hs ht
    | range m M i I hok => exact matchrange (n + 1) s m M i I hs hok
  | range m M i I hok =>
    cases hb with
    | all => exact ⟨_, by simp [interF], Or.inr (.range _ _ _ _ hok), fun w hw => by simp [allows]⟩
    | one t ht =>
      obtain ⟨r, hr, hb, hex⟩ := matchrange n t m M i I ht hok
      exact ⟨r, by rw [← hr]; simp [interF], hb, fun w hw => by rw [hex w hw]; exact and_comm⟩
    | range m' M' i' I' hok' =>
      cases he : eqv (.range m M i I) (.range m' M' i' I') with
      | true =>
        refine ⟨.range m M i I, by simp [interF, he], Or.inr (.range _ _ _ _ hok), fun w hw => ?_⟩
        simp only [eqv] at he
        simp only [allows]
        rw [eqv_range_allows he]; simp
      | false =>
        obtain ⟨r, hr, hb, hex⟩ := rangeInter_spec _ _ _ _ _ _ _ _ hok hok'
        refine ⟨r, by simp [interF, he, hr], hb, fun w hw => ?_⟩
        rw [hex w hw]
        simp only [allows]
        rw [rangeAllows_iff _ _ _ _ hok w hw, rangeAllows_iff _ _ _ _ hok' w hw]

/-! ### conjunctions -/

theorem hetro_allows (bl : List Ver) (b : VSpec) (hbl : ∀ v, v ∈ bl → PlainVer v) (w : SV)
    (hw : Plain w) : (VSpec.hetro bl b).allows (.std w) = true ↔
      (¬ ∃ v, v ∈ bl ∧ v.eqv (.std w) = true) ∧ b.allows (.std w) = true := by
  rw [← memSet_iff w bl hw hbl]
  simp only [allows, Ver.isStd]
  cases memSet (.std w) bl <;> simp

/-- `HetroVersionIntersection.create` on a block. -/
theorem createHetro_spec (bl : List Ver) (b : VSpec) (hbl : ∀ v, v ∈ bl → PlainVer v)
    (hb : BlockN b) : ∃ r, createHetro bl b = .ok r ∧ Conj r ∧
      AllowsExactly r (fun w => (¬ ∃ v, v ∈ bl ∧ v.eqv (.std w) = true) ∧ b.allows (.std w) = true) := by
  rcases hb with rfl | hb
  · exact ⟨.none, by simp [createHetro], .none, fun w hw => by simp [allows]⟩
  have key : ∀ w, Candidate w → b.allows (.std w) = true →
      ((∃ v, v ∈ bl.filter (fun it => !it.isStd || allows b it) ∧ v.eqv (.std w) = true) ↔
        ∃ v, v ∈ bl ∧ v.eqv (.std w) = true) := by
    intro w hw hbw
    constructor
    · rintro ⟨v, hv, h⟩; exact ⟨v, (List.mem_filter.mp hv).1, h⟩
    · rintro ⟨v, hv, h⟩
      refine ⟨v, List.mem_filter.mpr ⟨hv, ?_⟩, h⟩
      cases v with
      | url u p s => rfl
      | named n => rfl
      | std s => simp [Ver.isStd]; rw [block_allows_congr b hb s w (hbl _ hv s rfl) hw.1 h]; exact hbw
  have hbl' : ∀ v, v ∈ bl.filter (fun it => !it.isStd || allows b it) → PlainVer v :=
    fun v hv => hbl v (List.mem_filter.mp hv).1
  have goal : ∀ (bl' : List Ver), bl' = bl.filter (fun it => !it.isStd || allows b it) →
      bl' ≠ [] → AllowsExactly (.hetro bl' b)
        (fun w => (¬ ∃ v, v ∈ bl ∧ v.eqv (.std w) = true) ∧ b.allows (.std w) = true) := by
    intro bl' he hne w hw
    subst he
    rw [hetro_allows _ b hbl' w hw.1]
    constructor
    · rintro ⟨h1, h2⟩; exact ⟨fun h => h1 ((key w hw h2).mpr h), h2⟩
    · rintro ⟨h1, h2⟩; exact ⟨fun h => h1 ((key w hw h2).mp h), h2⟩
  have hdef : createHetro bl b =
      (match bl.filter (fun it => !it.isStd || allows b it), b with
        | [], _ => .ok b
        | [v], .all => .ok (.vmatch v false)
        | _, _ => mkHetro (bl.filter (fun it => !it.isStd || allows b it)) b) := by
    unfold createHetro
    cases hb <;> rfl
  rw [hdef]
  generalize hx : bl.filter (fun it => !it.isStd || allows b it) = bl' at *
  match bl', hx with
  | [], hx =>
    refine ⟨b, rfl, .block b hb, fun w hw => ?_⟩
    constructor
    · intro h
      refine ⟨fun hx => ?_, h⟩
      obtain ⟨v, hv, _⟩ := (key w hw h).mpr hx
      simp at hv
    · exact fun h => h.2
  | v :: rest, hx =>
    by_cases hone : rest = [] ∧ b = .all
    · obtain ⟨rfl, rfl⟩ := hone
      have hv := hbl' v (by simp)
      refine ⟨_, rfl, .vmatch v false hv, fun w hw => ?_⟩
      dsimp only
      rw [← key w hw rfl]
      simp only [allows]
      rw [matchAllows_plain v w false hv hw.1]
      simp
    · refine ⟨.hetro (v :: rest) b, ?_, .minus _ b (by simp) (by
          intro hba; subst hba
          cases rest with
          | nil => simp at hone
          | cons => simp) hbl' hb, goal _ rfl (by simp)⟩
      cases rest with
      | nil => cases hb <;> simp_all [mkHetro]
      | cons x xs => cases hb <;> simp [mkHetro]

theorem match_allows_iff (v : Ver) (allow : Bool) (w : SV) (hv : PlainVer v) (hw : Plain w) :
    (VSpec.vmatch v allow).allows (.std w) = true ↔ (v.eqv (.std w) = allow) := by
  rw [allows, matchAllows_plain v w allow hv hw]
  cases allow <;> simp

theorem plainVer_isLocal (v : Ver) (hv : PlainVer v) : v.isLocal = false := by
  cases v with
  | std s => simp [Ver.isLocal, SV.isLocal, (hv s rfl).2.2]
  | _ => rfl

theorem ver_eqv_symm (a b : Ver) (h : a.eqv b = true) : b.eqv a = true :=
  version_eq_equivalence.2.1 a b h

theorem match_match (k : Nat) (v v' : Ver) (al al' : Bool) (hv : PlainVer v) (hv' : PlainVer v') :
    ∃ r, interF (k + 1) (.vmatch v al) (.vmatch v' al') = .ok r ∧ Conj r ∧
      AllowsExactly r (fun w => (VSpec.vmatch v al).allows (.std w) = true ∧
        (VSpec.vmatch v' al').allows (.std w) = true) := by
  have l1 := plainVer_isLocal v hv
  have l2 := plainVer_isLocal v' hv'
  have tr : ∀ w, v.eqv v' = true → v.eqv w = true → v'.eqv w = true := fun w h1 h2 =>
    ver_eqv_trans _ _ _ (ver_eqv_symm _ _ h1) h2
  have tr' : ∀ w, v.eqv v' = true → v'.eqv w = true → v.eqv w = true := fun w h1 h2 =>
    ver_eqv_trans _ _ _ h1 h2
  have tr2 : ∀ w, v.eqv w = true → v'.eqv w = true → v.eqv v' = true := fun w h1 h2 =>
    ver_eqv_trans _ _ _ h1 (ver_eqv_symm _ _ h2)
  have al1 := fun w (hw : Candidate w) => match_allows_iff v al w hv hw.1
  have al2 := fun w (hw : Candidate w) => match_allows_iff v' al' w hv' hw.1
  cases h : v.eqv v' with
  | true =>
    by_cases hal : al = al'
    · subst hal
      refine ⟨_, by simp [interF, eqv, h], .vmatch v al hv, fun w hw => ?_⟩
      dsimp only; rw [al1 w hw, al2 w hw]
      have := tr (.std w) h; have := tr' (.std w) h
      cases al <;> cases h1 : v.eqv (.std w) <;> cases h2 : v'.eqv (.std w) <;> simp_all
    · have hne : (al == al') = false := by simpa using hal
      refine ⟨.none, ?_, .none, fun w hw => ?_⟩
      · simp [interF, eqv, h, hne, l1, l2]
        cases al <;> cases al' <;> simp_all
      · dsimp only; rw [al1 w hw, al2 w hw]
        have := tr (.std w) h; have := tr' (.std w) h
        cases al <;> cases al' <;> cases h1 : v.eqv (.std w) <;> cases h2 : v'.eqv (.std w) <;>
          simp_all [allows]
  | false =>
    have hex : ∀ w, v.eqv w = true → v'.eqv w = true → False := fun w h1 h2 => by
      rw [tr2 w h1 h2] at h; simp at h
    cases al <;> cases al'
    · have hm : memSet v' [v] = false := by
        simp [memSet, h]
      have hpl : ∀ x, x ∈ [v, v'] → PlainVer x := by
        intro x hx; simp at hx; rcases hx with rfl | rfl <;> assumption
      refine ⟨.hetro [v, v'] .all, by simp [interF, eqv, h, addSet, hm, mkHetro],
        .minus _ _ (by simp) (by simp) hpl .all, fun w hw => ?_⟩
      dsimp only; rw [al1 w hw, al2 w hw, hetro_allows _ _ hpl w hw.1]
      simp [allows]
    · refine ⟨_, by simp [interF, eqv, h, l1, l2], .vmatch v' true hv', fun w hw => ?_⟩
      dsimp only; rw [al1 w hw, al2 w hw]
      have := hex (.std w)
      cases h1 : v.eqv (.std w) <;> cases h2 : v'.eqv (.std w) <;> simp_all
    · refine ⟨_, by simp [interF, eqv, h, l1, l2], .vmatch v true hv, fun w hw => ?_⟩
      dsimp only; rw [al1 w hw, al2 w hw]
      have := hex (.std w)
      cases h1 : v.eqv (.std w) <;> cases h2 : v'.eqv (.std w) <;> simp_all
    · refine ⟨.none, by simp [interF, eqv, h, l1, l2], .none, fun w hw => ?_⟩
      dsimp only; rw [al1 w hw, al2 w hw]
      have := hex (.std w)
      cases h1 : v.eqv (.std w) <;> cases h2 : v'.eqv (.std w) <;> simp_all [allows]

/-- Versions equal to `v` behave like `v` on a block. -/
theorem block_allows_ver (b : VSpec) (hb : Block b) (v : Ver) (hv : PlainVer v) (w : SV)
    (hw : Plain w) (h : v.eqv (.std w) = true) :
    v.isStd = true ∧ b.allows v = b.allows (.std w) := by
  cases v with
  | std s => exact ⟨rfl, block_allows_congr b hb s w (hv s rfl) hw h⟩
  | _ => simp [Ver.eqv] at h

theorem match_range (k : Nat) (v : Ver) (al : Bool) (m M : Option SV) (i I : Bool)
    (hv : PlainVer v) (hok : RangeOk m M i I) :
    ∃ r, interF (k + 1) (.vmatch v al) (.range m M i I) = .ok r ∧ Conj r ∧
      AllowsExactly r (fun w => (VSpec.vmatch v al).allows (.std w) = true ∧
        (VSpec.range m M i I).allows (.std w) = true) := by
  have hb : Block (.range m M i I) := .range _ _ _ _ hok
  have al1 := fun w (hw : Candidate w) => match_allows_iff v al w hv hw.1
  have bv := fun w (hw : Candidate w) => block_allows_ver _ hb v hv w hw.1
  by_cases hs : (v.isStd && rangeAllows m M i I v) = true
  · cases al with
    | true =>
      refine ⟨_, by simp only [interF, hs, if_true], .vmatch v true hv, fun w hw => ?_⟩
      dsimp only; rw [al1 w hw]
      have := bv w hw
      simp only [allows] at *
      cases h1 : v.eqv (.std w) <;> simp_all
    | false =>
      have hpl : ∀ x, x ∈ [v] → PlainVer x := by intro x hx; simp at hx; subst hx; exact hv
      refine ⟨.hetro [v] (.range m M i I), by simp [interF, hs, mkHetro],
        .minus _ _ (by simp) (by simp) hpl hb, fun w hw => ?_⟩
      dsimp only; rw [al1 w hw, hetro_allows _ _ hpl w hw.1]
      simp
  · cases al with
    | true =>
      refine ⟨.none, by simp only [interF, hs]; simp, .none, fun w hw => ?_⟩
      dsimp only; rw [al1 w hw]
      have := bv w hw
      simp only [allows] at *
      cases h1 : v.eqv (.std w) <;> simp_all
    | false =>
      refine ⟨_, by simp only [interF, hs]; simp, .block _ hb, fun w hw => ?_⟩
      dsimp only; rw [al1 w hw]
      have := bv w hw
      simp only [allows] at *
      cases h1 : v.eqv (.std w) <;> simp_all

theorem hetro_match (k : Nat) (bl : List Ver) (b : VSpec) (v : Ver) (al : Bool)
    (hbl : ∀ v, v ∈ bl → PlainVer v) (hb : Block b) (hv : PlainVer v) :
    ∃ r, interF (k + 1) (.hetro bl b) (.vmatch v al) = .ok r ∧ Conj r ∧
      AllowsExactly r (fun w => (VSpec.hetro bl b).allows (.std w) = true ∧
        (VSpec.vmatch v al).allows (.std w) = true) := by
  have al1 := fun w (hw : Candidate w) => match_allows_iff v al w hv hw.1
  have bv := fun w (hw : Candidate w) => block_allows_ver _ hb v hv w hw.1
  have ha := fun w (hw : Candidate w) => hetro_allows bl b hbl w hw.1
  have mem_congr : ∀ w, v.eqv w = true →
      ((∃ x, x ∈ bl ∧ x.eqv w = true) ↔ (∃ x, x ∈ bl ∧ x.eqv v = true)) := by
    intro w h
    constructor
    · rintro ⟨x, hx, hh⟩; exact ⟨x, hx, ver_eqv_trans _ _ _ hh (ver_eqv_symm _ _ h)⟩
    · rintro ⟨x, hx, hh⟩; exact ⟨x, hx, ver_eqv_trans _ _ _ hh h⟩
  cases al with
  | true =>
    cases v with
    | std s =>
      have hm := memSet_iff s bl (hv s rfl) hbl
      by_cases hc : (allows b (.std s) && !memSet (.std s) bl) = true
      · refine ⟨_, by simp only [interF, Ver.isStd, Bool.and_self, if_true, hc], .vmatch _ true hv,
          fun w hw => ?_⟩
        dsimp only; rw [al1 w hw, ha w hw]
        have h1 := bv w hw
        have h2 := mem_congr (.std w)
        simp only [Bool.and_eq_true, Bool.not_eq_true'] at hc
        constructor
        · intro he
          refine ⟨⟨?_, ?_⟩, he⟩
          · rw [h2 he, ← hm, hc.2]; simp
          · rw [← (h1 he).2]; exact hc.1
        · exact fun h => h.2
      · refine ⟨.none, by simp only [interF, Ver.isStd, Bool.and_self, if_true, hc]; simp, .none,
          fun w hw => ?_⟩
        dsimp only; rw [al1 w hw, ha w hw]
        have h1 := bv w hw
        have h2 := mem_congr (.std w)
        simp only [allows, Bool.false_eq_true, false_iff]
        rintro ⟨⟨h3, h4⟩, he⟩
        apply hc
        rw [h2 he, ← hm] at h3
        rw [(h1 he).2, h4]; simpa using h3
    | url u p s =>
      by_cases hc : memSet (.url u p s) bl = true
      · refine ⟨.none, by simp [interF, Ver.isStd, hc], .none, fun w hw => ?_⟩
        dsimp only; rw [al1 w hw]; simp [allows, Ver.eqv]
      · refine ⟨_, by simp [interF, Ver.isStd, hc], .vmatch _ true hv, fun w hw => ?_⟩
        dsimp only; rw [al1 w hw]; simp [Ver.eqv]
    | named s =>
      by_cases hc : memSet (.named s) bl = true
      · refine ⟨.none, by simp [interF, Ver.isStd, hc], .none, fun w hw => ?_⟩
        dsimp only; rw [al1 w hw]; simp [allows, Ver.eqv]
      · refine ⟨_, by simp [interF, Ver.isStd, hc], .vmatch _ true hv, fun w hw => ?_⟩
        dsimp only; rw [al1 w hw]; simp [Ver.eqv]
  | false =>
    obtain ⟨r, hr, hcj, hex⟩ := createHetro_spec (addSet bl v) b (by
      intro x hx
      rcases addSet_mem bl v x hx with h | h
      · exact hbl x h
      · subst h; exact hv) (Or.inr hb)
    refine ⟨r, by simp [interF, hr], hcj, fun w hw => ?_⟩
    refine (hex w hw).trans ?_
    dsimp only
    rw [al1 w hw, ha w hw, addSet_any]
    cases v.eqv (.std w) <;> simp

theorem hetro_range (k : Nat) (bl : List Ver) (b : VSpec) (m M : Option SV) (i I : Bool)
    (hbl : ∀ v, v ∈ bl → PlainVer v) (hb : Block b) (hok : RangeOk m M i I) :
    ∃ r, interF (k + 3) (.hetro bl b) (.range m M i I) = .ok r ∧ Conj r ∧
      AllowsExactly r (fun w => (VSpec.hetro bl b).allows (.std w) = true ∧
        (VSpec.range m M i I).allows (.std w) = true) := by
  obtain ⟨s, hs, hsb, hsx⟩ := block_inter k b (.range m M i I) (Or.inr hb) (Or.inr (.range _ _ _ _ hok))
  obtain ⟨r, hr, hcj, hex⟩ := createHetro_spec bl s hbl hsb
  refine ⟨r, ?_, hcj, fun w hw => ?_⟩
  · rw [interF, hs]; exact hr
  · refine (hex w hw).trans ?_
    dsimp only
    rw [hsx w hw, hetro_allows bl b hbl w hw.1]; exact and_assoc.symm

theorem hetro_hetro (k : Nat) (bl bl' : List Ver) (b b' : VSpec)
    (hbl : ∀ v, v ∈ bl → PlainVer v) (hbl' : ∀ v, v ∈ bl' → PlainVer v) (hb : Block b)
    (hb' : Block b') :
    ∃ r, interF (k + 3) (.hetro bl b) (.hetro bl' b') = .ok r ∧ Conj r ∧
      AllowsExactly r (fun w => (VSpec.hetro bl b).allows (.std w) = true ∧
        (VSpec.hetro bl' b').allows (.std w) = true) := by
  obtain ⟨s, hs, hsb, hsx⟩ := block_inter k b b' (Or.inr hb) (Or.inr hb')
  obtain ⟨r, hr, hcj, hex⟩ := createHetro_spec (unionSet bl bl') s (by
    intro x hx
    rcases unionSet_mem bl' bl x hx with h | h
    · exact hbl x h
    · exact hbl' x h) hsb
  refine ⟨r, ?_, hcj, fun w hw => ?_⟩
  · rw [interF, hs]; exact hr
  · refine (hex w hw).trans ?_
    dsimp only
    rw [hsx w hw, hetro_allows bl b hbl w hw.1, hetro_allows bl' b' hbl' w hw.1,
      unionSet_any, not_or]
    constructor
    · rintro ⟨⟨h1, h2⟩, h3, h4⟩; exact ⟨⟨h1, h3⟩, h2, h4⟩
    · rintro ⟨⟨h1, h3⟩, h2, h4⟩; exact ⟨⟨h1, h2⟩, h3, h4⟩

theorem flip_spec {a b : VSpec} {n m : Nat} (he : interF m b a = interF n a b)
    (h : ∃ r, interF n a b = .ok r ∧ Conj r ∧
      AllowsExactly r (fun w => a.allows (.std w) = true ∧ b.allows (.std w) = true)) :
    ∃ r, interF m b a = .ok r ∧ Conj r ∧
      AllowsExactly r (fun w => b.allows (.std w) = true ∧ a.allows (.std w) = true) := by
  obtain ⟨r, hr, hc, hex⟩ := h
  exact ⟨r, by rw [he, hr], hc, fun w hw => by rw [hex w hw]; exact and_comm⟩

theorem BlockN.conj {r : VSpec} (h : BlockN r) : Conj r := by
  rcases h with rfl | h
  · exact .none
  · exact .block _ h

/-- Intersection of two conjunctions. -/
theorem conj_inter (n : Nat) (a b : VSpec) (ha : Conj a) (hb : Conj b) :
    ∃ r, interF (n + 4) a b = .ok r ∧ Conj r ∧
      AllowsExactly r (fun w => a.allows (.std w) = true ∧ b.allows (.std w) = true) := by
  have left_all : ∀ b, Conj b → ∃ r, interF (n + 4) .all b = .ok r ∧ Conj r ∧
      AllowsExactly r (fun w => VSpec.all.allows (.std w) = true ∧ b.allows (.std w) = true) :=
    fun b hb => ⟨b, by simp [interF], hb, fun w hw => by simp [allows]⟩
  have right_all : ∀ a, Conj a → ∃ r, interF (n + 4) a .all = .ok r ∧ Conj r ∧
      AllowsExactly r (fun w => a.allows (.std w) = true ∧ VSpec.all.allows (.std w) = true) := by
    intro a ha
    refine ⟨a, ?_, ha, fun w hw => by simp [allows]⟩
    cases ha with
    | none => simp [interF]
    | block _ h => cases h <;> simp [interF]
    | vmatch => simp [interF]
    | minus => simp [interF]
  have pl : ∀ s, Plain s → PlainVer (.std s) := by
    intro s hs x hx; simp at hx; subst hx; exact hs
  cases ha with
  | none => exact ⟨.none, by simp [interF], .none, fun w hw => by simp [allows]⟩
  | block _ ha =>
    cases hb with
    | none =>
      refine ⟨.none, ?_, .none, fun w hw => by simp [allows]⟩
      cases ha <;> simp [interF]
    | block _ hb =>
      obtain ⟨r, hr, hbn, hex⟩ := block_inter (n + 2) a b (Or.inr ha) (Or.inr hb)
      exact ⟨r, hr, hbn.conj, hex⟩
    | vmatch v al hv =>
      cases ha with
      | all => exact left_all _ (.vmatch v al hv)
      | one s hs => exact match_match _ _ _ _ _ (pl s hs) hv
      | range m M i I hok =>
        exact flip_spec (n := n + 3) (by rfl) (match_range _ _ _ _ _ _ _ hv hok)
    | minus bl x hne htwo hbl hx =>
      cases ha with
      | all => exact left_all _ (.minus bl x hne htwo hbl hx)
      | one s hs => exact flip_spec (n := n + 3) (by rfl) (hetro_match _ _ _ _ _ hbl hx (pl s hs))
      | range m M i I hok =>
        exact flip_spec (n := n + 3) (by rfl) (hetro_range _ _ _ _ _ _ _ hbl hx hok)
  | vmatch v al hv =>
    cases hb with
    | none => exact ⟨.none, by simp [interF], .none, fun w hw => by simp [allows]⟩
    | block _ hb =>
      cases hb with
      | all => exact right_all _ (.vmatch v al hv)
      | one s hs => exact match_match _ _ _ _ _ hv (pl s hs)
      | range m M i I hok => exact match_range _ _ _ _ _ _ _ hv hok
    | vmatch v' al' hv' => exact match_match _ _ _ _ _ hv hv'
    | minus bl x hne htwo hbl hx =>
      exact flip_spec (n := n + 3) (by rfl) (hetro_match _ _ _ _ _ hbl hx hv)
  | minus bl x hne htwo hbl hx =>
    cases hb with
    | none => exact ⟨.none, by simp [interF], .none, fun w hw => by simp [allows]⟩
    | block _ hb =>
      cases hb with
      | all => exact right_all _ (.minus bl x hne htwo hbl hx)
      | one s hs => exact hetro_match _ _ _ _ _ hbl hx (pl s hs)
      | range m M i I hok => exact hetro_range _ _ _ _ _ _ _ hbl hx hok
    | vmatch v al hv => exact hetro_match _ _ _ _ _ hbl hx hv
    | minus bl' x' hne' htwo' hbl' hx' => exact hetro_hetro _ _ _ _ _ hbl hbl' hx hx'

end VSpec
end Pkm
