import Verif.Specifier.Region
set_option linter.unusedVariables false
/-
Lemmas about `inverse`, and about equality of specifiers.
-/
namespace Pkm
open Spec
namespace VSpec

/-- Complement of a lower end. -/
theorem below_compl (a : SV) (i : Bool) (w : SV) (ha : Plain a) (hw : Plain w) :
    BelowMax (some a) (!i) w ↔ ¬ AboveMin (some a) i w := by
  rw [BelowMax_some, AboveMin_some]
  obtain ⟨f, hf⟩ := ranks [a, w] (by simp [ha, hw])
  have h1 := hf a w (by simp) (by simp)
  have h2 := (hf w a (by simp) (by simp)).1
  rw [h1.1, h1.2, h2]
  cases i <;> simp <;> omega

/-- Complement of an upper end. -/
theorem above_compl (a : SV) (i : Bool) (w : SV) (ha : Plain a) (hw : Plain w) :
    AboveMin (some a) (!i) w ↔ ¬ BelowMax (some a) i w := by
  rw [BelowMax_some, AboveMin_some]
  obtain ⟨f, hf⟩ := ranks [a, w] (by simp [ha, hw])
  have h1 := hf a w (by simp) (by simp)
  have h2 := (hf w a (by simp) (by simp)).1
  rw [h1.1, h1.2, h2]
  cases i <;> simp <;> omega

theorem createRange_upto (a : SV) (i : Bool) :
    createRange Option.none (some a) false i = .ok (.range Option.none (some a) false i) := by
  simp [createRange, optEq, mkRange]

theorem createRange_from (a : SV) (i : Bool) :
    createRange (some a) Option.none i false = .ok (.range (some a) Option.none i false) := by
  simp [createRange, optEq, mkRange]

theorem upto_ok (a : SV) (i : Bool) (ha : Plain a) : RangeOk Option.none (some a) false i :=
  ⟨by simp, by simp [ha], by simp, by simp, by simp, by simp⟩

theorem from_ok (a : SV) (i : Bool) (ha : Plain a) : RangeOk (some a) Option.none i false :=
  ⟨by simp [ha], by simp, by simp, by simp, by simp, by simp⟩

/-- Inverse of a range. -/
theorem range_inverse (n : Nat) (m M : Option SV) (i I : Bool) (h : RangeOk m M i I) :
    ∃ r, rangeInverse (n + 2) m M i I = .ok r ∧ Region r ∧ (pieces r).length ≤ 2 ∧
      (∀ p, p ∈ pieces r → p ≠ .all) ∧
      AllowsExactly r (fun w => ¬ (VSpec.range m M i I).allows (.std w) = true) := by
  have ha := rangeAllows_iff m M i I h
  cases m with
  | none =>
    cases M with
    | none => rcases h.some with h1 | h1 <;> simp at h1
    | some b =>
      have hi : i = false := by
        cases i with
        | false => rfl
        | true => have := h.inclMin rfl; simp at this
      have hb := h.plainMax b rfl
      refine ⟨_, createRange_from b (!I), .block _ (.range _ _ _ _ (from_ok b _ hb)), by simp [pieces],
        by simp [pieces], ?_⟩
      intro w hw
      have h1 := above_compl b I w hb hw.1
      rw [allows, rangeAllows_iff _ _ _ _ (from_ok b _ hb) w hw, h1]
      dsimp only
      rw [allows, ha w hw]
      simp [AboveMin_none, BelowMax_none]
  | some a =>
    have hpa := h.plainMin a rfl
    cases M with
    | none =>
      refine ⟨_, createRange_upto a (!i), .block _ (.range _ _ _ _ (upto_ok a _ hpa)), by simp [pieces],
        by simp [pieces], ?_⟩
      intro w hw
      have h1 := below_compl a i w hpa hw.1
      rw [allows, rangeAllows_iff _ _ _ _ (upto_ok a _ hpa) w hw, h1]
      dsimp only
      rw [allows, ha w hw]
      simp [AboveMin_none, BelowMax_none]
    | some b =>
      have hpb := h.plainMax b rfl
      have hab := h.ordered a b rfl rfl
      have b1 : Block (.range Option.none (some a) false (!i)) := .range _ _ _ _ (upto_ok a _ hpa)
      have b2 : Block (.range (some b) Option.none (!I) false) := .range _ _ _ _ (from_ok b _ hpb)
      have hap : Apart (.range Option.none (some a) false (!i)) (.range (some b) Option.none (!I) false) :=
        Or.inl ⟨a, b, rfl, rfl, Or.inl hab⟩
      obtain ⟨t, ht, hperm⟩ := union_apart n _ _ b1 b2 hap
      have hlen := hperm.length_eq
      have hreg : Region (.union t) := .union t (by rw [hlen]; simp)
        (by
          intro s hs
          have := hperm.mem_iff.mp hs
          simp at this
          rcases this with rfl | rfl
          · exact b1
          · exact b2)
        (by
          rw [hperm.pairwise_iff (fun {x y} h => apart_symm x y h)]
          simp [hap])
      refine ⟨.union t, ?_, hreg, by simp [pieces, hlen], ?_, ?_⟩
      · simp only [rangeInverse, createRange_from, createRange_upto]
        exact ht
      · intro p hp
        have := hperm.mem_iff.mp hp
        simp at this
        rcases this with rfl | rfl <;> simp
      · intro w hw
        have h1 := below_compl a i w hpa hw.1
        have h2 := above_compl b I w hpb hw.1
        rw [union_allows]
        dsimp only
        rw [allows, ha w hw]
        constructor
        · rintro ⟨s, hs, hsw⟩
          have := hperm.mem_iff.mp hs
          simp at this
          rcases this with rfl | rfl
          · rw [allows, rangeAllows_iff _ _ _ _ (upto_ok a _ hpa) w hw] at hsw
            exact fun hh => h1.mp hsw.2 hh.1
          · rw [allows, rangeAllows_iff _ _ _ _ (from_ok b _ hpb) w hw] at hsw
            exact fun hh => h2.mp hsw.1 hh.2
        · intro hn
          by_cases hc : AboveMin (some a) i w
          · refine ⟨.range (some b) Option.none (!I) false, hperm.mem_iff.mpr (by simp), ?_⟩
            rw [allows, rangeAllows_iff _ _ _ _ (from_ok b _ hpb) w hw]
            exact ⟨h2.mpr (fun hh => hn ⟨hc, hh⟩), (BelowMax_none _ _).mpr trivial⟩
          · refine ⟨.range Option.none (some a) false (!i), hperm.mem_iff.mpr (by simp), ?_⟩
            rw [allows, rangeAllows_iff _ _ _ _ (upto_ok a _ hpa) w hw]
            exact ⟨(AboveMin_none _ _).mpr trivial, h1.mpr hc⟩

/-- Inverse of a match. -/
theorem match_inverse (v : Ver) (al : Bool) (hv : PlainVer v) :
    AllowsExactly (.vmatch v (!al)) (fun w => ¬ (VSpec.vmatch v al).allows (.std w) = true) := by
  intro w hw
  dsimp only
  rw [match_allows_iff v _ w hv hw.1, match_allows_iff v _ w hv hw.1]
  cases al <;> cases v.eqv (.std w) <;> simp

/-- Inverse of a block that is not everything. -/
theorem block_inverse (n : Nat) (b : VSpec) (hb : Block b) (hall : b ≠ .all) :
    ∃ r, inverseF (n + 3) b = .ok r ∧ isProper r = true ∧
      AllowsExactly r (fun w => ¬ b.allows (.std w) = true) := by
  cases hb with
  | all => exact absurd rfl hall
  | range m M i I hok =>
    obtain ⟨r, hr, hreg, hlen, hnall, hex⟩ := range_inverse n m M i I hok
    refine ⟨r, hr, ?_, hex⟩
    cases r with
    | all => exact absurd rfl (hnall .all (by simp [pieces]))
    | none =>
      -- the inverse of a proper range is never empty: see the shape of `rangeInverse`
      exfalso
      cases m with
      | none =>
        cases M with
        | none => rcases hok.some with h1 | h1 <;> simp at h1
        | some b => simp [rangeInverse, createRange_from] at hr
      | some a =>
        cases M with
        | none => simp [rangeInverse, createRange_upto] at hr
        | some b =>
          have b1 : Block (.range Option.none (some a) false (!i)) :=
            .range _ _ _ _ (upto_ok a _ (hok.plainMin a rfl))
          have b2 : Block (.range (some b) Option.none (!I) false) :=
            .range _ _ _ _ (from_ok b _ (hok.plainMax b rfl))
          obtain ⟨t, ht, _⟩ := union_apart n _ _ b1 b2
            (Or.inl ⟨a, b, rfl, rfl, Or.inl (hok.ordered a b rfl rfl)⟩)
          simp only [rangeInverse, createRange_from, createRange_upto] at hr
          have : (Except.ok VSpec.none : Except Err VSpec) = .ok (.union t) := hr.symm.trans ht
          simp at this
    | union t => rfl
    | hetro bl s => rfl
    | vmatch v al => rfl
    | range a b c d => rfl
  | one s hs =>
    exact ⟨_, rfl, rfl, match_inverse _ _ (fun x hx => by cases hx; exact hs)⟩

/-- Inverse of a conjunction. -/
theorem conj_inverse (n : Nat) (a : VSpec) (ha : Conj a) :
    ∃ r, inverseF (n + 4) a = .ok r ∧
      AllowsExactly r (fun w => ¬ a.allows (.std w) = true) := by
  cases ha with
  | none => exact ⟨.all, rfl, fun w hw => by simp [allows]⟩
  | block _ hb =>
    by_cases hall : a = .all
    · subst hall; exact ⟨.none, rfl, fun w hw => by simp [allows]⟩
    · obtain ⟨r, hr, _, hex⟩ := block_inverse (n + 1) a hb hall
      exact ⟨r, hr, hex⟩
  | vmatch v al hv => exact ⟨_, rfl, match_inverse v al hv⟩
  | minus bl b hne h2 hbl hb =>
    have hm : ∀ w, Candidate w → ∀ v, v ∈ bl →
        ((VSpec.vmatch v true).allows (.std w) = true ↔ v.eqv (.std w) = true) :=
      fun w hw v hv => match_allows_iff v true w (hbl v hv) hw.1
    have any : ∀ w, Candidate w →
        ((∃ s, s ∈ bl.map (fun v => VSpec.vmatch v true) ∧ s.allows (.std w) = true) ↔
          ∃ v, v ∈ bl ∧ v.eqv (.std w) = true) := by
      intro w hw
      constructor
      · rintro ⟨s, hs, h⟩
        obtain ⟨v, hv, rfl⟩ := List.mem_map.mp hs
        exact ⟨v, hv, (hm w hw v hv).mp h⟩
      · rintro ⟨v, hv, h⟩
        exact ⟨_, List.mem_map.mpr ⟨v, hv, rfl⟩, (hm w hw v hv).mpr h⟩
    by_cases hall : b = .all
    · subst hall
      obtain ⟨t, ht, hperm⟩ := mkUnion_ok (bl.map (fun v => VSpec.vmatch v true))
        (by simpa using h2 rfl) (by
          intro s hs
          obtain ⟨v, hv, rfl⟩ := List.mem_map.mp hs
          rfl)
      refine ⟨.union t, ht, fun w hw => ?_⟩
      rw [union_allows]
      dsimp only
      rw [hetro_allows bl _ hbl w hw.1, ← any w hw]
      simp only [hperm.mem_iff]
      by_cases h1 : ∃ s, s ∈ bl.map (fun v => VSpec.vmatch v true) ∧ s.allows (.std w) = true
      · simp only [h1, allows]; simp
      · simp only [h1, allows]; simp
    · obtain ⟨i, hi, hpi, hex⟩ := block_inverse n b hb hall
      obtain ⟨t, ht, hperm⟩ := mkUnion_ok (bl.map (fun v => VSpec.vmatch v true) ++ [i])
        (by
          cases bl with
          | nil => exact absurd rfl hne
          | cons x xs => simp)
        (by
          intro s hs
          rcases List.mem_append.mp hs with hs | hs
          · obtain ⟨v, hv, rfl⟩ := List.mem_map.mp hs
            rfl
          · simp at hs; subst hs; exact hpi)
      refine ⟨.union t, ?_, fun w hw => ?_⟩
      · have e : inverseF (n + 4) (.hetro bl b) = (do
            let i ← inverseF (n + 3) b
            mkUnion (bl.map (fun v => .vmatch v true) ++ [i])) := by
          cases hb with
          | all => exact absurd rfl hall
          | range => rfl
          | one => rfl
        rw [e, hi]; exact ht
      · rw [union_allows]
        dsimp only
        rw [hetro_allows bl _ hbl w hw.1, ← any w hw]
        simp only [hperm.mem_iff, List.mem_append, List.mem_singleton, or_and_right, exists_or,
          exists_eq_left]
        rw [hex w hw]
        by_cases h1 : ∃ s, s ∈ bl.map (fun v => VSpec.vmatch v true) ∧ s.allows (.std w) = true
        · simp only [h1]; simp
        · simp only [h1]; simp

/-- A region none of whose blocks is a single version. -/
def RangesOnly (r : VSpec) : Prop := Region r ∧ ∀ p, p ∈ pieces r → ∃ m M i I, p = .range m M i I

theorem inverseSegs_spec (n : Nat) (hn : 12 ≤ n) : ∀ (segs : List VSpec) (acc : VSpec),
    Region acc → (∀ s, s ∈ segs → Block s ∧ ∃ m M i I, s = .range m M i I) →
    ∃ r, inverseSegs n (inverseF n) acc segs = .ok r ∧ Region r ∧
      AllowsExactly r (fun w => acc.allows (.std w) = true ∧
        ∀ s, s ∈ segs → ¬ s.allows (.std w) = true)
  | [], acc, hacc, _ => ⟨acc, rfl, hacc, fun w hw => by simp⟩
  | s :: ss, acc, hacc, hs => by
    obtain ⟨hb, m, M, i, I, rfl⟩ := hs s (by simp)
    cases hb with
    | range _ _ _ _ hok =>
      obtain ⟨n', rfl⟩ : ∃ n', n = n' + 3 := ⟨n - 3, by omega⟩
      obtain ⟨j, hj, hjr, hjl, _, hjx⟩ := range_inverse n' m M i I hok
      obtain ⟨k, hk, hkr, _, hkx⟩ := region_inter (n' + 3) acc j hacc hjr (by omega)
      obtain ⟨r, hr, hrr, hrx⟩ := inverseSegs_spec (n' + 3) hn ss k hkr (fun t ht => hs t (by simp [ht]))
      refine ⟨r, ?_, hrr, fun w hw => ?_⟩
      · have e : inverseF (n' + 3) (.range m M i I) = .ok j := hj
        simp only [inverseSegs, e]
        show (do let r ← interF (n' + 3) acc j; inverseSegs (n' + 3) (inverseF (n' + 3)) r ss) = _
        rw [hk]; exact hr
      · refine (hrx w hw).trans ?_
        dsimp only
        rw [hkx w hw]
        dsimp only
        rw [hjx w hw]
        simp only [List.mem_cons, forall_eq_or_imp, and_assoc]

/-- Inverse of a region made of ranges. -/
theorem region_inverse (n : Nat) (a : VSpec) (ha : RangesOnly a) (hn : 13 ≤ n) :
    ∃ r, inverseF n a = .ok r ∧ Region r ∧
      AllowsExactly r (fun w => ¬ a.allows (.std w) = true) := by
  obtain ⟨hreg, hro⟩ := ha
  obtain ⟨n', rfl⟩ : ∃ n', n = n' + 3 := ⟨n - 3, by omega⟩
  cases hreg with
  | none => exact ⟨.all, rfl, .block _ .all, fun w hw => by simp [allows]⟩
  | block _ hb =>
    rw [pieces_block hb] at hro
    obtain ⟨m, M, i, I, rfl⟩ := hro a (by simp)
    cases hb with
    | range _ _ _ _ hok =>
      obtain ⟨r, hr, hrr, _, _, hrx⟩ := range_inverse n' m M i I hok
      exact ⟨r, hr, hrr, hrx⟩
  | union segs h2 hbs hp =>
    obtain ⟨r, hr, hrr, hrx⟩ := inverseSegs_spec (n' + 2) (by omega) segs .all (.block _ .all)
      (fun s hs => ⟨hbs s hs, hro s hs⟩)
    refine ⟨r, hr, hrr, fun w hw => ?_⟩
    refine (hrx w hw).trans ?_
    dsimp only
    rw [union_allows]
    simp [allows]

/-! ### equal specifiers allow the same versions -/

theorem ver_eqv_isLocal {a b : Ver} (h : a.eqv b = true) : a.isLocal = b.isLocal := by
  cases a <;> cases b <;> simp [Ver.eqv] at h <;> try rfl
  rename_i a b
  simp [Ver.isLocal, SV.isLocal, ((SV.eqv_iff a b).mp h).2]

theorem ver_eqv_congrL {a b : Ver} (c : Ver) (h : a.eqv b = true) : a.eqv c = b.eqv c := by
  cases h1 : b.eqv c with
  | true => exact ver_eqv_trans _ _ _ h h1
  | false =>
    cases h2 : a.eqv c with
    | false => rfl
    | true => rw [ver_eqv_trans _ _ _ (ver_eqv_symm _ _ h) h2] at h1; simp at h1

theorem memSet_of_sub (s t : List Ver) (v : Ver) (h : s.all (fun x => memSet x t) = true)
    (hv : memSet v s = true) : memSet v t = true := by
  simp only [memSet, List.any_eq_true, List.all_eq_true, Bool.and_eq_true, decide_eq_true_eq] at *
  obtain ⟨x, hx, h1, h2⟩ := hv
  obtain ⟨y, hy, h3, h4⟩ := h x hx
  exact ⟨y, hy, h3.trans h1, ver_eqv_trans _ _ _ h4 h2⟩

theorem rangeEq_allows {m1 M1 : Option SV} {i1 I1 : Bool} {m2 M2 : Option SV} {i2 I2 : Bool}
    (h : rangeEq m1 M1 i1 I1 m2 M2 i2 I2 = true) (v : Ver) :
    rangeAllows m1 M1 i1 I1 v = rangeAllows m2 M2 i2 I2 v := by
  cases v with
  | std w => exact eqv_range_allows h w
  | url u p s =>
    simp [rangeEq] at h
    obtain ⟨⟨⟨rfl, rfl⟩, hm⟩, hM⟩ := h
    cases m1 <;> cases m2 <;> simp [optEq] at hm <;> cases M1 <;> cases M2 <;> simp [optEq] at hM <;>
      simp [rangeAllows, endEq, Ver.eqv, Ver.isPost, Ver.lt]
  | named n =>
    simp [rangeEq] at h
    obtain ⟨⟨⟨rfl, rfl⟩, hm⟩, hM⟩ := h
    cases m1 <;> cases m2 <;> simp [optEq] at hm <;> cases M1 <;> cases M2 <;> simp [optEq] at hM <;>
      simp [rangeAllows, endEq, Ver.eqv, Ver.isPost, Ver.lt]

mutual
theorem eqv_allows : ∀ (a b : VSpec), eqv a b = true → ∀ v : Ver, a.allows v = b.allows v
  | .none, b, h, v => by cases b <;> simp [eqv] at h; rfl
  | .all, b, h, v => by cases b <;> simp [eqv] at h; rfl
  | .union s, b, h, v => by
    cases b <;> simp [eqv] at h
    rename_i t
    simp only [allows]
    exact eqvList_allows s t h v
  | .hetro bl s, b, h, v => by
    cases b <;> simp only [eqv, Bool.false_eq_true, Bool.and_eq_true] at h
    rename_i bl' s'
    have ih := eqv_allows s s' h.2 v
    have hm : memSet v bl = memSet v bl' := by
      have h1 := h.1
      simp only [eqSet, Bool.and_eq_true] at h1
      cases e : memSet v bl with
      | true => exact (memSet_of_sub bl bl' v h1.1 e).symm
      | false =>
        cases e' : memSet v bl' with
        | false => rfl
        | true => rw [memSet_of_sub bl' bl v h1.2 e'] at e; simp at e
    simp only [allows, ih, hm]
  | .vmatch x al, b, h, v => by
    cases b <;> simp [eqv] at h
    rename_i x' al'
    obtain ⟨rfl, hx⟩ := h
    simp only [allows, matchAllows, ver_eqv_isLocal hx, ver_eqv_congrL _ hx]
  | .range m M i I, b, h, v => by
    cases b <;> simp only [eqv, Bool.false_eq_true] at h
    simp only [allows]
    exact rangeEq_allows h v
theorem eqvList_allows : ∀ (a b : List VSpec), eqvList a b = true → ∀ v : Ver,
    allowsAnySeg a v = allowsAnySeg b v
  | [], b, h, v => by cases b <;> simp [eqvList] at h; rfl
  | x :: xs, b, h, v => by
    cases b with
    | nil => simp [eqvList] at h
    | cons y ys =>
      simp only [eqvList, Bool.and_eq_true] at h
      simp only [allowsAnySeg, eqv_allows x y h.1 v, eqvList_allows xs ys h.2 v]
end

/-- The comparison of the upper ends in `rangeLt`. -/
def upperTail (M1 M2 : Option SV) (I2 : Bool) : Bool :=
  match M1, M2 with
  | some a, some b => if !a.eqv b then a.lt b else I2
  | _, _ => M1.isSome

theorem rangeLt_eq (m1 M1 : Option SV) (i1 I1 : Bool) (m2 M2 : Option SV) (i2 I2 : Bool) :
    rangeLt m1 M1 i1 I1 m2 M2 i2 I2 = (if rangeEq m1 M1 i1 I1 m2 M2 i2 I2 then false else
      match m1, m2 with
      | some a, some b =>
        if !a.eqv b then a.lt b else if i1 != i2 then i2 else upperTail M1 M2 I2
      | .none, .none => upperTail M1 M2 I2
      | _, b => b.isSome) := rfl

/-- The order of ranges is asymmetric, so the swapped calls in `_union_with` and `_intersect_with`
do not swap again. -/
theorem rangeLt_asymm (m1 M1 : Option SV) (i1 I1 : Bool) (m2 M2 : Option SV) (i2 I2 : Bool)
    (h1 : RangeOk m1 M1 i1 I1) (h2 : RangeOk m2 M2 i2 I2)
    (h : rangeLt m1 M1 i1 I1 m2 M2 i2 I2 = true) : rangeLt m2 M2 i2 I2 m1 M1 i1 I1 = false := by
  have os : ∀ a b : Option SV, optEq a b = optEq b a := by
    intro a b; cases a <;> cases b <;> simp [optEq, eqv_symm]
  have es : rangeEq m2 M2 i2 I2 m1 M1 i1 I1 = rangeEq m1 M1 i1 I1 m2 M2 i2 I2 := by
    simp only [rangeEq, os m1 m2, os M1 M2]
    cases i1 <;> cases i2 <;> cases I1 <;> cases I2 <;> rfl
  rw [rangeLt_eq] at h ⊢
  rw [es]
  by_cases he : rangeEq m1 M1 i1 I1 m2 M2 i2 I2 = true
  · rw [if_pos he]
  rw [if_neg he] at h ⊢
  have as : ∀ a b : SV, a.lt b = true → b.lt a = false := fun a b h => SV.eqv_stage.asymm a b h
  have tail : i1 = i2 → optEq m1 m2 = true → upperTail M1 M2 I2 = true →
      upperTail M2 M1 I1 = false := by
    intro hi hm hh
    cases M1 with
    | none => cases M2 <;> simp [upperTail] at hh
    | some a =>
      cases M2 with
      | none => rfl
      | some b =>
        by_cases hab : a.eqv b = true
        · simp [upperTail, hab] at hh
          simp only [upperTail, eqv_symm b a, hab]
          cases hI : I1 with
          | false => simp
          | true =>
            exfalso; apply he
            have : optEq (some a) (some b) = true := hab
            simp [rangeEq, hi, hm, hI, hh, this]
        · simp [upperTail, hab] at hh
          simp [upperTail, eqv_symm b a, hab, as _ _ hh]
  cases m1 with
  | none =>
    cases m2 with
    | some y => rfl
    | none =>
      have hi1 : i1 = false := by cases i1; rfl; exact absurd (h1.inclMin rfl) (by simp)
      have hi2 : i2 = false := by cases i2; rfl; exact absurd (h2.inclMin rfl) (by simp)
      exact tail (by rw [hi1, hi2]) rfl h
  | some x =>
    cases m2 with
    | none => simp at h
    | some y =>
      by_cases hxy : x.eqv y = true
      · have hyx : y.eqv x = true := by rw [eqv_symm]; exact hxy
        by_cases hi : i1 = i2
        · subst hi
          simp [hxy] at h
          simp [hyx]
          exact tail rfl hxy h
        · cases i1 <;> cases i2 <;> simp [hxy, hyx] at hi h ⊢
      · have hyx : ¬ y.eqv x = true := by rw [eqv_symm]; exact hxy
        simp [hxy] at h
        simp [hyx, as _ _ h]

end VSpec
end Pkm
