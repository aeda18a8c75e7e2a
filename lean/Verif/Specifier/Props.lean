import Verif.Specifier.Merge
set_option linter.unusedVariables false
/-
Properties C07-C11: algebra of version specifiers.

The full claims range over all specifiers and all versions. The code does not satisfy them (see the
`_violated` theorems), so the exact statements are proved on the fragments of `Spec.lean`:
`Conj` (clauses without `!=X.*`), `Region` (clauses without `!=v`), `Simple`, and on candidates
(standard versions without local label that are not post releases).
-/
namespace Pkm
open Spec VSpec

/-! ### the full statements -/

namespace Spec

/-- C07 in full. -/
def IntersectExact : Prop :=
  ∀ a b r : VSpec, a.inter b = .ok r → ∀ v : Ver,
    (r.allows v = true ↔ a.allows v = true ∧ b.allows v = true)

/-- C08 in full (first half). -/
def UnionExact : Prop :=
  ∀ a b r : VSpec, a.unionWith b = .ok r → ∀ v : Ver,
    (r.allows v = true ↔ a.allows v = true ∨ b.allows v = true)

/-- C09 in full. -/
def InverseExact : Prop :=
  ∀ a r : VSpec, a.inverse = .ok r → ∀ v : Ver, (r.allows v = true ↔ ¬ a.allows v = true)

/-- C09 in full, difference. -/
def DifferenceExact : Prop :=
  ∀ a b r : VSpec, a.difference b = .ok r → ∀ v : Ver,
    (r.allows v = true ↔ a.allows v = true ∧ ¬ b.allows v = true)

/-- C10 in full, `allows_any`. -/
def AllowsAnySound : Prop :=
  ∀ a b : VSpec, a.allowsAny b = .ok false → ∀ v : Ver, ¬ (a.allows v = true ∧ b.allows v = true)

/-- C10 in full, `allows_all`. -/
def AllowsAllSound : Prop :=
  ∀ a b : VSpec, a.allowsAll b = .ok true → ∀ v : Ver, b.allows v = true → a.allows v = true

end Spec

/-- Short hand for a final release. -/
private def R (r : List Nat) : SV := { release := r }
private def rp (r : List Nat) (p : Nat) : SV := { release := r, post := some p }

private theorem plainR (r : List Nat) (h : r ≠ []) : Plain (R r) := ⟨h, by simp [R], by simp [R]⟩

/-! ### fuel -/

theorem pieces_le_size (a : VSpec) : (pieces a).length ≤ a.size := by
  have h : ∀ l : List VSpec, l.length ≤ sizeList l := by
    intro l
    induction l with
    | nil => simp [sizeList]
    | cons x xs ih =>
      have : 1 ≤ x.size := by cases x <;> simp [size] <;> omega
      simp [sizeList]; omega
  cases a with
  | union segs => have := h segs; simp [pieces, size]; omega
  | _ => simp [pieces, size]

theorem fuelFor_four (a b : VSpec) : ∃ n, fuelFor a b = n + 4 := ⟨4 * (a.size + b.size) + 12, rfl⟩

theorem fuelFor_region (a b : VSpec) : (pieces b).length + 10 ≤ fuelFor a b := by
  have := pieces_le_size b
  simp [fuelFor]; omega

/-! ## C07: intersection -/

/-- C07 on conjunctions of clauses without `!=X.*`: `a.intersect_with(b)` succeeds and allows a
candidate iff both do. -/
theorem intersect_exact_conj_partial (a b : VSpec) (ha : Conj a) (hb : Conj b) :
    ∃ r, a.inter b = .ok r ∧ Conj r ∧ ∀ w, Candidate w →
      (r.allows (.std w) = true ↔ a.allows (.std w) = true ∧ b.allows (.std w) = true) := by
  obtain ⟨n, hn⟩ := fuelFor_four a b
  obtain ⟨r, hr, hc, hex⟩ := conj_inter n a b ha hb
  exact ⟨r, by rw [VSpec.inter, hn, hr], hc, hex⟩

/-- C07 on unions of separated blocks (clauses without `!=v`). -/
theorem intersect_exact_region_partial (a b : VSpec) (ha : Region a) (hb : Region b) :
    ∃ r, a.inter b = .ok r ∧ Region r ∧ ∀ w, Candidate w →
      (r.allows (.std w) = true ↔ a.allows (.std w) = true ∧ b.allows (.std w) = true) := by
  obtain ⟨r, hr, hc, _, hex⟩ := region_inter (fuelFor a b) a b ha hb (fuelFor_region a b)
  exact ⟨r, hr, hc, hex⟩

/-- `>=1,<5` meets `Conj` and `Region`; `!=2` meets `Conj`; `!=2.*` meets `Region`. -/
example : Conj (.range (some (R [1])) (some (R [5])) true false) ∧
    Region (.range (some (R [1])) (some (R [5])) true false) ∧
    Conj (.vmatch (.std (R [2])) false) ∧
    Region (.union [.range none (some (R [2])) false false, .range (some (R [3])) none true false]) ∧
    (VSpec.range (some (R [1])) (some (R [5])) true false).inter (.vmatch (.std (R [2])) false) =
      .ok (.hetro [.std (R [2])] (.range (some (R [1])) (some (R [5])) true false)) := by
  have hok : RangeOk (some (R [1])) (some (R [5])) true false :=
    ⟨by simp [plainR], by simp [plainR], by simp, by simp, by simp, by
      intro a b ha hb; cases ha; cases hb; decide⟩
  refine ⟨.block _ (.range _ _ _ _ hok), .block _ (.range _ _ _ _ hok),
    .vmatch _ _ (fun s hs => by cases hs; exact plainR _ (by simp)), ?_, by rfl⟩
  refine .union _ (by simp) ?_ ?_
  · intro s hs
    simp at hs
    rcases hs with rfl | rfl
    · exact .range _ _ _ _ (upto_ok _ _ (plainR _ (by simp)))
    · exact .range _ _ _ _ (from_ok _ _ (plainR _ (by simp)))
  · simp only [List.pairwise_cons, List.mem_singleton, forall_eq, List.not_mem_nil, false_implies,
      implies_true, List.Pairwise.nil, and_true]
    exact Or.inl ⟨_, _, rfl, rfl, Or.inl (by decide)⟩

/-- C07 fails for post releases: `>1.0.post1 ∩ <2` allows `1.5.post1`, which `<2` alone rejects. -/
theorem intersect_violated_post : ¬ IntersectExact := by
  intro h
  have := h (.range (some (rp [1, 0] 1)) none false false) (.range none (some (R [2])) false false)
    (.range (some (rp [1, 0] 1)) (some (R [2])) false false) (by rfl) (.std (rp [1, 5] 1))
  revert this; decide

/-- C07 fails for local versions: `==1.0 ∩ <=1.0` allows `1.0+x`, which `<=1.0` alone rejects. -/
theorem intersect_violated_local : ¬ IntersectExact := by
  intro h
  have := h (.vmatch (.std (R [1, 0])) true) (.range none (some (R [1, 0])) false true)
    (.vmatch (.std (R [1, 0])) true) (by rfl) (.std { release := [1, 0], loc := some ['x'] })
  revert this; decide

/-- C07 fails for named versions: `<2` and `===x` both allow `x`, their intersection nothing. -/
theorem intersect_violated_named : ¬ IntersectExact := by
  intro h
  have := h (.range none (some (R [2])) false false) (.vmatch (.named ['x']) true) .none
    (by rfl) (.named ['x'])
  revert this; decide

/-- C07 fails even for candidates outside the two fragments: intersecting `!=1.*, !=0.5, !=3.5` with
`!=2.*` drops the exclusions, so the excluded `0.5` is allowed. -/
theorem intersect_violated_exclusions :
    ∃ (a b r : VSpec) (w : SV), Candidate w ∧ a.inter b = .ok r ∧ r.allows (.std w) = true ∧
      a.allows (.std w) = false := by
  refine ⟨.hetro [.std (R [0, 5]), .std (R [3, 5])]
      (.union [.range none (some (R [1])) false false, .range (some (R [2])) none true false]),
    .union [.range none (some (R [2])) false false, .range (some (R [3])) none true false],
    .union [.range none (some (R [1])) false false, .range (some (R [3])) none true false],
    R [0, 5], ⟨plainR _ (by simp), rfl⟩, ?_, by decide, by decide⟩
  rfl

/-! ## C08: union -/

/-- C08 on nothing, everything, (non-)matches and ranges. Two ranges have to be staggered: the one
that starts first must not end last. -/
theorem union_exact_partial (a b : VSpec) (ha : Simple a) (hb : Simple b)
    (hs : ∀ m1 M1 i1 I1 m2 M2 i2 I2, a = .range m1 M1 i1 I1 → b = .range m2 M2 i2 I2 →
      Staggered m1 M1 i1 m2 M2 i2 ∨ Staggered m2 M2 i2 m1 M1 i1) :
    ∃ r, a.unionWith b = .ok r ∧ ∀ w, Candidate w →
      (r.allows (.std w) = true ↔ a.allows (.std w) = true ∨ b.allows (.std w) = true) :=
  simple_union (4 * (a.size + b.size) + 14) a b ha hb hs

/-- C08 on unions of separated blocks when no block of one touches a block of the other. -/
theorem union_exact_apart_partial (a b : VSpec) (ha : Region a) (hb : Region b)
    (hap : ∀ x, x ∈ pieces a → ∀ y, y ∈ pieces b → Apart x y) :
    ∃ r, a.unionWith b = .ok r ∧ Region r ∧ ∀ v,
      (r.allows v = true ↔ a.allows v = true ∨ b.allows v = true) := by
  obtain ⟨r, hr, hreg, hp⟩ := region_union (fuelFor a b) a b ha hb hap (by
    have := fuelFor_region a b; omega)
  refine ⟨r, hr, hreg, fun v => ?_⟩
  rw [region_allows r hreg, region_allows a ha, region_allows b hb]
  simp only [hp.mem_iff, List.mem_append]
  constructor
  · rintro ⟨s, h1 | h1, h2⟩
    · exact Or.inl ⟨s, h1, h2⟩
    · exact Or.inr ⟨s, h1, h2⟩
  · rintro (⟨s, h1, h2⟩ | ⟨s, h1, h2⟩)
    · exact ⟨s, Or.inl h1, h2⟩
    · exact ⟨s, Or.inr h1, h2⟩

/-- `>=1,<3` and `>=2,<5` are staggered and give `>=1,<5`; `<1` and `>=3` are apart. -/
example : Staggered (some (R [1])) (some (R [3])) true (some (R [2])) (some (R [5])) true ∧
    (VSpec.range (some (R [1])) (some (R [3])) true false).unionWith
      (.range (some (R [2])) (some (R [5])) true false) =
      .ok (.range (some (R [1])) (some (R [5])) true false) ∧
    Apart (.range none (some (R [1])) false false) (.range (some (R [3])) none true false) := by
  refine ⟨⟨?_, by simp, ?_⟩, by rfl, Or.inl ⟨_, _, rfl, rfl, Or.inl (by decide)⟩⟩
  · intro y hy; cases hy; exact Or.inr ⟨_, rfl, Or.inl (by decide)⟩
  · intro y hy; cases hy; exact ⟨_, rfl, Or.inl (by decide)⟩

/-- C08 fails for nested ranges: `>=1,<5 ∪ >=2,<3` is computed as `>=1,<3`, so `4` is lost. -/
theorem union_violated : ¬ UnionExact := by
  intro h
  have := h (.range (some (R [1])) (some (R [5])) true false)
    (.range (some (R [2])) (some (R [3])) true false)
    (.range (some (R [1])) (some (R [3])) true false) (by rfl) (.std (R [4]))
  revert this; decide

/-- C08 fails for ranges with the same lower end: `>=1,<3 ∪ >1,<5` is computed as `>=1,<3`. -/
theorem union_violated_same_min :
    (VSpec.range (some (R [1])) (some (R [3])) true false).unionWith
      (.range (some (R [1])) (some (R [5])) false false) =
      .ok (.range (some (R [1])) (some (R [3])) true false) ∧
    (VSpec.range (some (R [1])) (some (R [5])) false false).allows (.std (R [4])) = true ∧
    (VSpec.range (some (R [1])) (some (R [3])) true false).allows (.std (R [4])) = false := by
  exact ⟨by rfl, by decide, by decide⟩

/-- C08, second half, fails: `union_with` changes its argument. After `(!=1.*) ∪ (!=3.*)` the
argument `!=3.*` has no segments left and allows nothing. -/
theorem union_mutates_argument_violated :
    ∃ a b b' w, b' = argAfterUnion (fuelFor a b) a b ∧ Candidate w ∧
      b.allows (.std w) = true ∧ b'.allows (.std w) = false := by
  refine ⟨.union [.range none (some (R [1])) false false, .range (some (R [2])) none true false],
    .union [.range none (some (R [3])) false false, .range (some (R [4])) none true false],
    .union [], R [5], by rfl, ⟨plainR _ (by simp), rfl⟩, by decide, by decide⟩

/-- C08, second half, holds when the receiver or the argument is not a union: `union_with` leaves the
argument alone. -/
theorem union_keeps_argument_partial (a b : VSpec)
    (h : (∀ s, a ≠ .union s) ∨ (∀ s, b ≠ .union s)) (n : Nat) : argAfterUnion n a b = b := by
  cases a <;> cases b <;> first | rfl | skip
  rename_i s t
  rcases h with h | h
  · exact absurd rfl (h s)
  · exact absurd rfl (h t)

/-! ## C09: inverse and difference -/

/-- C09 on conjunctions of clauses without `!=X.*`: `a.inverse()` succeeds and allows exactly the
candidates that `a` rejects. -/
theorem inverse_exact_conj_partial (a : VSpec) (ha : Conj a) :
    ∃ r, a.inverse = .ok r ∧ ∀ w, Candidate w →
      (r.allows (.std w) = true ↔ ¬ a.allows (.std w) = true) := by
  obtain ⟨n, hn⟩ := fuelFor_four a a
  obtain ⟨r, hr, hex⟩ := conj_inverse n a ha
  exact ⟨r, by rw [VSpec.inverse, hn, hr], hex⟩

theorem fuel_13 (a : VSpec) : 13 ≤ fuelFor a a := by simp [fuelFor]

/-- C09 on unions of separated ranges. -/
theorem inverse_exact_region_partial (a : VSpec) (ha : RangesOnly a) :
    ∃ r, a.inverse = .ok r ∧ Region r ∧ ∀ w, Candidate w →
      (r.allows (.std w) = true ↔ ¬ a.allows (.std w) = true) :=
  region_inverse (fuelFor a a) a ha (fuel_13 a)

/-- C09, inverting twice, on (non-)matches and ranges. -/
theorem inverse_inverse_partial (a : VSpec) (ha : Simple a) :
    ∃ r r', a.inverse = .ok r ∧ r.inverse = .ok r' ∧ ∀ w, Candidate w →
      (r'.allows (.std w) = true ↔ a.allows (.std w) = true) := by
  cases ha with
  | none => exact ⟨.all, .none, rfl, rfl, fun w hw => by simp⟩
  | all => exact ⟨.none, .all, rfl, rfl, fun w hw => by simp⟩
  | vmatch v al hv =>
    refine ⟨.vmatch v (!al), .vmatch v al, rfl, ?_, fun w hw => Iff.rfl⟩
    simp [VSpec.inverse, fuelFor, inverseF]
  | range m M i I h =>
    obtain ⟨r, hr, hreg, _, hnall, hex⟩ :=
      range_inverse (fuelFor (.range m M i I) (.range m M i I) - 3) m M i I h
    have hro : RangesOnly r := by
      refine ⟨hreg, fun p hp => ?_⟩
      -- every part of the inverse is a one sided range
      have key : ∀ p, p ∈ pieces r → (∃ a i, p = .range none (some a) false i) ∨
          (∃ b i, p = .range (some b) none i false) := by
        cases m with
        | none =>
          cases M with
          | none => rcases h.some with h1 | h1 <;> simp at h1
          | some b =>
            simp only [rangeInverse, createRange_from, Except.ok.injEq] at hr
            subst hr
            intro p hp; simp [pieces] at hp; subst hp
            exact Or.inr ⟨_, _, rfl⟩
        | some a =>
          cases M with
          | none =>
            simp only [rangeInverse, createRange_upto, Except.ok.injEq] at hr
            subst hr
            intro p hp; simp [pieces] at hp; subst hp
            exact Or.inl ⟨_, _, rfl⟩
          | some b =>
            have b1 : Block (.range Option.none (some a) false (!i)) :=
              .range _ _ _ _ (upto_ok a _ (h.plainMin a rfl))
            have b2 : Block (.range (some b) Option.none (!I) false) :=
              .range _ _ _ _ (from_ok b _ (h.plainMax b rfl))
            obtain ⟨t, ht, hperm⟩ := union_apart
              (fuelFor (.range (some a) (some b) i I) (.range (some a) (some b) i I) - 3) _ _ b1 b2
              (Or.inl ⟨a, b, rfl, rfl, Or.inl (h.ordered a b rfl rfl)⟩)
            have e : (Except.ok r : Except Err VSpec) = .ok (.union t) := by
              rw [← hr, ← ht]
              simp only [rangeInverse, createRange_from, createRange_upto]
              rfl
            simp at e; subst e
            intro p hp
            have := hperm.mem_iff.mp hp
            simp at this
            rcases this with rfl | rfl
            · exact Or.inl ⟨_, _, rfl⟩
            · exact Or.inr ⟨_, _, rfl⟩
      rcases key p hp with ⟨a, i, rfl⟩ | ⟨a, i, rfl⟩
      · exact ⟨_, _, _, _, rfl⟩
      · exact ⟨_, _, _, _, rfl⟩
    obtain ⟨r', hr', _, hex'⟩ := inverse_exact_region_partial r hro
    refine ⟨r, r', ?_, hr', fun w hw => ?_⟩
    · rw [← hr]; rfl
    · rw [hex' w hw, hex w hw]; simp

/-- C09, difference: a union of separated blocks minus a union of separated ranges. -/
theorem difference_exact_region_partial (a b : VSpec) (ha : Region a) (hb : RangesOnly b) :
    ∃ r, a.difference b = .ok r ∧ Region r ∧ ∀ w, Candidate w →
      (r.allows (.std w) = true ↔ a.allows (.std w) = true ∧ ¬ b.allows (.std w) = true) := by
  obtain ⟨i, hi, hireg, hix⟩ := inverse_exact_region_partial b hb
  obtain ⟨r, hr, hreg, hex⟩ := intersect_exact_region_partial a i ha hireg
  refine ⟨r, ?_, hreg, fun w hw => by rw [hex w hw, hix w hw]⟩
  simp only [VSpec.difference, hi]
  exact hr

/-- C09, difference: a conjunction of clauses without `!=X.*` minus one (non-)match. -/
theorem difference_exact_match_partial (a : VSpec) (v : Ver) (al : Bool) (ha : Conj a)
    (hv : PlainVer v) :
    ∃ r, a.difference (.vmatch v al) = .ok r ∧ Conj r ∧ ∀ w, Candidate w →
      (r.allows (.std w) = true ↔
        a.allows (.std w) = true ∧ ¬ (VSpec.vmatch v al).allows (.std w) = true) := by
  obtain ⟨r, hr, hreg, hex⟩ := intersect_exact_conj_partial a (.vmatch v (!al)) ha (.vmatch _ _ hv)
  refine ⟨r, hr, hreg, fun w hw => ?_⟩
  rw [hex w hw]
  exact and_congr_right fun _ => match_inverse v al hv w hw

example : (VSpec.range (some (R [1])) (some (R [5])) true false).difference
      (.range (some (R [2])) (some (R [3])) true false) =
    .ok (.union [.range (some (R [1])) (some (R [2])) true false,
      .range (some (R [3])) (some (R [5])) true false]) ∧
    (VSpec.range (some (R [1])) (some (R [5])) true false).inverse =
      .ok (.union [.range none (some (R [1])) false false,
        .range (some (R [5])) none true false]) := by
  exact ⟨by rfl, by rfl⟩

/-- C09 fails for post releases: neither `<2` nor its inverse `>=2` allows `1.0.post1`. -/
theorem inverse_violated : ¬ InverseExact := by
  intro h
  have := h (.range none (some (R [2])) false false) (.range (some (R [2])) none true false)
    (by rfl) (.std (rp [1, 0] 1))
  revert this; decide

/-- C09, difference, fails even for candidates: `(!=0.5,!=3.5)` minus `(>=1,<2)` allows the excluded
`0.5` again. -/
theorem difference_violated : ¬ DifferenceExact ∧
    ∃ (a b r : VSpec) (w : SV), Candidate w ∧ a.difference b = .ok r ∧ r.allows (.std w) = true ∧
      a.allows (.std w) = false := by
  have h1 : (VSpec.hetro [.std (R [0, 5]), .std (R [3, 5])] .all).difference
      (.range (some (R [1])) (some (R [2])) true false) =
      .ok (.union [.range none (some (R [1])) false false, .range (some (R [2])) none true false]) := by
    rfl
  refine ⟨fun h => ?_, _, _, _, R [0, 5], ⟨plainR _ (by simp), rfl⟩, h1, by decide, by decide⟩
  have := h _ _ _ h1 (.std (R [0, 5]))
  revert this; decide

/-! ## C10: allows_any, allows_all -/

/-- C10 on conjunctions without `!=X.*`. -/
theorem allows_any_sound_conj_partial (a b : VSpec) (ha : Conj a) (hb : Conj b)
    (h : a.allowsAny b = .ok false) (w : SV) (hw : Candidate w) :
    ¬ (a.allows (.std w) = true ∧ b.allows (.std w) = true) := by
  obtain ⟨r, hr, _, hex⟩ := intersect_exact_conj_partial a b ha hb
  rw [← hex w hw]
  cases a with
  | none => simp [VSpec.inter, fuelFor, interF] at hr; subst hr; simp [allows]
  | all =>
    simp [allowsAny] at h
    cases b <;> simp [isNone] at h
    simp [VSpec.inter, fuelFor, interF] at hr; subst hr; simp [allows]
  | _ =>
    simp [allowsAny, hr, bind, Except.bind, pure, Except.pure] at h
    cases r <;> simp [isNone] at h
    simp [allows]

/-- C10 on unions of separated blocks. -/
theorem allows_any_sound_region_partial (a b : VSpec) (ha : Region a) (hb : Region b)
    (h : a.allowsAny b = .ok false) (w : SV) (hw : Candidate w) :
    ¬ (a.allows (.std w) = true ∧ b.allows (.std w) = true) := by
  obtain ⟨r, hr, _, hex⟩ := intersect_exact_region_partial a b ha hb
  rw [← hex w hw]
  cases a with
  | none => simp [VSpec.inter, fuelFor, interF] at hr; subst hr; simp [allows]
  | all =>
    simp [allowsAny] at h
    cases b <;> simp [isNone] at h
    simp [VSpec.inter, fuelFor, interF] at hr; subst hr; simp [allows]
  | _ =>
    simp [allowsAny, hr, bind, Except.bind, pure, Except.pure] at h
    cases r <;> simp [isNone] at h
    simp [allows]

/-- C10 on conjunctions without `!=X.*`. -/
theorem allows_all_sound_conj_partial (a b : VSpec) (ha : Conj a) (hb : Conj b)
    (h : a.allowsAll b = .ok true) (w : SV) (hw : Candidate w) (hbw : b.allows (.std w) = true) :
    a.allows (.std w) = true := by
  obtain ⟨r, hr, _, hex⟩ := intersect_exact_conj_partial a b ha hb
  cases a with
  | none => simp [allowsAll] at h
  | all => simp [allows]
  | _ =>
    simp [allowsAll, hr, bind, Except.bind, pure, Except.pure] at h
    exact ((hex w hw).mp (by rw [eqv_allows _ _ h]; exact hbw)).1

/-- C10 on unions of separated blocks. -/
theorem allows_all_sound_region_partial (a b : VSpec) (ha : Region a) (hb : Region b)
    (h : a.allowsAll b = .ok true) (w : SV) (hw : Candidate w) (hbw : b.allows (.std w) = true) :
    a.allows (.std w) = true := by
  obtain ⟨r, hr, _, hex⟩ := intersect_exact_region_partial a b ha hb
  cases a with
  | none => simp [allowsAll] at h
  | all => simp [allows]
  | _ =>
    simp [allowsAll, hr, bind, Except.bind, pure, Except.pure] at h
    exact ((hex w hw).mp (by rw [eqv_allows _ _ h]; exact hbw)).1

/-- C10. Equal specifiers allow the same versions (all specifiers, all versions); this is what makes
the `==` in `allows_all` meaningful. -/
theorem equal_specifiers_allow_same (a b : VSpec) (h : a.eqv b = true) (v : Ver) :
    a.allows v = b.allows v := eqv_allows a b h v

example : (VSpec.range (some (R [1])) none true false).allowsAll
      (.range (some (R [2])) (some (R [3])) true false) = .ok true ∧
    (VSpec.range (some (R [1])) none true false).allowsAny (.range none (some (R [1])) false false) =
      .ok false := ⟨by rfl, by rfl⟩

/-- C10 fails for named versions: `<2` and `===x` share the version `x`. -/
theorem allows_any_violated : ¬ AllowsAnySound := by
  intro h
  have := h (.range none (some (R [2])) false false) (.vmatch (.named ['x']) true) (by rfl)
    (.named ['x'])
  revert this; decide

/-- C10 fails for post releases: `<2` claims to allow all of `>1.0.post1,<2`, which allows
`1.5.post1`. -/
theorem allows_all_violated : ¬ AllowsAllSound := by
  intro h
  have := h (.range none (some (R [2])) false false)
    (.range (some (rp [1, 0] 1)) (some (R [2])) false false) (by rfl) (.std (rp [1, 5] 1))
  revert this; decide

/-- `allows_all` of the empty specifier is `False` even of itself, and for everything it is `True`
except of the empty specifier, although the empty set is contained in every set. -/
theorem allows_all_none (b : VSpec) :
    VSpec.none.allowsAll b = .ok false ∧ VSpec.all.allowsAll .none = .ok false := ⟨rfl, rfl⟩

/-! ## C11: conjunction of clauses -/

/-- `read_specifier` (version_parser.py 163-165) on the clauses already read. -/
def interClauses : VSpec → List VSpec → Except Err VSpec
  | acc, [] => .ok acc
  | acc, c :: cs => do
    let r ← acc.inter c
    interClauses r cs

theorem interClauses_fold (P : VSpec → Prop)
    (step : ∀ a b, P a → P b → ∃ r, a.inter b = .ok r ∧ P r ∧ ∀ w, Candidate w →
      (r.allows (.std w) = true ↔ a.allows (.std w) = true ∧ b.allows (.std w) = true)) :
    ∀ (cs : List VSpec) (acc : VSpec), P acc → (∀ c, c ∈ cs → P c) →
    ∃ r, interClauses acc cs = .ok r ∧ P r ∧ ∀ w, Candidate w →
      (r.allows (.std w) = true ↔
        acc.allows (.std w) = true ∧ ∀ c, c ∈ cs → c.allows (.std w) = true)
  | [], acc, ha, _ => ⟨acc, rfl, ha, fun w hw => by simp⟩
  | c :: cs, acc, ha, hc => by
    obtain ⟨r, hr, hP, hex⟩ := step acc c ha (hc c (by simp))
    obtain ⟨r', hr', hP', hex'⟩ := interClauses_fold P step cs r hP (fun x hx => hc x (by simp [hx]))
    refine ⟨r', ?_, hP', fun w hw => ?_⟩
    · simp only [interClauses, hr]; exact hr'
    · rw [hex' w hw, hex w hw]
      simp [and_assoc]

/-- C11 for any number of clauses other than `!=X.*`, in any order. -/
theorem clauses_conj_partial (cs : List VSpec) (h : ∀ c, c ∈ cs → Conj c) :
    ∃ r, interClauses .all cs = .ok r ∧ Conj r ∧ ∀ w, Candidate w →
      (r.allows (.std w) = true ↔ ∀ c, c ∈ cs → c.allows (.std w) = true) := by
  obtain ⟨r, hr, hP, hex⟩ := interClauses_fold Conj
    (fun a b ha hb => intersect_exact_conj_partial a b ha hb) cs .all (.block _ .all) h
  exact ⟨r, hr, hP, fun w hw => by rw [hex w hw]; simp [allows]⟩

/-- C11 for any number of clauses other than `!=v`, in any order. -/
theorem clauses_region_partial (cs : List VSpec) (h : ∀ c, c ∈ cs → Region c) :
    ∃ r, interClauses .all cs = .ok r ∧ Region r ∧ ∀ w, Candidate w →
      (r.allows (.std w) = true ↔ ∀ c, c ∈ cs → c.allows (.std w) = true) := by
  obtain ⟨r, hr, hP, hex⟩ := interClauses_fold Region
    (fun a b ha hb => intersect_exact_region_partial a b ha hb) cs .all (.block _ .all) h
  exact ⟨r, hr, hP, fun w hw => by rw [hex w hw]; simp [allows]⟩

/-- C11 fails when `!=v` and `!=X.*` are mixed: `!=1.*, !=0.5, !=3.5, !=2.*` allows `0.5`. -/
theorem clauses_violated :
    ∃ r, interClauses .all
      [.union [.range none (some (R [1])) false false, .range (some (R [2])) none true false],
       .vmatch (.std (R [0, 5])) false, .vmatch (.std (R [3, 5])) false,
       .union [.range none (some (R [2])) false false, .range (some (R [3])) none true false]] =
      .ok r ∧ r.allows (.std (R [0, 5])) = true :=
  ⟨.union [.range none (some (R [1])) false false, .range (some (R [3])) none true false],
    by rfl, by decide⟩

end Pkm
