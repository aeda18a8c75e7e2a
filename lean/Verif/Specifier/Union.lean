import Verif.Specifier.Inter
set_option linter.unusedVariables false
/-
Unions of blocks with gaps between them, and their intersections.
-/
namespace Pkm
open Spec
namespace VSpec

theorem allowsAnySeg_iff (segs : List VSpec) (v : Ver) :
    allowsAnySeg segs v = true ↔ ∃ s, s ∈ segs ∧ s.allows v = true := by
  induction segs with
  | nil => simp [allowsAnySeg]
  | cons x xs ih => simp [allowsAnySeg, ih]

theorem union_allows (segs : List VSpec) (v : Ver) :
    (VSpec.union segs).allows v = true ↔ ∃ s, s ∈ segs ∧ s.allows v = true := by
  rw [allows]; exact allowsAnySeg_iff segs v

theorem mkUnion_ok (segs : List VSpec) (h : 2 ≤ segs.length) (hp : ∀ s, s ∈ segs → isProper s = true) :
    ∃ t, mkUnion segs = .ok (.union t) ∧ t.Perm segs := by
  refine ⟨sortBy (fun a b => !lt b a) segs, ?_, sortBy_perm _ _⟩
  unfold mkUnion
  have : (decide (segs.length > 1) && segs.all isProper) = true := by
    simp; exact ⟨by omega, hp⟩
  rw [if_pos this]

theorem apart_symm (a b : VSpec) (h : Apart a b) : Apart b a := Or.symm h

theorem not_apart_all (b : VSpec) : ¬ Apart .all b := by
  rintro (⟨x, y, h, _⟩ | ⟨x, y, _, h, _⟩) <;> simp [blockMax, blockMin] at h

theorem block_proper {b c : VSpec} (h : Block b) (ha : Apart b c) : isProper b = true := by
  cases h with
  | all => exact absurd ha (not_apart_all c)
  | range => rfl
  | one => rfl

theorem lt_not_lt {a b : SV} (h : a.lt b = true) : b.lt a = false := SV.eqv_stage.asymm a b h

theorem lt_of_eqv_lt {a b c : SV} (h : a.eqv b = true) (h' : b.lt c = true) : a.lt c = true := by
  rw [SV.eqv_stage.congrL a b c h]; exact h'

theorem lt_of_lt_eqv {a b c : SV} (h : a.lt b = true) (h' : b.eqv c = true) : a.lt c = true := by
  rw [← SV.eqv_stage.congrR b c a h']; exact h

/-- Ranges with a gap: the code keeps both. -/
theorem rangeUnion_gap (m1 M1 : Option SV) (i1 I1 : Bool) (m2 M2 : Option SV) (i2 I2 : Bool)
    (h1 : RangeOk m1 M1 i1 I1) (h2 : RangeOk m2 M2 i2 I2) (hg : Gap (M1, I1) (m2, i2)) :
    rangeUnionCore m1 M1 i1 I1 m2 M2 i2 I2 = mkUnion [.range m1 M1 i1 I1, .range m2 M2 i2 I2] ∧
    rangeLt m2 M2 i2 I2 m1 M1 i1 I1 = false ∧ rangeLt m1 M1 i1 I1 m2 M2 i2 I2 = true ∧
    rangeEq m1 M1 i1 I1 m2 M2 i2 I2 = false ∧ rangeEq m2 M2 i2 I2 m1 M1 i1 I1 = false := by
  obtain ⟨x, y, hx, hy, hxy⟩ := hg
  simp only at hx hy hxy
  subst hx; subst hy
  have hyx : y.lt x = false := by
    rcases hxy with h | h
    · exact lt_not_lt h
    · cases h' : y.lt x with
      | false => rfl
      | true =>
        have := SV.eqv_stage.ne _ _ h'
        rw [SV.eqv_stage.symm _ _ h.1] at this; simp at this
  have notle : MinLe (some y) m1 → False := by
    intro hle
    obtain ⟨b, hb, hyb⟩ := hle y rfl
    have hbx := h1.ordered b x hb rfl
    rcases hyb with h | h
    · rw [SV.eqv_stage.ltTrans _ _ _ h hbx] at hyx; simp at hyx
    · rw [lt_of_eqv_lt h hbx] at hyx; simp at hyx
  refine ⟨?_, ?_, ?_, ?_, ?_⟩
  · unfold rangeUnionCore
    simp only [hyx]
    have : ((!I1 && !i2) || !optEq (some y) (some x)) = true := by
      rcases hxy with h | ⟨h, rfl, rfl⟩
      · have := SV.eqv_stage.ne _ _ h
        rw [eqv_symm] at this
        simp [optEq, this]
      · simp
    simp only [this, if_true]; simp
  · cases h : rangeLt (some y) M2 i2 I2 m1 (some x) i1 I1 with
    | false => rfl
    | true => exact absurd (minLe_of_rangeLt _ _ _ _ _ _ _ _ h) notle
  · cases h : rangeLt m1 (some x) i1 I1 (some y) M2 i2 I2 with
    | true => rfl
    | false =>
      exact absurd (minLe_of_not_rangeLt _ _ _ _ _ _ _ _ h1.plainMin h2.plainMin h) notle
  · cases h : rangeEq m1 (some x) i1 I1 (some y) M2 i2 I2 with
    | false => rfl
    | true =>
      exfalso
      simp [rangeEq] at h
      have h3 := h.1.2
      cases m1 with
      | none => simp [optEq] at h3
      | some b => exact notle (fun a ha => ⟨b, rfl, Or.inr (by
          simp at ha; subst ha; exact SV.eqv_stage.symm _ _ (by simpa [optEq] using h3))⟩)
  · cases h : rangeEq (some y) M2 i2 I2 m1 (some x) i1 I1 with
    | false => rfl
    | true =>
      exfalso
      simp [rangeEq] at h
      have h3 := h.1.2
      cases m1 with
      | none => simp [optEq] at h3
      | some b => exact notle (fun a ha => ⟨b, rfl, Or.inr (by
          simp at ha; subst ha; simpa [optEq] using h3)⟩)

/-- A single version outside a range (with a gap) is not allowed by it nor adjacent to it. -/
theorem one_gap_range (s : SV) (m M : Option SV) (i I : Bool) (h : RangeOk m M i I)
    (ha : Apart (.vmatch (.std s) true) (.range m M i I)) :
    rangeAllows m M i I (.std s) = false ∧ endEq m (.std s) = false ∧ endEq M (.std s) = false := by
  rcases ha with ⟨x, y, hx, hy, hxy⟩ | ⟨x, y, hx, hy, hxy⟩
  · simp only [blockMin, blockMax, Option.some.injEq] at hx hy hxy
    subst hx; subst hy
    have hlt : s.lt y = true := by
      rcases hxy with h | h
      · exact h
      · simp at h
    have e1 : y.eqv s = false := by rw [eqv_symm]; exact SV.eqv_stage.ne _ _ hlt
    have e2 := lt_not_lt hlt
    have hM : endEq M (.std s) = false := by
      cases M with
      | none => rfl
      | some z =>
        have hyz := h.ordered y z rfl rfl
        have : z.eqv s = false := by
          rw [eqv_symm]; exact SV.eqv_stage.ne _ _ (SV.eqv_stage.ltTrans _ _ _ hlt hyz)
        simpa [endEq, Ver.eqv] using this
    have hm : endEq (some y) (.std s) = false := by simpa [endEq, Ver.eqv] using e1
    refine ⟨?_, hm, hM⟩
    simp [rangeAllows, hm, hM, Ver.lt, e2]
  · simp only [blockMin, blockMax, Option.some.injEq] at hx hy hxy
    subst hx; subst hy
    have hlt : x.lt s = true := by
      rcases hxy with h | h
      · exact h
      · simp at h
    have e1 : x.eqv s = false := SV.eqv_stage.ne _ _ hlt
    have e2 := lt_not_lt hlt
    have hm : endEq m (.std s) = false := by
      cases m with
      | none => rfl
      | some z =>
        have hzx := h.ordered z x rfl rfl
        have : z.eqv s = false := SV.eqv_stage.ne _ _ (SV.eqv_stage.ltTrans _ _ _ hzx hlt)
        simpa [endEq, Ver.eqv] using this
    have hM : endEq (some x) (.std s) = false := by simpa [endEq, Ver.eqv] using e1
    refine ⟨?_, hm, hM⟩
    simp [rangeAllows, hm, hM, Ver.lt, e2]

theorem union_apart (k : Nat) (a b : VSpec) (ha : Block a) (hb : Block b) (hap : Apart a b) :
    ∃ t, unionF (k + 2) a b = .ok (.union t) ∧ t.Perm [a, b] := by
  have pa := block_proper ha hap
  have pb := block_proper hb (apart_symm _ _ hap)
  have two : ∀ x y : VSpec, isProper x = true → isProper y = true →
      ∃ t, mkUnion [x, y] = .ok (.union t) ∧ t.Perm [x, y] := by
    intro x y hx hy
    exact mkUnion_ok [x, y] (by simp) (by
      intro s hs; simp at hs; rcases hs with rfl | rfl <;> assumption)
  have mr : ∀ (j : Nat) s m M i I, Plain s → RangeOk m M i I →
      Apart (.vmatch (.std s) true) (.range m M i I) →
      unionF (j + 1) (.vmatch (.std s) true) (.range m M i I) =
        mkUnion [.vmatch (.std s) true, .range m M i I] := by
    intro j s m M i I hs hok hg
    obtain ⟨e1, e2, e3⟩ := one_gap_range s m M i I hok hg
    simp [unionF, e1, e2, e3]
  cases ha with
  | all => exact absurd hap (not_apart_all b)
  | one s hs =>
    cases hb with
    | all => exact absurd (apart_symm _ _ hap) (not_apart_all _)
    | one t ht =>
      have hne : s.eqv t = false := by
        rcases hap with ⟨x, y, hx, hy, hxy⟩ | ⟨x, y, hx, hy, hxy⟩ <;>
          simp only [blockMin, blockMax, Option.some.injEq] at hx hy hxy <;> subst hx <;> subst hy
        · rcases hxy with h | h
          · exact SV.eqv_stage.ne _ _ h
          · simp at h
        · rcases hxy with h | h
          · rw [eqv_symm]; exact SV.eqv_stage.ne _ _ h
          · simp at h
      obtain ⟨u, hu, hp⟩ := two _ _ pa pb
      exact ⟨u, by simp [unionF, eqv, Ver.eqv, hne, hu], hp⟩
    | range m M i I hok =>
      obtain ⟨u, hu, hp⟩ := two _ _ pa pb
      exact ⟨u, by rw [mr (k + 1) s m M i I hs hok hap, hu], hp⟩
  | range m M i I hok =>
    cases hb with
    | all => exact absurd (apart_symm _ _ hap) (not_apart_all _)
    | one t ht =>
      obtain ⟨u, hu, hp⟩ := two _ _ pb pa
      refine ⟨u, ?_, hp.trans (List.Perm.swap _ _ _)⟩
      have := mr k t m M i I ht hok (apart_symm _ _ hap)
      rw [hu] at this
      rw [← this]; rfl
    | range m' M' i' I' hok' =>
      rcases hap with hg | hg
      · obtain ⟨h1, h2, h3, h4, h5⟩ := rangeUnion_gap _ _ _ _ _ _ _ _ hok hok' hg
        obtain ⟨u, hu, hp⟩ := two _ _ pa pb
        exact ⟨u, by simp [unionF, eqv, h4, rangeUnion, h2, h1, hu], hp⟩
      · obtain ⟨h1, h2, h3, h4, h5⟩ := rangeUnion_gap _ _ _ _ _ _ _ _ hok' hok hg
        obtain ⟨u, hu, hp⟩ := two _ _ pb pa
        exact ⟨u, by simp [unionF, eqv, h5, rangeUnion, h3, h1, hu], hp.trans (List.Perm.swap _ _ _)⟩

theorem innerLoop_append (f : VSpec → Except Err VSpec) : ∀ (segs pre : List VSpec),
    (∀ s, s ∈ segs → ∃ t, f s = .ok (.union t)) → innerLoop f pre segs = .ok .append
  | [], pre, _ => rfl
  | s :: ss, pre, h => by
    obtain ⟨t, ht⟩ := h s (by simp)
    have := innerLoop_append f ss (pre ++ [s]) (fun x hx => h x (by simp [hx]))
    simp only [innerLoop, ht]
    exact this

theorem unionLoop_apart : ∀ (osegs : List VSpec) (segs : List VSpec) (n : Nat),
    osegs.length + 2 ≤ n → 2 ≤ segs.length + osegs.length →
    (∀ s, s ∈ segs ++ osegs → Block s) → (segs ++ osegs).Pairwise Apart →
    ∃ t, unionLoopF n segs osegs = .ok (.union t) ∧ t.Perm (segs ++ osegs) := by
  intro osegs
  induction h : osegs.length generalizing osegs with
  | zero =>
    intro segs n hn h2 hb hp
    have : osegs = [] := List.length_eq_zero_iff.mp h
    subst this
    obtain ⟨n', rfl⟩ : ∃ n', n = n' + 1 := ⟨n - 1, by omega⟩
    simp only [List.append_nil] at hb hp ⊢
    have hprop : ∀ s, s ∈ segs → isProper s = true := by
      intro s hs
      cases segs with
      | nil => simp at hs
      | cons x xs =>
        cases xs with
        | nil => simp at h2
        | cons y ys =>
          rw [List.pairwise_cons] at hp
          rcases List.mem_cons.mp hs with rfl | hs'
          · exact block_proper (hb _ (by simp)) (hp.1 y (by simp))
          · exact block_proper (hb _ (by simp [hs'])) (apart_symm _ _ (hp.1 s hs'))
    obtain ⟨t, ht, hpm⟩ := mkUnion_ok segs (by simpa using h2) hprop
    exact ⟨t, by simp [unionLoopF, ht], hpm⟩
  | succ k ih =>
    intro segs n hn h2 hb hp
    obtain ⟨n', rfl⟩ : ∃ n', n = n' + 3 := ⟨n - 3, by omega⟩
    have hne : osegs ≠ [] := by intro e; subst e; simp at h
    have hsplit : osegs = osegs.dropLast ++ [osegs.getLast hne] :=
      (List.dropLast_concat_getLast hne).symm
    generalize hrest : osegs.dropLast = rest at hsplit
    generalize hos : osegs.getLast hne = os at hsplit
    have hl : osegs.getLast? = some os := by rw [hsplit]; simp
    have hlen : rest.length = k := by
      have := congrArg List.length hsplit
      simp at this; omega
    have hperm : (segs ++ [os] ++ rest).Perm (segs ++ osegs) := by
      rw [hsplit, List.append_assoc]
      exact List.Perm.append_left _ List.perm_append_comm
    have hos_in : os ∈ osegs := by rw [hsplit]; simp
    have hapart : ∀ s, s ∈ segs → Apart os s := by
      intro s hs
      exact apart_symm _ _ ((List.pairwise_append.mp hp).2.2 s hs os hos_in)
    have happ := innerLoop_append (unionF (n' + 2) os) segs [] (by
      intro s hs
      obtain ⟨t, ht, _⟩ := union_apart n' os s (hb os (by simp [hos_in])) (hb s (by simp [hs]))
        (hapart s hs)
      exact ⟨t, ht⟩)
    obtain ⟨t, ht, htp⟩ := ih rest hlen (segs ++ [os]) (n' + 2) (by omega) (by simp; omega)
      (by intro s hs; exact hb s (hperm.mem_iff.mp hs))
      ((hperm.pairwise_iff (fun h => apart_symm _ _ h)).mpr hp)
    refine ⟨t, ?_, htp.trans hperm⟩
    rw [unionLoopF]
    simp only [hl, hrest, happ]
    exact ht

/-- The blocks of a region. -/
def pieces : VSpec → List VSpec
  | .none => []
  | .union segs => segs
  | b => [b]

theorem pieces_block {b : VSpec} (h : Block b) : pieces b = [b] := by cases h <;> rfl

theorem region_iff_pieces (r : VSpec) (h : Region r) :
    (∀ s, s ∈ pieces r → Block s) ∧ (pieces r).Pairwise Apart := by
  cases h with
  | none => simp [pieces]
  | block b hb => rw [pieces_block hb]; simp [hb]
  | union segs h2 hb hp => exact ⟨hb, hp⟩

theorem region_allows (r : VSpec) (h : Region r) (v : Ver) :
    r.allows v = true ↔ ∃ s, s ∈ pieces r ∧ s.allows v = true := by
  cases h with
  | none => simp [pieces, allows]
  | block b hb => rw [pieces_block hb]; simp
  | union segs h2 hb hp => exact union_allows segs v

theorem region_union (n : Nat) (a b : VSpec) (ha : Region a) (hb : Region b)
    (hap : ∀ x, x ∈ pieces a → ∀ y, y ∈ pieces b → Apart x y)
    (hn : (pieces b).length + 5 ≤ n) :
    ∃ r, unionF n a b = .ok r ∧ Region r ∧ (pieces r).Perm (pieces a ++ pieces b) := by
  have loop : ∀ (k : Nat) (p q : List VSpec), q.length + 2 ≤ k → 2 ≤ p.length + q.length →
      (∀ s, s ∈ p → Block s) → (∀ s, s ∈ q → Block s) → p.Pairwise Apart → q.Pairwise Apart →
      (∀ x, x ∈ p → ∀ y, y ∈ q → Apart x y) →
      ∃ r, unionLoopF k p q = .ok r ∧ Region r ∧ (pieces r).Perm (p ++ q) := by
    intro k p q hk h2 hp hq pp pq hpq
    have hb' : ∀ s, s ∈ p ++ q → Block s := by
      intro s hs
      rcases List.mem_append.mp hs with h | h
      · exact hp s h
      · exact hq s h
    have hpw : (p ++ q).Pairwise Apart := List.pairwise_append.mpr ⟨pp, pq, hpq⟩
    obtain ⟨t, ht, htp⟩ := unionLoop_apart q p k hk h2 hb' hpw
    refine ⟨_, ht, .union t ?_ ?_ ?_, htp⟩
    · have := htp.length_eq; simp at this; omega
    · intro s hs; exact hb' s (htp.mem_iff.mp hs)
    · exact (htp.pairwise_iff (fun h => apart_symm _ _ h)).mpr hpw
  obtain ⟨n', rfl⟩ : ∃ n', n = n' + 5 := ⟨n - 5, by omega⟩
  cases ha with
  | none => exact ⟨b, by simp [unionF], hb, by simp [pieces]⟩
  | block _ ha =>
    cases hb with
    | none =>
      refine ⟨a, ?_, .block a ha, by simp [pieces]⟩
      cases ha <;> simp [unionF]
    | block _ hb =>
      rw [pieces_block ha, pieces_block hb] at *
      have hab := hap a (by simp) b (by simp)
      obtain ⟨t, ht, hp⟩ := union_apart (n' + 3) a b ha hb hab
      refine ⟨_, ht, .union t (by rw [hp.length_eq]; simp) ?_ ?_, hp⟩
      · intro s hs
        have := hp.mem_iff.mp hs
        simp at this; rcases this with rfl | rfl <;> assumption
      · exact (hp.pairwise_iff (fun h => apart_symm _ _ h)).mpr (by simp [hab])
    | union segs h2 hbs hps =>
      rw [pieces_block ha] at *
      obtain ⟨r, hr, hreg, hp⟩ := loop (n' + 3) segs [a] (by simp) (by simp; omega) hbs
        (by simp [ha]) hps (by simp) (by
          intro x hx y hy; simp at hy; subst hy
          exact apart_symm _ _ (hap y (by simp) x hx))
      refine ⟨r, ?_, hreg, hp.trans List.perm_append_comm⟩
      rw [← hr]
      have hpr : isProper a = true := by
        cases segs with
        | nil => simp at h2
        | cons x xs => exact block_proper ha (hap a (by simp) x (by simp [pieces]))
      cases ha with
      | all => simp [isProper] at hpr
      | range => rfl
      | one => rfl
  | union segs h2 hbs hps =>
    cases hb with
    | none => exact ⟨_, by simp [unionF], .union segs h2 hbs hps, by simp [pieces]⟩
    | block _ hb =>
      rw [pieces_block hb] at *
      obtain ⟨r, hr, hreg, hp⟩ := loop (n' + 4) segs [b] (by simp) (by simp; omega) hbs
        (by simp [hb]) hps (by simp) (by
          intro x hx y hy; simp at hy; subst hy; exact hap x hx y (by simp))
      refine ⟨r, ?_, hreg, hp⟩
      rw [← hr]
      have hpr : isProper b = true := by
        cases segs with
        | nil => simp at h2
        | cons x xs => exact block_proper hb (apart_symm _ _ (hap x (by simp [pieces]) b (by simp)))
      cases hb with
      | all => simp [isProper] at hpr
      | range => rfl
      | one => rfl
    | union segs' h2' hbs' hps' =>
      obtain ⟨r, hr, hreg, hp⟩ := loop (n' + 4) segs segs' (by simp [pieces] at hn; omega)
        (by omega) hbs hbs' hps hps' hap
      refine ⟨r, ?_, hreg, hp⟩
      rw [← hr]; rfl

end VSpec
end Pkm
