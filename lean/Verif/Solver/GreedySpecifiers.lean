import Verif.Solver.GreedyRun
import Verif.Solver.Specifiers
import Verif.Specifier.Props
set_option linter.unusedVariables false
set_option linter.unusedSimpArgs false
/-
C59: the operations of the code's specifiers are adequate for a run without conflicts.
-/
namespace Pkm

namespace Spec

/-- A version with an epoch and a release only. -/
def Bare (v : SV) : Prop := Plain v ∧ v.pre = none ∧ v.post = none ∧ v.dev = none

/-- Everything, one version that is no post release, or a range with final ends. -/
inductive Wanted : VSpec → Prop
  | all : Wanted .all
  | range (min max imin imax) : RangeOk min max imin imax → (∀ s, min = some s → Bare s) →
      (∀ s, max = some s → Bare s) → Wanted (.range min max imin imax)
  | one (s) : Candidate s → Wanted (.vmatch (.std s) true)

/-- A version that is a standard version without local label and no post release. -/
def Offered (w : Ver) : Prop := ∃ v, w = .std v ∧ Candidate v

end Spec

open Spec VSpec

namespace Greedy

theorem Bare.candidate {v : SV} (h : Bare v) : Candidate v := ⟨h.1, h.2.2.1⟩

theorem Wanted.block {a : VSpec} (h : Wanted a) : Block a := by
  cases h with
  | all => exact .all
  | range _ _ _ _ h _ _ => exact .range _ _ _ _ h
  | one s h => exact .one s h.1

/-! ### Ranges have many versions -/

/-- The `k`-th dev release of a final version. -/
def devOf (v : SV) (k : Nat) : SV := { v with dev := some k }

/-- A release after a version. -/
def after (v : SV) (k : Nat) : SV := { v with release := v.release ++ [k + 1] }

theorem devOf_candidate {v : SV} (h : Bare v) (k : Nat) : Candidate (devOf v k) := ⟨h.1, h.2.2.1⟩

theorem after_candidate {v : SV} (h : Bare v) (k : Nat) : Candidate (after v k) :=
  ⟨⟨by simp [after], h.1.2.1, h.1.2.2⟩, h.2.2.1⟩

theorem devOf_lt {v : SV} (h : Bare v) (k : Nat) : (devOf v k).lt v = true := by
  have h1 := (std_lt_by_suffix (devOf v k) v rfl (fun _ => rfl)).1 (by rw [h.2.2.2]; simp [devOf])
  rw [h1, h.2.2.2]
  simp [devOf, DevBefore]

theorem devOf_ne (v : SV) : (devOf v 0).eqv (devOf v 1) = false := by
  cases h : (devOf v 0).eqv (devOf v 1) with
  | false => rfl
  | true =>
    have := ((SV.eqv_iff _ _).mp h).1.2.2.2.2
    simp [devOf] at this

theorem relAt_append (r : List Nat) (n : Nat) : relAt (r ++ [n]) r.length = n := by
  simp [relAt]

theorem lt_after (v : SV) (k : Nat) : v.lt (after v k) = true := by
  refine (std_lt_by_release v (after v k) rfl ?_).2 ⟨v.release.length, ?_, ?_⟩
  · intro h
    have := h v.release.length
    simp only [after, relAt_append] at this
    simp [relAt] at this
  · intro j hj
    simp [after, relAt, List.getElem?_append_left hj]
  · simp only [after, relAt_append]
    simp [relAt]

theorem after_ne (v : SV) : (after v 0).eqv (after v 1) = false := by
  cases h : (after v 0).eqv (after v 1) with
  | false => rfl
  | true =>
    have := ((SV.eqv_iff _ _).mp h).1.2.1 v.release.length
    simp only [after, relAt_append] at this
    simp at this

theorem lt_devOf {a b : SV} (ha : Bare a) (hb : Bare b) (h : a.lt b = true) (k : Nat) : a.lt (devOf b k) = true := by
  by_cases he : a.epoch.getD 0 = b.epoch.getD 0
  · by_cases hr : RelSame a.release b.release
    · exfalso
      have : a.eqv b = true := by
        rw [SV.eqv_iff]
        refine ⟨⟨he, hr, ?_, ?_, ?_⟩, ?_⟩
        · rw [ha.2.1, hb.2.1]
        · rw [ha.2.2.1, hb.2.2.1]
        · rw [ha.2.2.2, hb.2.2.2]
        · rw [ha.1.2.2, hb.1.2.2]
      rw [SV.eqv_stage.ne a b h] at this
      simp at this
    · rw [std_lt_by_release a b he hr] at h
      rw [std_lt_by_release a (devOf b k) he hr]
      exact h
  · rw [std_lt_by_epoch a b he] at h
    rw [std_lt_by_epoch a (devOf b k) he]
    exact h

/-- Unless it is a single version, a constraint allows two different versions. -/
theorem Wanted.two {a : VSpec} (h : Wanted a) (hone : ∀ s, a ≠ .vmatch (.std s) true) :
    ∃ x y, Candidate x ∧ Candidate y ∧ a.allows (.std x) = true ∧ a.allows (.std y) = true ∧ x.eqv y = false := by
  cases h with
  | one s _ => exact absurd rfl (hone s)
  | all =>
    have hf : Bare ⟨[0], none, none, none, none, none⟩ := by simp [Bare, Plain]
    exact ⟨_, _, devOf_candidate hf 0, devOf_candidate hf 1, rfl, rfl, devOf_ne _⟩
  | range m M i I hok hm hM =>
    cases M with
    | some b =>
      have hb := hM b rfl
      refine ⟨devOf b 0, devOf b 1, devOf_candidate hb 0, devOf_candidate hb 1, ?_, ?_, devOf_ne b⟩ <;>
        (rw [allows, rangeAllows_iff _ _ _ _ hok _ (devOf_candidate hb _)]
         refine ⟨?_, ?_⟩
         · intro x hx
           exact .inl (lt_devOf (hm x hx) hb (hok.ordered x b hx rfl) _)
         · intro x hx
           simp at hx
           subst hx
           exact .inl (devOf_lt hb _))
    | none =>
      cases m with
      | none => rcases hok.some with h | h <;> simp at h
      | some a =>
        have ha := hm a rfl
        refine ⟨after a 0, after a 1, after_candidate ha 0, after_candidate ha 1, ?_, ?_, after_ne a⟩ <;>
          (rw [allows, rangeAllows_iff _ _ _ _ hok _ (after_candidate ha _)]
           refine ⟨?_, by intro x hx; simp at hx⟩
           intro x hx
           simp at hx
           subst hx
           exact .inl (lt_after a _))

theorem one_allows {s w : SV} (hs : Candidate s) (hw : Candidate w) :
    (VSpec.vmatch (.std s) true).allows (.std w) = s.eqv w := by
  rw [allows, matchAllows_std s w true hs.1 hw.1]; simp

theorem Wanted.point {a : VSpec} (h : Wanted a) : ∃ x, Candidate x ∧ a.allows (.std x) = true := by
  by_cases hone : ∃ s, a = .vmatch (.std s) true
  · obtain ⟨s, rfl⟩ := hone
    cases h with
    | one _ hs => exact ⟨s, hs, by rw [one_allows hs hs]; exact SV.eqv_stage.refl s⟩
  · obtain ⟨x, _, h1, _, h2, _⟩ := Wanted.two h (fun s hs => hone ⟨s, hs⟩)
    exact ⟨x, h1, h2⟩

/-! ### Intersections -/

theorem createRange_wanted {m M : Option SV} {i I : Bool} {r : VSpec} (h : createRange m M i I = .ok r) (hb : BlockN r)
    (hm : ∀ s, m = some s → Bare s) (hM : ∀ s, M = some s → Bare s) : r = .none ∨ Wanted r := by
  unfold createRange at h
  simp only at h
  split at h
  · simp at h
  · split at h
    · simp at h; subst h; exact .inr .all
    · split at h
      · split at h
        · split at h
          · simp at h; exact .inl h.symm
          · rename_i hi
            simp at h hi
            subst h
            rw [hi.1]
            exact .inr (.one _ (Bare.candidate (hm _ rfl)))
        · simp at h; subst h; exact .inr .all
      · have e : r = .range m M i I := by
          unfold mkRange at h
          split at h
          · simp at h
          · split at h
            · split at h
              · simp at h; exact h.symm
              · simp at h
            · simp at h; exact h.symm
        subst e
        rcases hb with hb | hb
        · simp at hb
        · cases hb with
          | range _ _ _ _ hok => exact .inr (.range _ _ _ _ hok hm hM)

theorem rangeInterCore_wanted {m1 M1 : Option SV} {i1 I1 : Bool} {m2 M2 : Option SV} {i2 I2 : Bool} {r : VSpec}
    (h : rangeInterCore m1 M1 i1 I1 m2 M2 i2 I2 = .ok r) (hb : BlockN r)
    (hM1 : ∀ s, M1 = some s → Bare s) (hm2 : ∀ s, m2 = some s → Bare s) (hM2 : ∀ s, M2 = some s → Bare s) :
    r = .none ∨ Wanted r := by
  unfold rangeInterCore at h
  simp only at h
  cases m2 <;> cases M1 <;> cases M2 <;> simp only [if_true, Bool.false_eq_true, if_false] at h <;> (repeat' split at h) <;>
    first
    | exact createRange_wanted h hb hm2 hM2
    | exact createRange_wanted h hb hm2 hM1
    | (simp at h; exact .inl h.symm)
    | (simp at h; subst h; exact .inr (.one _ (Bare.candidate (hM1 _ rfl))))

/-- Intersections of constraints. -/
theorem wanted_inter (n : Nat) {a b : VSpec} (ha : Wanted a) (hb : Wanted b) :
    ∃ r, interF (n + 2) a b = .ok r ∧ (r = .none ∨ Wanted r) ∧
      AllowsExactly r (fun w => a.allows (.std w) = true ∧ b.allows (.std w) = true) := by
  obtain ⟨r, h1, h2, h3⟩ := block_inter n a b (.inr (Wanted.block ha)) (.inr (Wanted.block hb))
  refine ⟨r, h1, ?_, h3⟩
  have hcopy := h1
  have mr : ∀ (k : Nat) (s : SV) (m M : Option SV) (i I : Bool), Candidate s →
      interF (k + 1) (.vmatch (.std s) true) (.range m M i I) = .ok r → r = .none ∨ Wanted r := by
    intro k s m M i I hs h
    simp only [interF, if_true] at h
    split at h
    · simp at h; subst h; exact .inr (.one s hs)
    · simp at h; exact .inl h.symm
  cases ha with
  | all => simp [interF] at h1; subst h1; exact .inr hb
  | range m M i I hok hm hM =>
    cases hb with
    | all => simp [interF] at h1; subst h1; exact .inr (.range _ _ _ _ hok hm hM)
    | range m' M' i' I' hok' hm' hM' =>
      rw [interF] at h1
      split at h1
      · simp at h1; subst h1; exact .inr (.range _ _ _ _ hok hm hM)
      · unfold rangeInter at h1
        split at h1
        · exact rangeInterCore_wanted h1 h2 hM' hm hM
        · exact rangeInterCore_wanted h1 h2 hM hm' hM'
    | one s hs =>
      have e : interF (n + 2) (.range m M i I) (.vmatch (.std s) true) = interF (n + 1) (.vmatch (.std s) true) (.range m M i I) := rfl
      rw [e] at h1
      exact mr n s m M i I hs h1
  | one s hs =>
    cases hb with
    | all => simp [interF] at h1; subst h1; exact .inr (.one s hs)
    | range m M i I hok hm hM => exact mr (n + 1) s m M i I hs h1
    | one t ht =>
      have l1 : s.isLocal = false := by simp [SV.isLocal, hs.1.2.2]
      have l2 : t.isLocal = false := by simp [SV.isLocal, ht.1.2.2]
      cases h : s.eqv t with
      | true => simp [interF, eqv, Ver.eqv, h] at h1; subst h1; exact .inr (.one s hs)
      | false => simp [interF, eqv, Ver.eqv, h, Ver.isLocal, l1, l2] at h1; exact .inl h1.symm

/-- Separated blocks that are constraints. -/
def WRegion (r : VSpec) : Prop := Region r ∧ ∀ p, p ∈ pieces r → Wanted p

theorem WRegion.of {r : VSpec} (h : r = .none ∨ Wanted r) : WRegion r := by
  rcases h with rfl | h
  · exact ⟨.none, by simp [pieces]⟩
  · have hb := Wanted.block h
    exact ⟨.block r hb, by rw [pieces_block hb]; simp [h]⟩

theorem WRegion.point {r : VSpec} (h : WRegion r) (hn : r ≠ .none) : ∃ x, Candidate x ∧ r.allows (.std x) = true := by
  obtain ⟨hr, hp⟩ := h
  have : ∃ p, p ∈ pieces r := by
    cases hr with
    | none => exact absurd rfl hn
    | block _ hb => rw [pieces_block hb]; exact ⟨r, by simp⟩
    | union segs h2 _ _ =>
      cases segs with
      | nil => simp at h2
      | cons s ss => exact ⟨s, by simp [pieces]⟩
  obtain ⟨p, hpm⟩ := this
  obtain ⟨x, hx, hx2⟩ := Wanted.point (hp p hpm)
  exact ⟨x, hx, (region_allows r hr (.std x)).2 ⟨p, hpm, hx2⟩⟩

/-- A constraint with the inverse of another one. -/
theorem region_wanted (n : Nat) {a b : VSpec} (ha : Wanted a) (hb : WRegion b) (hn : 16 ≤ n) :
    (∃ r, interF n a b = .ok r ∧ WRegion r ∧
      AllowsExactly r (fun w => a.allows (.std w) = true ∧ b.allows (.std w) = true)) ∧
    (∃ r, interF n b a = .ok r ∧ WRegion r ∧
      AllowsExactly r (fun w => b.allows (.std w) = true ∧ a.allows (.std w) = true)) := by
  obtain ⟨n', rfl⟩ : ∃ n', n = n' + 3 := ⟨n - 3, by omega⟩
  obtain ⟨hr, hp⟩ := hb
  cases hr with
  | none =>
    refine ⟨⟨.none, ?_, WRegion.of (.inl rfl), fun w hw => by simp [allows]⟩,
      ⟨.none, by simp [interF], WRegion.of (.inl rfl), fun w hw => by simp [allows]⟩⟩
    cases ha <;> simp [interF]
  | block _ hbb =>
    have hw : Wanted b := hp b (by rw [pieces_block hbb]; simp)
    obtain ⟨r, h1, h2, h3⟩ := wanted_inter (n' + 1) ha hw
    obtain ⟨r', h1', h2', h3'⟩ := wanted_inter (n' + 1) hw ha
    exact ⟨⟨r, h1, WRegion.of h2, h3⟩, ⟨r', h1', WRegion.of h2', h3'⟩⟩
  | union segs h2 hbs hpw =>
    have main : ∀ k, 10 ≤ k → ∃ r, interF (k + 1) (.union segs) a = .ok r ∧ WRegion r ∧
        AllowsExactly r (fun w => (VSpec.union segs).allows (.std w) = true ∧ a.allows (.std w) = true) := by
      intro k hk
      by_cases hall : a = .all
      · subst hall
        exact ⟨.union segs, by simp [interF], ⟨.union segs h2 hbs hpw, hp⟩, fun w hw => by simp [allows]⟩
      obtain ⟨k', rfl⟩ : ∃ k', k = k' + 2 := ⟨k - 2, by omega⟩
      obtain ⟨r, hr, hreg, hP, hlen, hex⟩ := interSegs_spec (k' + 2) 1 (fun s => interF (k' + 2) s a) a
        Wanted (by omega) segs .none .none (by simp [pieces]) hbs hpw (by simp [pieces])
        (by
          intro s hs
          obtain ⟨i, hi, h1, h2, h3, h4⟩ := block_block_region k' s a (hbs s hs) (Wanted.block ha)
          obtain ⟨j, hj, h5, _⟩ := wanted_inter k' (hp s hs) ha
          rw [hi] at hj
          simp at hj
          subst hj
          exact ⟨i, hi, h1, h2, fun x hx => ⟨(h3 x hx).1, (WRegion.of h5).2 x hx⟩, h4⟩)
      refine ⟨r, ?_, ⟨hreg, hP⟩, fun w hw => ?_⟩
      · rw [← hr]
        cases ha with
        | all => exact absurd rfl hall
        | range => rfl
        | one => rfl
      · refine (hex w hw).trans ?_
        dsimp only; rw [union_allows]; simp [allows]
    obtain ⟨r, h3, h4, h5⟩ := main (n' + 1) (by omega)
    obtain ⟨r', h3', h4', h5'⟩ := main (n' + 2) (by omega)
    refine ⟨?_, r', h3', h4', h5'⟩
    by_cases hall : a = .all
    · subst hall
      exact ⟨.union segs, by simp [interF], ⟨.union segs h2 hbs hpw, hp⟩, fun w hw => by simp [allows]⟩
    refine ⟨r, ?_, h4, fun w hw => by rw [h5 w hw]; exact and_comm⟩
    rw [← h3]
    cases ha with
    | all => exact absurd rfl hall
    | range => rfl
    | one => rfl

/-! ### Inverses -/

/-- A range with one final end. -/
def OneSided (p : VSpec) : Prop :=
  (∃ a i, Bare a ∧ p = .range Option.none (some a) false i) ∨ (∃ a i, Bare a ∧ p = .range (some a) Option.none i false)

theorem OneSided.wanted {p : VSpec} (h : OneSided p) : Wanted p := by
  rcases h with ⟨a, i, ha, rfl⟩ | ⟨a, i, ha, rfl⟩
  · exact .range _ _ _ _ (upto_ok a i ha.1) (by simp) (by intro s hs; simp at hs; subst hs; exact ha)
  · exact .range _ _ _ _ (from_ok a i ha.1) (by intro s hs; simp at hs; subst hs; exact ha) (by simp)

theorem OneSided.inverse {p : VSpec} (h : OneSided p) (n : Nat) : ∃ q, inverseF (n + 1) p = .ok q ∧ OneSided q := by
  rcases h with ⟨a, i, ha, rfl⟩ | ⟨a, i, ha, rfl⟩
  · exact ⟨_, by rw [inverseF, rangeInverse, createRange_from], .inr ⟨a, _, ha, rfl⟩⟩
  · exact ⟨_, by rw [inverseF, rangeInverse, createRange_upto], .inl ⟨a, _, ha, rfl⟩⟩

theorem range_twice {m M : Option SV} {i I : Bool} (hok : RangeOk m M i I) (hm : ∀ s, m = some s → Bare s)
    (hM : ∀ s, M = some s → Bare s) {n c' : VSpec} (h1 : (VSpec.range m M i I).inverse = .ok n) (h2 : n.inverse = .ok c') :
    WRegion n ∧ n ≠ .none ∧ (c' = .none ∨ Wanted c') := by
  have one : OneSided n → WRegion n ∧ n ≠ .none ∧ (c' = .none ∨ Wanted c') := by
    intro h
    have hw := OneSided.wanted h
    refine ⟨WRegion.of (.inr hw), Block.isProper (Wanted.block hw), .inr ?_⟩
    obtain ⟨q, h3, h4⟩ := OneSided.inverse h (fuelFor n n - 1)
    have e : n.inverse = .ok q := h3
    rw [e] at h2
    simp at h2
    subst h2
    exact OneSided.wanted h4
  cases m with
  | none =>
    cases M with
    | none => rcases hok.some with h | h <;> simp at h
    | some b =>
      have : (VSpec.range Option.none (some b) i I).inverse = .ok (.range (some b) Option.none (!I) false) := createRange_from b (!I)
      rw [this] at h1
      simp at h1
      subst h1
      exact one (.inr ⟨b, _, hM b rfl, rfl⟩)
  | some a =>
    cases M with
    | none =>
      have : (VSpec.range (some a) Option.none i I).inverse = .ok (.range Option.none (some a) false (!i)) := createRange_upto a (!i)
      rw [this] at h1
      simp at h1
      subst h1
      exact one (.inl ⟨a, _, hm a rfl, rfl⟩)
    | some b =>
      have o1 : OneSided (.range Option.none (some a) false (!i)) := .inl ⟨a, _, hm a rfl, rfl⟩
      have o2 : OneSided (.range (some b) Option.none (!I) false) := .inr ⟨b, _, hM b rfl, rfl⟩
      have hap : Apart (.range Option.none (some a) false (!i)) (.range (some b) Option.none (!I) false) :=
        .inl ⟨a, b, rfl, rfl, .inl (hok.ordered a b rfl rfl)⟩
      obtain ⟨t, ht, hperm⟩ := union_apart
        (fuelFor (.range (some a) (some b) i I) (.range (some a) (some b) i I) - 3) _ _
        (Wanted.block (OneSided.wanted o1)) (Wanted.block (OneSided.wanted o2)) hap
      have e : (VSpec.range (some a) (some b) i I).inverse = .ok (.union t) := by
        rw [← ht]
        obtain ⟨k, hk⟩ : ∃ k, fuelFor (.range (some a) (some b) i I) (.range (some a) (some b) i I) = k + 3 :=
          ⟨4 * ((VSpec.range (some a) (some b) i I).size + (VSpec.range (some a) (some b) i I).size) + 13, rfl⟩
        unfold VSpec.inverse
        rw [hk, inverseF]
        simp only [rangeInverse, createRange_from, createRange_upto]
        rfl
      rw [e] at h1
      simp at h1
      subst h1
      have hall : ∀ x, x ∈ t → OneSided x := by
        intro x hx
        have := hperm.mem_iff.1 hx
        simp at this
        rcases this with rfl | rfl
        · exact o1
        · exact o2
      have hlen : t.length = 2 := by rw [hperm.length_eq]; rfl
      have hpw : t.Pairwise Apart := by
        refine hperm.pairwise_iff (fun {x y} h => apart_symm x y h) |>.2 ?_
        simp [hap]
      refine ⟨⟨.union t (by omega) (fun s hs => Wanted.block (OneSided.wanted (hall s hs))) hpw,
        fun p hp => OneSided.wanted (hall p hp)⟩, by simp, ?_⟩
      match t, hlen, hall, h2 with
      | [x, y], _, hall, h2 =>
        obtain ⟨n', hn'⟩ : ∃ n', fuelFor (.union [x, y]) (.union [x, y]) = n' + 3 := ⟨4 * ((VSpec.union [x, y]).size + (VSpec.union [x, y]).size) + 13, rfl⟩
        obtain ⟨x', hx1, hx2⟩ := OneSided.inverse (hall x (by simp)) (n' + 1)
        obtain ⟨y', hy1, hy2⟩ := OneSided.inverse (hall y (by simp)) (n' + 1)
        obtain ⟨r, hr1, hr2, _⟩ := wanted_inter n' (OneSided.wanted hx2) (OneSided.wanted hy2)
        have e2 : (VSpec.union [x, y]).inverse = .ok r := by
          unfold VSpec.inverse
          rw [hn', inverseF]
          simp only [inverseSegs, hx1, hy1, bind, Except.bind]
          have : interF (n' + 2) .all x' = .ok x' := by simp [interF]
          simp only [this, hr1]
        rw [e2] at h2
        simp at h2
        subst h2
        exact hr2

/-- What the inverse of a constraint looks like. -/
theorem inverse_cases {c n : VSpec} (hc : Wanted c) (h : c.inverse = .ok n) :
    (c = .all ∧ n = .none) ∨ (∃ s, Candidate s ∧ c = .vmatch (.std s) true ∧ n = .vmatch (.std s) false) ∨
    ((∃ m M i I, c = .range m M i I) ∧ WRegion n ∧ n ≠ .none ∧ n ≠ .all) := by
  cases hc with
  | all => simp [VSpec.inverse, fuelFor, inverseF] at h; exact .inl ⟨rfl, h.symm⟩
  | one s hs => simp [VSpec.inverse, fuelFor, inverseF] at h; exact .inr (.inl ⟨s, hs, rfl, h.symm⟩)
  | range m M i I hok hm hM =>
    obtain ⟨n', c', h1, h2, _⟩ := inverse_inverse_partial _ (.range m M i I hok)
    rw [h] at h1
    simp at h1
    subst h1
    obtain ⟨h3, h4, _⟩ := range_twice hok hm hM h h2
    refine .inr (.inr ⟨⟨m, M, i, I, rfl⟩, h3, h4, ?_⟩)
    rintro rfl
    obtain ⟨r, g1, _, _, g2, _⟩ := range_inverse (fuelFor (.range m M i I) (.range m M i I) - 3) m M i I hok
    have g3 : (VSpec.range m M i I).inverse = .ok r := g1
    rw [h] at g3
    simp at g3
    exact g2 .all (by rw [← g3]; simp [pieces]) rfl

theorem inverse_exact {c n : VSpec} (hc : Wanted c) (h : c.inverse = .ok n) (w : SV) (hw : Candidate w) :
    n.allows (.std w) = !c.allows (.std w) := by
  obtain ⟨r, h1, h2⟩ := inverse_exact_conj_partial c (.block c (Wanted.block hc))
  rw [h] at h1
  simp at h1
  subst h1
  have := h2 w hw
  cases hx : n.allows (.std w) <;> cases hy : c.allows (.std w) <;> simp [hx, hy] at this ⊢

theorem inverse_wanted {c : VSpec} (hc : Wanted c) : ∃ n c', c.inverse = .ok n ∧ n.inverse = .ok c' ∧ Wanted c' ∧
    ∀ w, Candidate w → c'.allows (.std w) = c.allows (.std w) := by
  have hs : Simple c := by
    cases hc with
    | all => exact .all
    | range _ _ _ _ h => exact .range _ _ _ _ h
    | one s h => exact .vmatch _ _ (by intro t ht; simp at ht; subst ht; exact h.1)
  obtain ⟨n, c', h1, h2, h3⟩ := inverse_inverse_partial c hs
  have h3' : ∀ w, Candidate w → c'.allows (.std w) = c.allows (.std w) := fun w hw => by
    have := h3 w hw
    cases hx : c'.allows (.std w) <;> cases hy : c.allows (.std w) <;> simp [hx, hy] at this ⊢
  refine ⟨n, c', h1, h2, ?_, h3'⟩
  obtain ⟨x, hx, hx2⟩ := Wanted.point hc
  have hx3 : c'.allows (.std x) = true := by rw [h3' x hx]; exact hx2
  cases hc with
  | all =>
    simp [VSpec.inverse, fuelFor, inverseF] at h1
    subst h1
    simp [VSpec.inverse, fuelFor, inverseF] at h2
    subst h2
    exact .all
  | one s hs =>
    simp [VSpec.inverse, fuelFor, inverseF] at h1
    subst h1
    simp [VSpec.inverse, fuelFor, inverseF] at h2
    subst h2
    exact .one s ‹_›
  | range m M i I hok hm hM =>
    rcases (range_twice hok hm hM h1 h2).2.2 with rfl | h
    · simp [allows] at hx3
    · exact h

/-! ### Questions about constraints -/

theorem fuelFor_two (a b : VSpec) : ∃ n, fuelFor a b = n + 2 := ⟨4 * (a.size + b.size) + 14, rfl⟩

theorem allowsAll_ok {a b r : VSpec} (h : a.inter b = .ok r) (hall : a ≠ .all) (hn : a ≠ .none) :
    a.allowsAll b = .ok (eqv r b) := by
  cases a <;> first | exact absurd rfl hall | exact absurd rfl hn | simp [allowsAll, h, bind, Except.bind, pure, Except.pure]

theorem allowsAny_ok {a b r : VSpec} (h : a.inter b = .ok r) (hall : a ≠ .all) (hn : a ≠ .none) :
    a.allowsAny b = .ok (!r.isNone) := by
  cases a <;> first | exact absurd rfl hall | exact absurd rfl hn | simp [allowsAny, h, bind, Except.bind, pure, Except.pure]

theorem isNone_false {a : VSpec} (h : a ≠ .none) : a.isNone = false := by
  cases a <;> simp [isNone] at h ⊢

theorem outside_wanted {a c n : VSpec} (ha : Wanted a) (hc : Wanted c) (h : c.inverse = .ok n) :
    ∃ r, n.allowsAll a = .ok r ∧ (r = true → ∀ w, Candidate w → a.allows (.std w) = true → c.allows (.std w) = false) := by
  have fin : ∀ r, n.allowsAll a = .ok r →
      (r = true → ∀ w, Candidate w → a.allows (.std w) = true → n.allows (.std w) = true) →
      ∃ r, n.allowsAll a = .ok r ∧ (r = true → ∀ w, Candidate w → a.allows (.std w) = true → c.allows (.std w) = false) := by
    intro r h1 h2
    refine ⟨r, h1, fun hr w hw haw => ?_⟩
    have := h2 hr w hw haw
    rw [inverse_exact hc h w hw] at this
    simpa using this
  rcases inverse_cases hc h with ⟨rfl, rfl⟩ | ⟨s, hs, rfl, rfl⟩ | ⟨_, hr, hn, hall⟩
  · exact ⟨false, rfl, by simp⟩
  · have hcj : Conj (.vmatch (.std s) false) := .vmatch _ _ (by intro t ht; simp at ht; subst ht; exact hs.1)
    have haj : Conj a := .block a (Wanted.block ha)
    obtain ⟨r, h1, _⟩ := intersect_exact_conj_partial _ a hcj haj
    have e := allowsAll_ok h1 (by simp) (by simp)
    exact fin _ e (fun hr w hw haw => allows_all_sound_conj_partial _ a hcj haj (by rw [e, hr]) w hw haw)
  · obtain ⟨r, h1, _⟩ := (region_wanted (fuelFor n a) ha hr (by simp [fuelFor])).2
    have e := allowsAll_ok h1 hall hn
    exact fin _ e (fun hr' w hw haw => allows_all_sound_region_partial _ a hr.1 (.block a (Wanted.block ha)) (by rw [e, hr']) w hw haw)

theorem meets_wanted {a c n : VSpec} {w : SV} (ha : Wanted a) (hc : Wanted c) (h : c.inverse = .ok n) (hw : Candidate w)
    (h1 : a.allows (.std w) = true) (h2 : c.allows (.std w) = true) :
    ∃ r, a.allowsAny n = .ok r ∧ (r = false ↔ ∀ u, Candidate u → a.allows (.std u) = true → c.allows (.std u) = true) := by
  have fin : ∀ r, a.allowsAny n = .ok r → (r = true → ∃ u, Candidate u ∧ a.allows (.std u) = true ∧ n.allows (.std u) = true) →
      (r = false → ∀ u, Candidate u → a.allows (.std u) = true → n.allows (.std u) = false) →
      ∃ r, a.allowsAny n = .ok r ∧ (r = false ↔ ∀ u, Candidate u → a.allows (.std u) = true → c.allows (.std u) = true) := by
    intro r hr ht hf
    refine ⟨r, hr, fun hr' u hu hau => ?_, fun hu => ?_⟩
    · have := hf hr' u hu hau
      rw [inverse_exact hc h u hu] at this
      simpa using this
    · cases hr' : r with
      | false => rfl
      | true =>
        obtain ⟨u, h3, h4, h5⟩ := ht hr'
        rw [inverse_exact hc h u h3, hu u h3 h4] at h5
        simp at h5
  rcases inverse_cases hc h with ⟨rfl, rfl⟩ | ⟨s, hs, rfl, rfl⟩ | ⟨⟨m, M, i, I, rfl⟩, hr, hn, hall⟩
  · refine fin false ?_ (by simp) (by intro _ u _ _; rfl)
    cases ha <;> simp [allowsAny, isNone, VSpec.inter, fuelFor, interF, bind, Except.bind, pure, Except.pure]
  · have hpv : PlainVer (.std s) := by intro t ht; simp at ht; subst ht; exact hs.1
    have two : (∀ t, a ≠ .vmatch (.std t) true) → ∃ u, Candidate u ∧ a.allows (.std u) = true ∧ (VSpec.vmatch (.std s) false).allows (.std u) = true := by
      intro hne
      obtain ⟨x, y, hx, hy, hax, hay, hxy⟩ := Wanted.two ha hne
      cases h3 : s.eqv x with
      | false => exact ⟨x, hx, hax, (match_allows_iff _ _ _ hpv hx.1).2 h3⟩
      | true =>
        cases h4 : s.eqv y with
        | false => exact ⟨y, hy, hay, (match_allows_iff _ _ _ hpv hy.1).2 h4⟩
        | true => rw [eqv_congrL y h3] at h4; rw [h4] at hxy; simp at hxy
    cases ha with
    | all => exact fin true rfl (fun _ => two (by simp)) (by simp)
    | range m M i I hok hm hM =>
      have e : (VSpec.range m M i I).inter (.vmatch (.std s) false) =
          interF (fuelFor (.range m M i I) (.vmatch (.std s) false) - 1) (.vmatch (.std s) false) (.range m M i I) := rfl
      obtain ⟨k, hk⟩ : ∃ k, fuelFor (.range m M i I) (.vmatch (.std s) false) - 1 = k + 1 := ⟨4 * ((VSpec.range m M i I).size + (VSpec.vmatch (.std s) false).size) + 14, rfl⟩
      rw [hk] at e
      have hnn : ∃ r, (VSpec.range m M i I).inter (.vmatch (.std s) false) = .ok r ∧ r ≠ .none := by
        rw [e]
        by_cases hs' : ((Ver.std s).isStd && rangeAllows m M i I (.std s)) = true
        · exact ⟨.hetro [.std s] (.range m M i I), by simp [interF, hs', mkHetro], by simp⟩
        · exact ⟨.range m M i I, by simp only [interF, hs']; simp, by simp⟩
      obtain ⟨r, g1, g2⟩ := hnn
      refine fin true ?_ (fun _ => two (by simp)) (by simp)
      rw [allowsAny_ok g1 (by simp) (by simp), isNone_false g2]
      rfl
    | one t ht =>
      rw [one_allows ht hw] at h1
      rw [one_allows hs hw] at h2
      have hts : t.eqv s = true := by rw [eqv_congrL s h1, eqv_symm]; exact h2
      have l1 : s.isLocal = false := by simp [SV.isLocal, hs.1.2.2]
      have l2 : t.isLocal = false := by simp [SV.isLocal, ht.1.2.2]
      have e : (VSpec.vmatch (.std t) true).inter (.vmatch (.std s) false) = .ok .none := by
        simp [VSpec.inter, fuelFor, interF, eqv, Ver.eqv, Ver.isLocal, l1, l2, hts]
      refine fin false ?_ (by simp) ?_
      · rw [allowsAny_ok e (by simp) (by simp)]; rfl
      · intro _ u hu hau
        rw [one_allows ht hu] at hau
        cases hx : (VSpec.vmatch (.std s) false).allows (.std u) with
        | false => rfl
        | true =>
          rw [match_allows_iff _ _ _ hpv hu.1] at hx
          have hx' : s.eqv u = false := hx
          rw [← eqv_congrL u hts, hau] at hx'
          simp at hx'
  · by_cases haall : a = .all
    · subst haall
      obtain ⟨x, hx, hx2⟩ := WRegion.point hr hn
      refine fin true ?_ (fun _ => ⟨x, hx, rfl, hx2⟩) (by simp)
      simp [allowsAny, isNone_false hn]
    · obtain ⟨r, g1, g2, g3⟩ := (region_wanted (fuelFor a n) ha hr (by simp [fuelFor])).1
      have e := allowsAny_ok g1 haall (Block.isProper (Wanted.block ha))
      refine fin _ e ?_ ?_
      · intro ht
        have : r ≠ .none := by rintro rfl; simp [isNone] at ht
        obtain ⟨x, hx, hx2⟩ := WRegion.point g2 this
        exact ⟨x, hx, (g3 x hx).1 hx2⟩
      · intro hf u hu hau
        have : r = .none := by
          cases r <;> simp [isNone] at hf ⊢
        subst this
        cases hx : n.allows (.std u) with
        | false => rfl
        | true => have := (g3 u hu).2 ⟨hau, hx⟩; simp [allows] at this

theorem covers_wanted {g r : VSpec} {v : SV} (hg : Block g) (hr : Wanted r) (hv : Candidate v) (h1 : g.allows (.std v) = true)
    (h2 : r.allows (.std v) = true)
    (h3 : ∀ w, Candidate w → r.allows (.std w) = true → (VSpec.vmatch (.std v) true).allows (.std w) = true) :
    g.allowsAll r = .ok true ∧ r.allowsAny g = .ok true := by
  have hone : ∃ s, r = .vmatch (.std s) true := by
    apply Classical.byContradiction
    intro hn
    obtain ⟨x, y, hx, hy, hax, hay, hxy⟩ := Wanted.two hr (fun s hs => hn ⟨s, hs⟩)
    have e1 := h3 x hx hax
    have e2 := h3 y hy hay
    rw [one_allows hv hx] at e1
    rw [one_allows hv hy, eqv_congrL y e1, hxy] at e2
    simp at e2
  obtain ⟨s, rfl⟩ := hone
  cases hr with
  | one _ hs =>
    rw [one_allows hs hv] at h2
    have hgs : g.allows (.std s) = true := by rw [block_allows_congr g hg s v hs.1 hv.1 h2]; exact h1
    have hrefl : s.eqv s = true := SV.eqv_stage.refl s
    cases hg with
    | all =>
      refine ⟨rfl, ?_⟩
      rw [allowsAny_ok (r := .vmatch (.std s) true) (by simp [VSpec.inter, fuelFor, interF]) (by simp) (by simp)]
      rfl
    | range m M i I hok =>
      have hgs' : rangeAllows m M i I (.std s) = true := hgs
      have e : (VSpec.range m M i I).inter (.vmatch (.std s) true) = .ok (.vmatch (.std s) true) := by
        simp [VSpec.inter, fuelFor, interF, Ver.isStd, hgs']
      have e' : (VSpec.vmatch (.std s) true).inter (.range m M i I) = .ok (.vmatch (.std s) true) := by
        simp [VSpec.inter, fuelFor, interF, Ver.isStd, hgs']
      refine ⟨?_, ?_⟩
      · rw [allowsAll_ok e (by simp) (by simp)]
        simp [eqv, Ver.eqv, hrefl]
      · rw [allowsAny_ok e' (by simp) (by simp)]; rfl
    | one t ht =>
      have hts : t.eqv s = true := by
        rw [allows, matchAllows_std t s true ht hs.1] at hgs
        simpa using hgs
      have e : (VSpec.vmatch (.std t) true).inter (.vmatch (.std s) true) = .ok (.vmatch (.std t) true) := by
        simp [VSpec.inter, fuelFor, interF, eqv, Ver.eqv, hts]
      have e' : (VSpec.vmatch (.std s) true).inter (.vmatch (.std t) true) = .ok (.vmatch (.std s) true) := by
        simp [VSpec.inter, fuelFor, interF, eqv, Ver.eqv, eqv_symm s t, hts]
      refine ⟨?_, ?_⟩
      · rw [allowsAll_ok e (by simp) (by simp)]
        simp [eqv, Ver.eqv, hts]
      · rw [allowsAny_ok e' (by simp) (by simp)]; rfl

open Solver in
/-- The code's specifiers do what a run without conflicts needs. -/
theorem specifiers_adequate : Adequate specifiers Wanted Offered Block where
  inverse c hc := by
    obtain ⟨n, c', h1, h2, h3, h4⟩ := inverse_wanted hc
    refine ⟨n, c', by simp [specifiers, h1, liftSpec], by simp [specifiers, h2, liftSpec], h3, ?_⟩
    rintro w ⟨v, rfl, hv⟩
    exact ⟨h4 v hv, inverse_exact hc h1 v hv⟩
  outside a c n ha hc h := by
    obtain ⟨m, c', h1, _⟩ := inverse_wanted hc
    have e : m = n := by simpa [specifiers, h1, liftSpec] using h
    subst e
    obtain ⟨r, h2, h3⟩ := outside_wanted ha hc h1
    refine ⟨r, by simp [specifiers, h2, liftSpec], ?_⟩
    rintro hr w ⟨v, rfl, hv⟩
    exact h3 hr v hv
  meets a c n w ha hc h hw h1 h2 := by
    obtain ⟨m, c', h3, _⟩ := inverse_wanted hc
    have e : m = n := by simpa [specifiers, h3, liftSpec] using h
    subst e
    obtain ⟨v, rfl, hv⟩ := hw
    obtain ⟨r, h4, h5⟩ := meets_wanted ha hc h3 hv h1 h2
    refine ⟨r, by simp [specifiers, h4, liftSpec], h5.trans ⟨?_, ?_⟩⟩
    · rintro h6 u ⟨x, rfl, hx⟩
      exact h6 x hx
    · intro h6 x hx
      exact h6 (.std x) ⟨x, rfl, hx⟩
  inter a b w ha hb hw h1 h2 := by
    obtain ⟨v, rfl, hv⟩ := hw
    obtain ⟨k, hk⟩ := fuelFor_two a b
    obtain ⟨r, h3, h4, h5⟩ := wanted_inter k ha hb
    rw [← hk] at h3
    have e : a.inter b = .ok r := h3
    have hall : ∀ u, Candidate u → r.allows (.std u) = (a.allows (.std u) && b.allows (.std u)) := by
      intro u hu
      have := h5 u hu
      dsimp only at this
      rw [Bool.eq_iff_iff, this]; simp
    refine ⟨r, by simp [specifiers, e, liftSpec], ?_, ?_⟩
    · rcases h4 with rfl | h4
      · have := hall v hv
        have h1' : a.allows (.std v) = true := h1
        have h2' : b.allows (.std v) = true := h2
        rw [h1', h2'] at this
        simp [allows] at this
      · exact h4
    · rintro u ⟨x, rfl, hx⟩
      exact hall x hx
  isNone a ha := isNone_false (Block.isProper (Wanted.block ha))
  nonStandard a ha := by cases ha <;> simp [specifiers, Ver.isStd]
  single v hv := by
    obtain ⟨s, rfl, hs⟩ := hv
    refine ⟨.one s hs, ?_⟩
    show (VSpec.vmatch (.std s) true).allows (.std s) = true
    rw [one_allows hs hs]
    exact SV.eqv_stage.refl s
  alike v w c hv hw hc h := by
    obtain ⟨s, rfl, hs⟩ := hv
    obtain ⟨t, rfl, ht⟩ := hw
    have h' : (VSpec.vmatch (.std s) true).allows (.std t) = true := h
    rw [one_allows hs ht] at h'
    exact (block_allows_congr c (Wanted.block hc) s t hs.1 ht.1 h').symm
  total g a hg ha := by
    obtain ⟨k, hk⟩ := fuelFor_two g a
    obtain ⟨r, h3, _⟩ := block_inter k g a (.inr hg) (.inr (Wanted.block ha))
    rw [← hk] at h3
    have e : g.inter a = .ok r := h3
    by_cases hall : g = .all
    · subst hall; exact ⟨_, rfl⟩
    · exact ⟨eqv r a, by simp [specifiers, allowsAll_ok e hall (Block.isProper hg), liftSpec]⟩
  covers g r v hg hr hv h1 h2 h3 := by
    obtain ⟨s, rfl, hs⟩ := hv
    obtain ⟨h4, h5⟩ := covers_wanted hg hr hs h1 h2 (fun w hw hrw => h3 (.std w) ⟨w, rfl, hw⟩ hrw)
    exact ⟨by simp [specifiers, h4, liftSpec], by simp [specifiers, h5, liftSpec]⟩
  same g c n w hg hc h hw hs := by
    rcases hs with hs | hs
    · exact eqv_allows _ _ hs w
    · exact (eqv_allows _ _ hs w).symm

end Greedy
end Pkm
