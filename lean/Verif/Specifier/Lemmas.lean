import Verif.Specifier.Spec
import Verif.Version.Props
set_option linter.unusedVariables false
/-
Lemmas about specifiers: plain versions are a total preorder, and interval reasoning over it.
-/
namespace Pkm
open Spec

theorem plain_tri (a b : SV) (ha : Plain a) (hb : Plain b) :
    a.lt b = true ∨ a.eqv b = true ∨ b.lt a = true := by
  have h := (std_trichotomy_iff a b).mpr (by
    rintro ⟨_, h⟩
    rw [ha.2.2, hb.2.2] at h
    rcases h with ⟨p, m, n, s, t, hx, hy, hmn, _⟩ | ⟨_, h⟩ | ⟨h, _⟩
    · rw [hx] at hy
      exact hmn (by have := List.append_cancel_left hy; simp at this; exact this.1)
    · simp at h
    · simp at h)
  rcases h with h | h | h
  · exact Or.inl h.1
  · exact Or.inr (Or.inl h.2.1)
  · exact Or.inr (Or.inr h.2.2)

/-- Finitely many plain versions can be ranked by numbers; interval arguments then become
arithmetic. -/
theorem ranks (l : List SV) (hl : ∀ v, v ∈ l → Plain v) :
    ∃ f : SV → Nat, ∀ a b, a ∈ l → b ∈ l →
      (a.lt b = decide (f a < f b)) ∧ (a.eqv b = decide (f a = f b)) := by
  let f : SV → Nat := fun x => l.countP (fun y => y.lt x)
  have mono : ∀ a b, a ∈ l → a.lt b = true → f a < f b := by
    intro a b ha hab
    have h1 : ∀ (l' : List SV), l'.countP (fun y => y.lt a) ≤ l'.countP (fun y => y.lt b) := by
      intro l'
      apply List.countP_mono_left
      intro x _ hx
      exact SV.eqv_stage.ltTrans _ _ _ hx hab
    obtain ⟨s, t, rfl⟩ := List.append_of_mem ha
    show List.countP _ _ < List.countP _ _
    have e : SV.lt a a = false := SV.eqv_stage.irrefl a
    simp only [List.countP_append, List.countP_cons, e, hab]
    have := h1 s; have := h1 t
    simp; omega
  have same : ∀ a b, a.eqv b = true → f a = f b := by
    intro a b hab
    show List.countP _ _ = List.countP _ _
    apply List.countP_congr
    intro x _
    rw [SV.eqv_stage.congrR a b x hab]
  refine ⟨f, fun a b ha hb => ?_⟩
  rcases plain_tri a b (hl a ha) (hl b hb) with h | h | h
  · have := mono a b ha h
    have e := SV.eqv_stage.ne a b h
    rw [h, e]; simp; omega
  · have := same a b h
    have e : a.lt b = false := by
      cases hh : a.lt b with
      | false => rfl
      | true => rw [SV.eqv_stage.ne a b hh] at h; simp at h
    rw [h, e]; simp; omega
  · have := mono b a hb h
    have e1 := SV.eqv_stage.asymm b a h
    have e2 : a.eqv b = false := by
      cases hh : a.eqv b with
      | false => rfl
      | true =>
        have := SV.eqv_stage.ne b a h
        rw [SV.eqv_stage.symm _ _ hh] at this; simp at this
    rw [e1, e2]; simp; omega

theorem eqv_symm (a b : SV) : a.eqv b = b.eqv a := by
  cases h : a.eqv b with
  | true => exact (SV.eqv_stage.symm _ _ h).symm
  | false =>
    cases h' : b.eqv a with
    | false => rfl
    | true => rw [SV.eqv_stage.symm _ _ h'] at h; simp at h

theorem eqv_post {a b : SV} (h : a.eqv b = true) : a.post = b.post :=
  ((SV.eqv_iff a b).mp h).1.2.2.2.1

theorem eqv_congrL {a b : SV} (c : SV) (h : a.eqv b = true) : a.eqv c = b.eqv c := by
  cases h1 : b.eqv c with
  | true => exact SV.eqv_stage.trans _ _ _ h h1
  | false =>
    cases h2 : a.eqv c with
    | false => rfl
    | true =>
      rw [SV.eqv_stage.trans _ _ _ (SV.eqv_stage.symm _ _ h) h2] at h1; simp at h1

theorem eqv_congrR {a b : SV} (c : SV) (h : a.eqv b = true) : c.eqv a = c.eqv b := by
  rw [eqv_symm c a, eqv_symm c b]; exact eqv_congrL c h

namespace VSpec

/-! ### hash sets of plain versions -/

theorem plain_hash (a b : SV) (ha : Plain a) (hb : Plain b) (h : a.eqv b = true) :
    (Ver.std a).hashKey = (Ver.std b).hashKey := by
  refine version_hash_partial a b h ?_ ha.1 hb.1
  have he := ((SV.eqv_iff a b).mp h).1.1
  obtain ⟨_, h1, _⟩ := ha
  obtain ⟨_, h2, _⟩ := hb
  cases hx : a.epoch with
  | none =>
    cases hy : b.epoch with
    | none => rfl
    | some y => rw [hx, hy] at he; simp at he; subst he; exact absurd hy h2
  | some x =>
    cases hy : b.epoch with
    | none => rw [hx, hy] at he; simp at he; subst he; exact absurd hx h1
    | some y => rfl

theorem memSet_iff (w : SV) (bl : List Ver) (hw : Plain w) (hbl : ∀ v, v ∈ bl → PlainVer v) :
    memSet (.std w) bl = true ↔ ∃ v, v ∈ bl ∧ v.eqv (.std w) = true := by
  simp only [memSet, List.any_eq_true, Bool.and_eq_true, decide_eq_true_eq]
  constructor
  · rintro ⟨v, hv, _, h⟩; exact ⟨v, hv, h⟩
  · rintro ⟨v, hv, h⟩
    refine ⟨v, hv, ?_, h⟩
    cases v with
    | url u p s => simp [Ver.eqv] at h
    | named n => simp [Ver.eqv] at h
    | std s => exact plain_hash s w (hbl _ hv s rfl) hw h

theorem addSet_mem (bl : List Ver) (v x : Ver) : x ∈ addSet bl v → x ∈ bl ∨ x = v := by
  unfold addSet
  split
  · exact Or.inl
  · simp

theorem addSet_sub (bl : List Ver) (v x : Ver) (h : x ∈ bl) : x ∈ addSet bl v := by
  unfold addSet
  split
  · exact h
  · simp [h]

theorem ver_eqv_trans (a b c : Ver) (h : a.eqv b = true) (h' : b.eqv c = true) :
    a.eqv c = true := version_eq_equivalence.2.2 a b c h h'

theorem addSet_any (bl : List Ver) (v : Ver) (w : Ver) :
    (∃ x, x ∈ addSet bl v ∧ x.eqv w = true) ↔ (∃ x, x ∈ bl ∧ x.eqv w = true) ∨ v.eqv w = true := by
  constructor
  · rintro ⟨x, hx, h⟩
    rcases addSet_mem bl v x hx with h1 | h1
    · exact Or.inl ⟨x, h1, h⟩
    · subst h1; exact Or.inr h
  · rintro (⟨x, hx, h⟩ | h)
    · exact ⟨x, addSet_sub bl v x hx, h⟩
    · unfold addSet
      by_cases hm : memSet v bl = true
      · rw [if_pos hm]
        simp only [memSet, List.any_eq_true, Bool.and_eq_true] at hm
        obtain ⟨x, hx, _, hxv⟩ := hm
        exact ⟨x, hx, ver_eqv_trans _ _ _ hxv h⟩
      · rw [if_neg hm]
        exact ⟨v, by simp, h⟩

theorem unionSet_mem (t : List Ver) : ∀ (s : List Ver) (x : Ver),
    x ∈ unionSet s t → x ∈ s ∨ x ∈ t := by
  induction t with
  | nil => intro s x h; exact Or.inl h
  | cons v t ih =>
    intro s x h
    rcases ih (addSet s v) x h with h1 | h1
    · rcases addSet_mem s v x h1 with h2 | h2
      · exact Or.inl h2
      · subst h2; simp
    · simp [h1]

theorem unionSet_any (t : List Ver) : ∀ (s : List Ver) (w : Ver),
    (∃ x, x ∈ unionSet s t ∧ x.eqv w = true) ↔
      (∃ x, x ∈ s ∧ x.eqv w = true) ∨ (∃ x, x ∈ t ∧ x.eqv w = true) := by
  induction t with
  | nil => intro s w; simp [unionSet]
  | cons v t ih =>
    intro s w
    have := ih (addSet s v) w
    have e : unionSet s (v :: t) = unionSet (addSet s v) t := rfl
    rw [e, this, addSet_any]
    simp only [List.mem_cons, exists_eq_or_imp]
    exact or_assoc

theorem unionSet_ne_nil (t : List Ver) : ∀ s : List Ver, s ≠ [] → unionSet s t ≠ [] := by
  induction t with
  | nil => intro s h; exact h
  | cons v t ih =>
    intro s h
    apply ih
    cases s with
    | nil => exact absurd rfl h
    | cons x xs => exact List.ne_nil_of_mem (addSet_sub (x :: xs) v x (by simp))

/-! ### allows of ranges and matches -/

theorem rangeAllows_congr (m M : Option SV) (i I : Bool) (a b : SV) (h : a.eqv b = true) :
    rangeAllows m M i I (.std a) = rangeAllows m M i I (.std b) := by
  have hp : a.isPost = b.isPost := by simp [SV.isPost, eqv_post h]
  cases m <;> cases M <;>
    simp [rangeAllows, endEq, Ver.eqv, Ver.lt, Ver.isPost, eqv_congrR _ h,
      SV.eqv_stage.congrL a b _ h, SV.eqv_stage.congrR a b _ h, hp]

theorem rangeAllows_iff (m M : Option SV) (i I : Bool) (h : RangeOk m M i I) (w : SV)
    (hw : Candidate w) : rangeAllows m M i I (.std w) = true ↔ AboveMin m i w ∧ BelowMax M I w := by
  obtain ⟨hw, hpost⟩ := hw
  obtain ⟨f, hf⟩ := ranks (w :: (m.toList ++ M.toList)) (by
    intro v hv
    simp only [List.mem_cons, List.mem_append, Option.mem_toList] at hv
    rcases hv with rfl | h1 | h1
    · exact hw
    · exact h.plainMin _ h1
    · exact h.plainMax _ h1)
  have e : w.isPost = false := by simp [SV.isPost, hpost]
  have hi := h.inclMin
  have hI := h.inclMax
  have ho := h.ordered
  cases m with
  | none =>
    cases M with
    | none => simp [AboveMin, BelowMax, rangeAllows, e, Ver.isPost, endEq]
    | some b =>
      have h1 := (hf b w (by simp) (by simp)).2
      have h2 := (hf w b (by simp) (by simp)).1
      simp at hi
      simp [AboveMin, BelowMax, rangeAllows, e, Ver.isPost, endEq, Ver.eqv, Ver.lt, h1, h2, hi]
      cases I <;> simp <;> omega
  | some a =>
    cases M with
    | none =>
      have h1 := (hf a w (by simp) (by simp)).2
      have h2 := (hf a w (by simp) (by simp)).1
      simp at hI
      simp [AboveMin, BelowMax, rangeAllows, e, Ver.isPost, endEq, Ver.eqv, Ver.lt, h1, h2, hI]
      cases i <;> simp <;> omega
    | some b =>
      have h1 := hf a w (by simp) (by simp)
      have h2 := (hf w b (by simp) (by simp)).1
      have h3 := (hf b w (by simp) (by simp)).2
      have h4 := (hf a b (by simp) (by simp)).1
      have ho' := ho a b rfl rfl
      rw [h4] at ho'
      simp at ho'
      simp [AboveMin, BelowMax, rangeAllows, e, Ver.isPost, endEq, Ver.eqv, Ver.lt, h1, h2, h3]
      cases i <;> cases I <;> simp <;> omega

theorem matchAllows_std (s w : SV) (allow : Bool) (hs : Plain s) (hw : Plain w) :
    matchAllows (.std s) allow (.std w) = (if allow then s.eqv w else !s.eqv w) := by
  have h1 : s.isLocal = false := by simp [SV.isLocal, hs.2.2]
  have h2 : w.withoutLocal = w := by simp [SV.withoutLocal, SV.isLocal, hw.2.2]
  simp [matchAllows, Ver.isLocal, h1, Ver.withoutLocal, h2, Ver.eqv]

theorem matchAllows_plain (v : Ver) (w : SV) (allow : Bool) (hv : PlainVer v) (hw : Plain w) :
    matchAllows v allow (.std w) = (if allow then v.eqv (.std w) else !v.eqv (.std w)) := by
  have h2 : w.withoutLocal = w := by simp [SV.withoutLocal, SV.isLocal, hw.2.2]
  cases v with
  | std s => exact matchAllows_std s w allow (hv s rfl) hw
  | url u p s => simp [matchAllows, Ver.isLocal, Ver.withoutLocal, h2, Ver.eqv]
  | named n => simp [matchAllows, Ver.isLocal, Ver.withoutLocal, h2, Ver.eqv]

/-- Result shape for block operations. -/
def BlockN (r : VSpec) : Prop := r = .none ∨ Block r

theorem Block.isProper {b : VSpec} (h : Block b) : b ≠ .none := by
  cases h <;> simp

/-- `create_range` on consistent arguments. -/
theorem createRange_spec (m M : Option SV) (i I : Bool)
    (hm : ∀ s, m = some s → Plain s) (hM : ∀ s, M = some s → Plain s)
    (hi : i = true → m.isSome = true) (hI : I = true → M.isSome = true)
    (ho : ∀ a b, m = some a → M = some b → a.lt b = true ∨ (a.eqv b = true ∧ i = I)) :
    ∃ r, createRange m M i I = .ok r ∧ BlockN r ∧
      AllowsExactly r (fun w => AboveMin m i w ∧ BelowMax M I w) := by
  cases m with
  | none =>
    cases M with
    | none =>
      simp at hi hI
      refine ⟨.all, by simp [createRange, hi, hI], Or.inr .all, ?_⟩
      intro w hw; simp [allows, AboveMin, BelowMax]
    | some b =>
      have hok : RangeOk Option.none (some b) i I := ⟨hm, hM, by simp, hi, hI, by simp⟩
      refine ⟨_, by simp [createRange, optEq, mkRange]; simpa using hi, Or.inr (.range _ _ _ _ hok), ?_⟩
      intro w hw; rw [allows]; exact rangeAllows_iff _ _ _ _ hok w hw
  | some a =>
    cases M with
    | none =>
      have hok : RangeOk (some a) Option.none i I := ⟨hm, hM, by simp, hi, hI, by simp⟩
      refine ⟨_, by simp [createRange, optEq, mkRange]; simpa using hI, Or.inr (.range _ _ _ _ hok), ?_⟩
      intro w hw; rw [allows]; exact rangeAllows_iff _ _ _ _ hok w hw
    | some b =>
      rcases ho a b rfl rfl with h | ⟨h, hii⟩
      · have hne := SV.eqv_stage.ne a b h
        have hok : RangeOk (some a) (some b) i I := ⟨hm, hM, by simp, hi, hI, by
          intro x y hx hy; simp at hx hy; subst hx; subst hy; exact h⟩
        refine ⟨_, by simp [createRange, optEq, mkRange, hne, h], Or.inr (.range _ _ _ _ hok), ?_⟩
        intro w hw; rw [allows]; exact rangeAllows_iff _ _ _ _ hok w hw
      · subst hii
        cases i with
        | true =>
          refine ⟨_, by simp [createRange, optEq, h], Or.inr (.one a (hm a rfl)), ?_⟩
          intro w hw
          rw [allows, matchAllows_std a w true (hm a rfl) hw.1]
          have hba := SV.eqv_stage.symm _ _ h
          simp only [AboveMin, BelowMax, Option.some.injEq, forall_eq', if_true, true_and]
          rw [eqv_congrL w hba, SV.eqv_stage.congrR b a w hba]
          constructor
          · intro hh; exact ⟨Or.inr hh, Or.inr hh⟩
          · rintro ⟨h1 | h1, h2 | h2⟩
            · rw [SV.eqv_stage.asymm a w h1] at h2; simp at h2
            · exact h2
            · exact h1
            · exact h1
        | false =>
          refine ⟨.none, by simp [createRange, optEq, h], Or.inl rfl, ?_⟩
          intro w hw
          have hba := SV.eqv_stage.symm _ _ h
          simp only [AboveMin, BelowMax, Option.some.injEq, forall_eq', allows, Bool.false_eq_true,
            false_and, or_false, false_iff]
          rw [SV.eqv_stage.congrR b a w hba]
          rintro ⟨h1, h2⟩
          rw [SV.eqv_stage.asymm a w h1] at h2; simp at h2

end VSpec
end Pkm
