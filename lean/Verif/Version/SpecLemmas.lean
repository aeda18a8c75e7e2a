import Verif.Version.Lemmas
import Verif.Version.Spec
set_option linter.unusedVariables false
/-
Lemmas relating the model of versions to the vocabulary of `Spec.lean`.
-/
namespace Pkm
open Spec

namespace SV

theorem relSame_iff (a b : List Nat) : RelSame a b ↔ relEq a b = true := (relEq_iff a b).symm
theorem relBefore_iff (a b : List Nat) : RelBefore a b ↔ relLt a b = true := (relLt_iff a b).symm

theorem samePublic_iff (a b : SV) : SamePublic a b ↔ equalsTo a b false = true := by
  simp only [SamePublic, relSame_iff, equalsTo_eq, epoch0, Bool.and_eq_true, beq_iff_eq,
    Bool.not_false, Bool.true_or, and_true, and_assoc]

theorem eqv_iff (a b : SV) : eqv a b = true ↔ SamePublic a b ∧ a.loc = b.loc := by
  simp only [samePublic_iff, eqv, equalsTo_eq, Bool.and_eq_true, beq_iff_eq, Bool.not_false,
    Bool.true_or, and_true, Bool.not_true, Bool.false_or]

theorem splitOn_ne_nil (s : Text) : splitOn '.' s ≠ [] := by
  cases s with
  | nil => simp [splitOn]
  | cons c cs =>
    simp only [splitOn]
    split
    · simp
    · split <;> simp

theorem splitOn_inj : ∀ a b : Text, splitOn '.' a = splitOn '.' b → a = b
  | [], [], _ => rfl
  | [], b :: bs, h => by
    simp only [splitOn] at h
    split at h
    · have := splitOn_ne_nil bs; simp_all
    · split at h <;> simp at h
  | a :: as, [], h => by
    simp only [splitOn] at h
    split at h
    · have := splitOn_ne_nil as; simp_all
    · split at h <;> simp at h
  | a :: as, b :: bs, h => by
    simp only [splitOn] at h
    have ha := splitOn_ne_nil as
    have hb := splitOn_ne_nil bs
    by_cases h1 : a = '.' <;> by_cases h2 : b = '.'
    · subst h1; subst h2
      simp at h
      rw [splitOn_inj as bs h]
    · simp only [h1, h2, if_true, if_false] at h
      split at h <;> simp at h
    · simp only [h1, h2, if_true, if_false] at h
      split at h <;> simp at h
    · simp only [h1, h2, if_false] at h
      split at h
      · contradiction
      · split at h
        · contradiction
        · rename_i hs1 _ _ _ hs2
          simp at h
          obtain ⟨⟨rfl, rfl⟩, rfl⟩ := h
          rw [splitOn_inj as bs (by rw [hs1, hs2])]

theorem localLoop_cases (x y : List Text) :
    x = y ∨ localLoop x y = true ∨ localLoop y x = true ∨
      ∃ p m n s t, x = p ++ m :: s ∧ y = p ++ n :: t ∧ m ≠ n ∧
        isNumeric m = true ∧ isNumeric n = true := by
  induction x generalizing y with
  | nil => cases y with
    | nil => exact Or.inl rfl
    | cons o os => right; left; rfl
  | cons m ms ih =>
    cases y with
    | nil => right; right; left; rfl
    | cons o os =>
      by_cases hmo : m = o
      · subst hmo
        rcases ih os with h | h | h | ⟨p, m', n', s, t, h1, h2, h3⟩
        · left; rw [h]
        · right; left; simpa [localLoop_cons] using h
        · right; right; left; simpa [localLoop_cons] using h
        · right; right; right
          exact ⟨m :: p, m', n', s, t, by simp [h1], by simp [h2], h3⟩
      · have hom : ¬ o = m := fun h => hmo h.symm
        simp only [localLoop_cons, hmo, hom, if_false, segLt]
        cases hm : isNumeric m <;> cases ho : isNumeric o
        · rcases strLt_total m o with h | h | h
          · exact absurd h hmo
          · right; left; simp [h]
          · right; right; left; simp [h]
        · right; left; simp
        · right; right; left; simp
        · right; right; right
          exact ⟨[], m, o, ms, os, rfl, rfl, hmo, hm, ho⟩

theorem localLoop_clash {p : List Text} {m n : Text} {s t : List Text} (hmn : m ≠ n)
    (hm : isNumeric m = true) (hn : isNumeric n = true) :
    localLoop (p ++ m :: s) (p ++ n :: t) = false := by
  induction p with
  | nil => simp [localLoop_cons, hmn, segLt, hm, hn]
  | cons q qs ih => simp [localLoop_cons, ih]

/-- When the public parts agree only the labels decide. -/
theorem lt_samePublic (a b : SV) (h : SamePublic a b) :
    lt a b = localLoop (localSegments a.loc) (localSegments b.loc) := by
  obtain ⟨h1, h2, h3, h4, h5⟩ := h
  rw [relSame_iff] at h2
  have h1' : a.epoch0 = b.epoch0 := h1
  simp [lt_eq_casc, cascL, lexL, h1', h2, h3, h4, h5]

/-- When the public parts differ the versions are strictly ordered. -/
theorem lt_total_of_not_samePublic (a b : SV) (h : ¬ SamePublic a b) :
    lt a b = true ∨ lt b a = true := by
  have tot := (StageTotal.lex (natStage.pullback SV.epoch0) (fun x y => natTotal _ _)
    (StageTotal.lex (relStage.pullback SV.release) (fun x y => relTotal _ _)
    (StageTotal.lex (devStage'.pullback SV.dev) (fun x y => devTotal _ _)
    (StageTotal.lex (preStage'.pullback SV.pre) (fun x y => preTotal _ _)
    (fun x y => postTotal x.post y.post))))) a b
  have hsp := fun x y : SV => (samePublic_iff x y)
  have key : ∀ x y : SV, ¬ SamePublic x y →
      (lexL (fun a b : SV => a.epoch0 == b.epoch0) (fun a b => natLt a.epoch0 b.epoch0)
        (lexL (fun a b => relEq a.release b.release) (fun a b => relLt a.release b.release)
        (lexL (fun a b => a.dev == b.dev) (fun a b => devLt a.dev b.dev)
        (lexL (fun a b => a.pre == b.pre) (fun a b => preLt a.pre b.pre)
          (fun a b => postLt a.post b.post))))) x y = true → lt x y = true := by
    intro x y hne hl
    rw [lt_eq_casc]
    simp only [cascL, lexL] at *
    by_cases h1 : x.epoch0 = y.epoch0
    · by_cases h2 : relEq x.release y.release = true
      · by_cases h3 : x.dev = y.dev
        · by_cases h4 : x.pre = y.pre
          · by_cases h5 : x.post = y.post
            · exact absurd ⟨h1, (relSame_iff _ _).mpr h2, h4, h5, h3⟩ hne
            · simpa [h1, h2, h3, h4, h5] using hl
          · simpa [h1, h2, h3, h4] using hl
        · simpa [h1, h2, h3] using hl
      · simpa [h1, h2] using hl
    · simpa [h1] using hl
  rcases tot with ht | ht | ht
  · exfalso; apply h
    simp only [lexE, Bool.and_eq_true, beq_iff_eq] at ht
    obtain ⟨h1, h2, h3, h4, h5⟩ := ht
    exact ⟨h1, (relSame_iff _ _).mpr h2, h4, h5, h3⟩
  · left; exact key a b h ht
  · right
    refine key b a (fun hh => h ?_) ht
    obtain ⟨h1, h2, h3, h4, h5⟩ := hh
    exact ⟨h1.symm, fun i => (h2 i).symm, h3.symm, h4.symm, h5.symm⟩

end SV

section
open SV

theorem trimLoop_same (n : Nat) (r : List Nat) : RelSame (trimLoop n r) r := by
  fun_induction trimLoop n r with
  | case1 r => intro i; rfl
  | case2 n r h ih =>
    intro i
    rw [ih i]
    obtain ⟨h1, h2⟩ := h
    have hr : r = r.dropLast ++ [0] := by
      have hne : r ≠ [] := by intro e; subst e; simp at h1
      rw [List.getLast?_eq_some_getLast hne] at h2
      simp at h2
      conv => lhs; rw [← List.dropLast_concat_getLast hne, h2]
    conv => rhs; rw [hr]
    have := comp_padTo (r.dropLast.length + 1) r.dropLast i
    simp only [padTo, Nat.add_sub_cancel_left, List.replicate_one] at this
    exact this.symm
  | case3 n r h => intro i; rfl

theorem trim_same (r : List Nat) : RelSame (trimRelease r) r := trimLoop_same _ r

theorem trimLoop_canon (n : Nat) (r : List Nat) (h : r ≠ []) (hn : r.length ≤ n) :
    trimLoop n r ≠ [] ∧ ((trimLoop n r).length = 1 ∨ (trimLoop n r).getLast? ≠ some 0) := by
  fun_induction trimLoop n r with
  | case1 r => exact absurd (List.length_eq_zero_iff.mp (by omega)) h
  | case2 n r hh ih =>
    apply ih
    · intro e
      have := congrArg List.length e
      simp at this; omega
    · simp; omega
  | case3 n r hh =>
    refine ⟨h, ?_⟩
    by_cases h1 : r.length = 1
    · exact Or.inl h1
    · right; intro h2; apply hh
      refine ⟨?_, h2⟩
      have : r.length ≠ 0 := by intro e; exact h (List.length_eq_zero_iff.mp e)
      omega

theorem trim_canon (r : List Nat) (h : r ≠ []) :
    trimRelease r ≠ [] ∧ ((trimRelease r).length = 1 ∨ (trimRelease r).getLast? ≠ some 0) :=
  trimLoop_canon _ r h (Nat.le_refl _)

theorem canon_unique (r s : List Nat) (hr : r ≠ []) (hs : s ≠ [])
    (cr : r.length = 1 ∨ r.getLast? ≠ some 0) (cs : s.length = 1 ∨ s.getLast? ≠ some 0)
    (h : RelSame r s) : r = s := by
  have len : ∀ r s : List Nat, r ≠ [] → s ≠ [] → (r.length = 1 ∨ r.getLast? ≠ some 0) →
      RelSame r s → r.length ≤ s.length := by
    intro r s hr hs cr h
    rcases cr with c | c
    · have : s.length ≠ 0 := by intro e; exact hs (List.length_eq_zero_iff.mp e)
      omega
    · apply Decidable.byContradiction
      intro hlt
      have h1 : 0 < r.length := by omega
      have := h (r.length - 1)
      simp only [relAt, List.getD_eq_getElem?_getD] at this
      rw [← List.getLast?_eq_getElem?, List.getElem?_eq_none (l := s) (by omega)] at this
      rw [List.getLast?_eq_some_getLast hr] at this c
      simp at this c
      exact c this
  have l1 := len r s hr hs cr h
  have l2 := len s r hs hr cs (fun i => (h i).symm)
  apply List.ext_getElem (by omega)
  intro i h1 h2
  have := h i
  simpa [relAt, h1, h2] using this
end

theorem SV_prePairLt_iff (p q : Text × Nat) : SV.prePairLt p q = true ↔
    (strLt p.1 q.1 = true ∨ p.1 = q.1 ∧ p.2 < q.2) := by
  unfold SV.prePairLt
  by_cases h : p.1 = q.1 <;> simp [h, strLt_irrefl]

theorem pre_ne (p q : Text × Nat) (h : SV.prePairLt p q = true) : ¬ p = q := by
  intro e; subst e; rw [SV.prePairStage.irrefl] at h; simp at h

end Pkm
