import Verif.Tags.Spec
/- The order of scores. -/
set_option linter.unusedVariables false
set_option linter.unusedSimpArgs false
namespace Pkm.Tags

theorem Frac.lt_irrefl (a : Frac) : a.lt a = false := by simp [Frac.lt]

/-- `a ≤ b` and `b ≤ c` give `a ≤ c` for score components. -/
theorem Frac.le_trans {a b c : Frac} (h1 : b.lt a = false) (h2 : c.lt b = false) : c.lt a = false := by
  simp only [Frac.lt, decide_eq_false_iff_not, Nat.not_lt] at *
  have e1 : a.num * (c.den + 1) * (b.den + 1) ≤ c.num * (a.den + 1) * (b.den + 1) := by
    calc a.num * (c.den + 1) * (b.den + 1) = (a.num * (b.den + 1)) * (c.den + 1) := by
            rw [Nat.mul_assoc, Nat.mul_comm (c.den + 1), ← Nat.mul_assoc]
      _ ≤ (b.num * (a.den + 1)) * (c.den + 1) := Nat.mul_le_mul_right _ h1
      _ = (b.num * (c.den + 1)) * (a.den + 1) := by
            rw [Nat.mul_assoc, Nat.mul_comm (a.den + 1), ← Nat.mul_assoc]
      _ ≤ (c.num * (b.den + 1)) * (a.den + 1) := Nat.mul_le_mul_right _ h2
      _ = c.num * (a.den + 1) * (b.den + 1) := by
            rw [Nat.mul_assoc, Nat.mul_comm (b.den + 1), ← Nat.mul_assoc]
  exact Nat.le_of_mul_le_mul_right e1 (by omega)

theorem Frac.lt_asymm {a b : Frac} (h : a.lt b = true) : b.lt a = false := by
  simp only [Frac.lt, decide_eq_true_eq, decide_eq_false_iff_not] at *
  omega

/-- `a ≤ b ≤ c` for whole scores (`≤` is "not greater"). -/
theorem scoreLe_trans : ∀ (a b c : Score), scoreLt b a = false → scoreLt c b = false → scoreLt c a = false
  | [], [], [], _, _ => rfl
  | [], [], _ :: _, _, _ => rfl
  | [], _ :: _, [], _, h => by simp [scoreLt] at h
  | [], _ :: _, _ :: _, _, _ => rfl
  | _ :: _, [], _, h, _ => by simp [scoreLt] at h
  | _ :: _, _ :: _, [], _, h => by simp [scoreLt] at h
  | a :: as, b :: bs, c :: cs, h1, h2 => by
    simp only [scoreLt] at *
    by_cases x1 : b.lt a = true
    · simp [x1] at h1
    by_cases x2 : c.lt b = true
    · simp [x2] at h2
    have x1' : b.lt a = false := by simpa using x1
    have x2' : c.lt b = false := by simpa using x2
    have x3 := Frac.le_trans x1' x2'
    simp only [x1', x2', x3, if_false, Bool.false_eq_true] at h1 h2 ⊢
    by_cases y : a.lt c = true
    · simp [y]
    · have y' : a.lt c = false := by simpa using y
      have z1 : a.lt b = false := Frac.le_trans x2' y'
      have z2 : b.lt c = false := Frac.le_trans y' x1'
      simp only [y', z1, z2, if_false, Bool.false_eq_true] at h1 h2 ⊢
      exact scoreLe_trans as bs cs h1 h2

theorem scoreLt_irrefl : ∀ a : Score, scoreLt a a = false
  | [] => rfl
  | a :: as => by simp [scoreLt, Frac.lt_irrefl, scoreLt_irrefl as]

theorem scoreLt_asymm : ∀ {a b : Score}, scoreLt a b = true → scoreLt b a = false
  | [], [], h => by simp [scoreLt] at h
  | [], _ :: _, _ => rfl
  | _ :: _, [], h => by simp [scoreLt] at h
  | a :: as, b :: bs, h => by
    simp only [scoreLt] at *
    by_cases x : a.lt b = true
    · simp [x, Frac.lt_asymm x]
    · have x' : a.lt b = false := by simpa using x
      simp only [x', if_false, Bool.false_eq_true] at *
      by_cases y : b.lt a = true
      · simp [y] at h
      · have y' : b.lt a = false := by simpa using y
        simp only [y', if_false, Bool.false_eq_true] at *
        exact scoreLt_asymm h

theorem scan_ok (c : Ctx) : ∀ (ts : List (Text × Text × Text)) (best r : Option Score),
    scan c ts best = .ok r →
    (∀ x, best = some x → ∃ y, r = some y ∧ scoreLt y x = false) ∧
    (∀ t ∈ ts, ∃ s, score1 c t.1 t.2.1 t.2.2 = .ok s ∧ ∀ x, s = some x → ∃ y, r = some y ∧ scoreLt y x = false) ∧
    (∀ y, r = some y → best = some y ∨ ∃ t ∈ ts, score1 c t.1 t.2.1 t.2.2 = .ok (some y))
  | [], best, r, h => by
    simp only [scan, Except.ok.injEq] at h
    subst h
    exact ⟨fun x hx => ⟨x, hx, scoreLt_irrefl x⟩, by simp, fun y hy => .inl hy⟩
  | (i, a, p) :: ts, best, r, h => by
    simp only [scan] at h
    cases hs : score1 c i a p with
    | error e => simp [hs] at h
    | ok s =>
      simp only [hs] at h
      obtain ⟨h1, h2, h3⟩ := scan_ok c ts _ r h
      have up : ∀ x z, keepMax best s = some z → scoreLt z x = false → ∃ y, r = some y ∧ scoreLt y x = false := by
        intro x z hz hzx
        obtain ⟨y, hy, hyz⟩ := h1 z hz
        exact ⟨y, hy, scoreLe_trans x z y hzx hyz⟩
      refine ⟨?_, ?_, ?_⟩
      · intro x hx
        subst hx
        cases s with
        | none => exact up x x rfl (scoreLt_irrefl x)
        | some v =>
          by_cases hl : scoreLt x v = true
          · exact up x v (by simp [keepMax, hl]) (scoreLt_asymm hl)
          · exact up x x (by simp [keepMax, hl]) (scoreLt_irrefl x)
      · intro t ht
        rcases List.mem_cons.mp ht with e | e
        · subst e
          refine ⟨s, hs, ?_⟩
          intro x hx
          subst hx
          cases best with
          | none => exact up x x rfl (scoreLt_irrefl x)
          | some v =>
            by_cases hl : scoreLt v x = true
            · exact up x x (by simp [keepMax, hl]) (scoreLt_irrefl x)
            · exact up x v (by simp [keepMax, hl]) (by simpa using hl)
        · exact h2 t e
      · intro y hy
        rcases h3 y hy with e | ⟨t, ht, e⟩
        · cases s with
          | none => exact .inl e
          | some v =>
            cases best with
            | none =>
              simp only [keepMax, Option.some.injEq] at e
              subst e
              exact .inr ⟨(i, a, p), List.mem_cons_self, hs⟩
            | some b =>
              simp only [keepMax] at e
              split at e
              · simp only [Option.some.injEq] at e
                subst e
                exact .inr ⟨(i, a, p), List.mem_cons_self, hs⟩
              · exact .inl e
        · exact .inr ⟨t, List.mem_cons_of_mem _ ht, e⟩

theorem scan_total (c : Ctx) : ∀ (ts : List (Text × Text × Text)) (best : Option Score),
    (∀ t ∈ ts, ∃ s, score1 c t.1 t.2.1 t.2.2 = .ok s) → ∃ r, scan c ts best = .ok r
  | [], best, _ => ⟨best, rfl⟩
  | (i, a, p) :: ts, best, h => by
    obtain ⟨s, hs⟩ := h (i, a, p) List.mem_cons_self
    obtain ⟨r, hr⟩ := scan_total c ts (keepMax best s) (fun t ht => h t (List.mem_cons_of_mem _ ht))
    exact ⟨r, by simp only [scan]; simp only at hs; rw [hs]; exact hr⟩

end Pkm.Tags
