/-
Python's stable `sort`/`sorted`, as a structural insertion sort so that the kernel can evaluate it.
-/
namespace Pkm

/-- Insert `x` before the first element that `x` is not after (`le x y`). -/
def insertBy {α} (le : α → α → Bool) (x : α) : List α → List α
  | [] => [x]
  | y :: ys => if le x y then x :: y :: ys else y :: insertBy le x ys

/-- Stable sort by `le`. -/
def sortBy {α} (le : α → α → Bool) : List α → List α
  | [] => []
  | x :: xs => insertBy le x (sortBy le xs)

theorem insertBy_perm {α} (le : α → α → Bool) (x : α) (l : List α) :
    (insertBy le x l).Perm (x :: l) := by
  induction l with
  | nil => exact .refl _
  | cons y ys ih =>
    simp only [insertBy]
    split
    · exact .refl _
    · exact (ih.cons y).trans (.swap x y ys)

theorem sortBy_perm {α} (le : α → α → Bool) (l : List α) : (sortBy le l).Perm l := by
  induction l with
  | nil => exact .refl _
  | cons x xs ih => exact (insertBy_perm le x _).trans (ih.cons x)

theorem insertBy_sorted {α} (le : α → α → Bool)
    (total : ∀ a b, le a b = true ∨ le b a = true)
    (trans : ∀ a b c, le a b = true → le b c = true → le a c = true) (x : α) (l : List α)
    (h : l.Pairwise (fun a b => le a b = true)) :
    (insertBy le x l).Pairwise (fun a b => le a b = true) := by
  induction l with
  | nil => simp [insertBy]
  | cons y ys ih =>
    simp only [insertBy]
    have h' := List.pairwise_cons.mp h
    split
    · rename_i hxy
      refine List.pairwise_cons.mpr ⟨fun z hz => ?_, h⟩
      rcases List.mem_cons.mp hz with rfl | hz
      · exact hxy
      · exact trans _ _ _ hxy (h'.1 z hz)
    · rename_i hxy
      refine List.pairwise_cons.mpr ⟨fun z hz => ?_, ih h'.2⟩
      rcases List.mem_cons.mp ((insertBy_perm le x ys).mem_iff.mp hz) with rfl | hz
      · rcases total z y with h1 | h1
        · exact absurd h1 hxy
        · exact h1
      · exact h'.1 z hz

/-- The result is sorted when `le` is total and transitive. -/
theorem sortBy_sorted {α} (le : α → α → Bool)
    (total : ∀ a b, le a b = true ∨ le b a = true)
    (trans : ∀ a b c, le a b = true → le b c = true → le a c = true) (l : List α) :
    (sortBy le l).Pairwise (fun a b => le a b = true) := by
  induction l with
  | nil => simp [sortBy]
  | cons x xs ih => exact insertBy_sorted le total trans x _ ih

theorem insertBy_of_all {α} (le : α → α → Bool) (x : α) (l : List α)
    (h : ∀ y, y ∈ l → le x y = true) : insertBy le x l = x :: l := by
  cases l with
  | nil => rfl
  | cons y ys => simp [insertBy, h y (by simp)]

/-- Sorting a sorted list changes nothing. -/
theorem sortBy_of_sorted {α} (le : α → α → Bool) (l : List α)
    (h : l.Pairwise (fun a b => le a b = true)) : sortBy le l = l := by
  induction l with
  | nil => rfl
  | cons x xs ih =>
    have h' := List.pairwise_cons.mp h
    simp only [sortBy, ih h'.2]
    exact insertBy_of_all le x xs h'.1

/-- Filtering commutes with inserting when the relation only compares a key constant on the filter:
stability of `sortBy` (elements of one key class keep their order). -/
theorem insertBy_filter {α} (le : α → α → Bool) (p : α → Bool) (x : α) (l : List α)
    (hx : p x = true → ∀ y, p y = true → le x y = true) :
    (insertBy le x l).filter p = (if p x then [x] else []) ++ l.filter p := by
  induction l with
  | nil => simp [insertBy, List.filter_cons]
  | cons y ys ih =>
    simp only [insertBy]
    split
    · by_cases hpx : p x = true <;> simp [List.filter_cons, hpx]
    · rename_i hxy
      by_cases hpx : p x = true
      · have hpy : p y = false := by
          cases hy : p y
          · rfl
          · exact absurd (hx hpx y hy) hxy
        simp [List.filter_cons, hpx, hpy, ih]
      · simp only [Bool.not_eq_true] at hpx
        simp [List.filter_cons, hpx, ih]

/-- Stability. -/
theorem sortBy_stable {α} (le : α → α → Bool) (p : α → Bool)
    (h : ∀ x y, p x = true → p y = true → le x y = true) (l : List α) :
    (sortBy le l).filter p = l.filter p := by
  induction l with
  | nil => rfl
  | cons x xs ih =>
    simp only [sortBy, insertBy_filter le p x _ (fun hx y hy => h x y hx hy), ih]
    by_cases hpx : p x = true <;> simp [List.filter_cons, hpx]

end Pkm
