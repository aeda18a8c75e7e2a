import Verif.Collections.Model
set_option linter.unusedVariables false
set_option linter.unusedSimpArgs false
/-
Lemmas about the collection helpers.
-/
namespace Pkm
namespace Coll
variable {T K V : Type} [DecidableEq K]

/-- The non-empty group of a key. -/
def groupOf (l : List T) : Option (List T) := if l.isEmpty then none else some l

theorem groupFold_get (key : T → K) (xs : List T) : ∀ (d : Dict K (List T)) (done : List T),
    (∀ k, d.get k = groupOf (done.filter (fun x => decide (key x = k)))) →
    ∀ k, (xs.foldl (groupStep key) d).get k =
      groupOf ((done ++ xs).filter (fun x => decide (key x = k))) := by
  induction xs with
  | nil => intro d done h k; simpa using h k
  | cons x xs ih =>
    intro d done h k
    have : done ++ x :: xs = (done ++ [x]) ++ xs := by simp
    rw [List.foldl_cons, this]
    apply ih
    intro j
    have hk := h (key x)
    unfold groupStep
    cases hg : d.get (key x) with
    | none =>
      rw [hg] at hk
      have hnil : done.filter (fun y => decide (key y = key x)) = [] := by
        unfold groupOf at hk; split at hk <;> simp_all
      dsimp only
      rw [Dict.get_put]
      by_cases e : key x = j
      · subst e; simp [hnil, groupOf]
      · simp [e, h j]
    | some l =>
      rw [hg] at hk
      have hl : done.filter (fun y => decide (key y = key x)) = l := by
        unfold groupOf at hk; split at hk <;> simp_all
      dsimp only
      rw [Dict.get_put]
      by_cases e : key x = j
      · subst e; simp [hl, groupOf]
      · simp [e, h j]

theorem groupFold_wf (key : T → K) (xs : List T) : ∀ d : Dict K (List T), Dict.Wf d →
    Dict.Wf (xs.foldl (groupStep key) d) := by
  induction xs with
  | nil => intro d h; exact h
  | cons x xs ih =>
    intro d h
    rw [List.foldl_cons]
    apply ih
    unfold groupStep
    split <;> exact Dict.wf_put _ _ _ h

theorem keys_groupStep (key : T → K) (d : Dict K (List T)) (x : T) :
    Dict.keys (groupStep key d x) =
      if key x ∈ Dict.keys d then Dict.keys d else Dict.keys d ++ [key x] := by
  unfold groupStep
  split <;> exact Dict.keys_put _ _ _

theorem distinctLoop_congr (key : T → K) (xs : List T) : ∀ t1 t2 : List K, (∀ k, k ∈ t1 ↔ k ∈ t2) →
    distinctLoop key t1 xs = distinctLoop key t2 xs := by
  induction xs with
  | nil => intros; rfl
  | cons x xs ih =>
    intro t1 t2 h
    unfold distinctLoop
    by_cases hx : key x ∈ t1
    · rw [if_pos hx, if_pos ((h _).1 hx)]; exact ih t1 t2 h
    · rw [if_neg hx, if_neg (fun g => hx ((h _).2 g))]
      rw [ih (key x :: t1) (key x :: t2) (by intro k; simp [h k])]

theorem groupFold_keys (key : T → K) (xs : List T) : ∀ d : Dict K (List T),
    Dict.keys (xs.foldl (groupStep key) d) =
      Dict.keys d ++ (distinctLoop key (Dict.keys d) xs).map key := by
  induction xs with
  | nil => intro d; simp [distinctLoop]
  | cons x xs ih =>
    intro d
    rw [List.foldl_cons, ih, keys_groupStep]
    have e : distinctLoop key (Dict.keys d) (x :: xs) = if key x ∈ Dict.keys d then
      distinctLoop key (Dict.keys d) xs else x :: distinctLoop key (key x :: Dict.keys d) xs := rfl
    rw [e]
    by_cases h : key x ∈ Dict.keys d
    · simp [h]
    · simp only [h, if_false]
      rw [distinctLoop_congr key xs (Dict.keys d ++ [key x]) (key x :: Dict.keys d)
        (by intro k; simp [or_comm])]
      simp

theorem flatten_groups (key : T → K) (ks : List K) (hk : ks.Nodup) (xs : List T)
    (hx : ∀ x, x ∈ xs → key x ∈ ks) :
    ((ks.map (fun k => xs.filter (fun x => decide (key x = k)))).flatten).Perm xs := by
  induction ks generalizing xs with
  | nil =>
    cases xs with
    | nil => exact .refl _
    | cons x xs => exact absurd (hx x (by simp)) (by simp)
  | cons k ks ih =>
    simp only [List.map_cons, List.flatten_cons]
    have hnd := List.nodup_cons.1 hk
    have hrest : (ks.map (fun j => xs.filter (fun x => decide (key x = j)))) =
        ks.map (fun j => (xs.filter (fun x => !decide (key x = k))).filter
          (fun x => decide (key x = j))) := by
      apply List.map_congr_left
      intro j hj
      rw [List.filter_filter]
      apply List.filter_congr
      intro x _
      by_cases e : key x = j
      · have : ¬ j = k := fun h => hnd.1 (h ▸ hj)
        simp [e, this]
      · simp [e]
    rw [hrest]
    have := ih hnd.2 (xs.filter (fun x => !decide (key x = k))) (by
      intro x hxm
      simp at hxm
      have := hx x hxm.1
      simp at this
      rcases this with h | h
      · exact absurd h hxm.2
      · exact h)
    exact (List.Perm.append_left _ this).trans (List.filter_append_perm (fun x => decide (key x = k)) xs)

theorem values_eq_map_get (d : Dict K V) (hd : Dict.Wf d) (f : K → V)
    (h : ∀ k v, d.get k = some v → v = f k) : Dict.values d = (Dict.keys d).map f := by
  unfold Dict.values Dict.keys
  rw [List.map_map]
  apply List.map_congr_left
  intro p hp
  exact h p.1 p.2 (Dict.mem_get d p.1 p.2 hd hp)

theorem partitionLoop_eq (p : T → Bool) (xs : List T) : ∀ acc : List T × List T,
    partitionLoop p xs acc = (acc.1 ++ xs.filter p, acc.2 ++ xs.filter (fun x => !p x)) := by
  induction xs with
  | nil => intro acc; simp [partitionLoop]
  | cons x xs ih =>
    intro acc
    obtain ⟨t, f⟩ := acc
    unfold partitionLoop
    rw [ih]
    cases h : p x <;> simp [h]

theorem distinctLoop_mem (key : T → K) (xs : List T) : ∀ (t : List K) (y : T),
    y ∈ distinctLoop key t xs ↔ ∃ pre post, xs = pre ++ y :: post ∧ key y ∉ t ∧ key y ∉ pre.map key := by
  induction xs with
  | nil => intro t y; simp [distinctLoop]
  | cons x xs ih =>
    intro t y
    unfold distinctLoop
    by_cases h : key x ∈ t
    · rw [if_pos h, ih]
      constructor
      · rintro ⟨pre, post, rfl, h1, h2⟩
        refine ⟨x :: pre, post, rfl, h1, ?_⟩
        simp only [List.map_cons, List.mem_cons]
        rintro (e | e)
        · exact h1 (e ▸ h)
        · exact h2 e
      · rintro ⟨pre, post, e, h1, h2⟩
        cases pre with
        | nil => simp at e; exact absurd h (e.1 ▸ h1)
        | cons p pre =>
          simp at e
          refine ⟨pre, post, e.2, h1, ?_⟩
          intro hh; exact h2 (by simp at hh ⊢; exact Or.inr hh)
    · rw [if_neg h, List.mem_cons, ih]
      constructor
      · rintro (rfl | ⟨pre, post, rfl, h1, h2⟩)
        · exact ⟨[], xs, rfl, h, by simp⟩
        · simp only [List.mem_cons, not_or] at h1
          refine ⟨x :: pre, post, rfl, h1.2, ?_⟩
          simp only [List.map_cons, List.mem_cons, not_or]
          exact ⟨h1.1, h2⟩
      · rintro ⟨pre, post, e, h1, h2⟩
        cases pre with
        | nil => simp at e; exact Or.inl e.1.symm
        | cons p pre =>
          simp only [List.cons_append, List.cons.injEq] at e
          obtain ⟨rfl, rfl⟩ := e
          simp only [List.map_cons, List.mem_cons, not_or] at h2
          exact Or.inr ⟨pre, post, rfl, by simp only [List.mem_cons, not_or]; exact ⟨h2.1, h1⟩, h2.2⟩

theorem distinctLoop_sublist (key : T → K) (xs : List T) : ∀ t : List K,
    (distinctLoop key t xs).Sublist xs := by
  induction xs with
  | nil => intro t; exact .slnil
  | cons x xs ih =>
    intro t
    unfold distinctLoop
    split
    · exact (ih t).cons _
    · exact (ih _).cons_cons _

theorem distinctLoop_nodup (key : T → K) (xs : List T) : ∀ t : List K,
    ((distinctLoop key t xs).map key).Nodup ∧ ∀ k, k ∈ (distinctLoop key t xs).map key → k ∉ t := by
  induction xs with
  | nil => intro t; simp [distinctLoop]
  | cons x xs ih =>
    intro t
    unfold distinctLoop
    by_cases h : key x ∈ t
    · rw [if_pos h]; exact ih t
    · rw [if_neg h]
      have := ih (key x :: t)
      refine ⟨?_, ?_⟩
      · rw [List.map_cons, List.nodup_cons]
        exact ⟨fun hm => this.2 _ hm (by simp), this.1⟩
      · intro k hk
        rw [List.map_cons, List.mem_cons] at hk
        rcases hk with rfl | hk
        · exact h
        · have := this.2 k hk; simp at this; exact this.2

theorem argminLoop_spec (key : Nat → Int) (is : List Nat) : ∀ best,
    (∀ i, i ∈ is → best < i) → is.Pairwise (· < ·) →
    let r := argminLoop key is best
    (r = best ∨ r ∈ is) ∧ (∀ i, i = best ∨ i ∈ is → key r ≤ key i) ∧
      (∀ i, i = best ∨ i ∈ is → key i = key r → r ≤ i) := by
  induction is with
  | nil => intro best _ _; simp [argminLoop]
  | cons i is ih =>
    intro best hb hp
    have hp' := List.pairwise_cons.1 hp
    unfold argminLoop
    by_cases h : key i < key best
    · rw [if_pos h]
      obtain ⟨h1, h2, h3⟩ := ih i hp'.1 hp'.2
      refine ⟨?_, ?_, ?_⟩
      · rcases h1 with h1 | h1
        · exact Or.inr (by simp [h1])
        · exact Or.inr (by simp [h1])
      · rintro j (rfl | hj)
        · have := h2 i (Or.inl rfl); omega
        · simp at hj; rcases hj with rfl | hj
          · exact h2 _ (Or.inl rfl)
          · exact h2 j (Or.inr hj)
      · rintro j (rfl | hj) e
        · have := h2 i (Or.inl rfl); omega
        · simp at hj; rcases hj with rfl | hj
          · exact h3 _ (Or.inl rfl) e
          · exact h3 j (Or.inr hj) e
    · rw [if_neg h]
      obtain ⟨h1, h2, h3⟩ := ih best (fun j hj => hb j (by simp [hj])) hp'.2
      refine ⟨?_, ?_, ?_⟩
      · rcases h1 with h1 | h1
        · exact Or.inl h1
        · exact Or.inr (by simp [h1])
      · rintro j (rfl | hj)
        · exact h2 _ (Or.inl rfl)
        · simp at hj; rcases hj with rfl | hj
          · have := h2 best (Or.inl rfl); omega
          · exact h2 j (Or.inr hj)
      · rintro j (rfl | hj) e
        · exact h3 _ (Or.inl rfl) e
        · simp at hj; rcases hj with rfl | hj
          · have e1 := h2 best (Or.inl rfl)
            have := h3 best (Or.inl rfl) (by omega)
            have := hb j (by simp)
            omega
          · exact h3 j (Or.inr hj) e

end Coll

namespace HashBuilder

theorem xor_comm (a b : Int) : Int.xor a b = Int.xor b a := by
  cases a <;> cases b <;> simp [Int.xor, Nat.xor_comm]

theorem xor_assoc (a b c : Int) : Int.xor (Int.xor a b) c = Int.xor a (Int.xor b c) := by
  cases a <;> cases b <;> cases c <;> simp [Int.xor, Nat.xor_assoc]

theorem fold_xor_perm {T : Type} (h : T → Int) {xs ys : List T} (p : xs.Perm ys) :
    ∀ r, xs.foldl (fun acc x => Int.xor acc (h x)) r = ys.foldl (fun acc x => Int.xor acc (h x)) r := by
  induction p with
  | nil => intro r; rfl
  | cons x _ ih => intro r; simp only [List.foldl_cons]; exact ih _
  | swap x y l =>
    intro r
    simp only [List.foldl_cons]
    rw [xor_assoc, xor_comm (h y), ← xor_assoc]
  | trans _ _ ih1 ih2 => intro r; rw [ih1, ih2]

end HashBuilder
end Pkm
