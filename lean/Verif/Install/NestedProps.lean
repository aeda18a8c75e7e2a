import Verif.Install.Nested
set_option linter.unusedVariables false
set_option linter.unusedSimpArgs false
/-
C98: plans executed inside plans. The pool gets stuck for some schedule exactly if there are as many operations with a plan
of their own as workers.
-/
namespace Pkm
open Nested Spec
namespace Nested

def wT : Nat × Nat → Nat := fun p => if 0 < p.2 then 1 else 0
def wI : Item → Nat
  | .outer _ n => if 0 < n then 1 else 0
  | .inner _ => 0
def wB : Busy → Nat
  | .fresh _ n => if 0 < n then 1 else 0
  | .wait _ _ => 1
  | .inner _ => 0

/-- The nested plans that have not ended. -/
def weight (s : St) : Nat := (s.todo.map wT).sum + (s.queue.map wI).sum + (s.busy.map wB).sum

def rT : Nat × Nat → Nat := fun p => 3 * p.2 + 5
def rI : Item → Nat
  | .outer _ n => 3 * n + 4
  | .inner _ => 2
def rB : Busy → Nat
  | .fresh _ n => 3 * n + 3
  | .wait _ _ => 1
  | .inner _ => 1
def rank (s : St) : Nat := (s.todo.map rT).sum + (s.queue.map rI).sum + (s.busy.map rB).sum

theorem sum_erase (f : Busy → Nat) : ∀ (l : List Busy) (pos : Nat) (b : Busy), l[pos]? = some b → ((l.eraseIdx pos).map f).sum + f b = (l.map f).sum
  | [], pos, b, h => by simp at h
  | x :: l, 0, b, h => by
    simp only [List.getElem?_cons_zero, Option.some.injEq] at h
    subst h
    simp only [List.eraseIdx_cons_zero, List.map_cons, List.sum_cons]
    omega
  | x :: l, pos + 1, b, h => by
    have := sum_erase f l pos b (by simpa using h)
    simp only [List.eraseIdx_cons_succ, List.map_cons, List.sum_cons]
    omega

theorem sum_set (f : Busy → Nat) : ∀ (l : List Busy) (pos : Nat) (b b' : Busy), l[pos]? = some b → ((l.set pos b').map f).sum + f b = (l.map f).sum + f b'
  | [], pos, b, b', h => by simp at h
  | x :: l, 0, b, b', h => by
    simp only [List.getElem?_cons_zero, Option.some.injEq] at h
    subst h
    simp only [List.set_cons_zero, List.map_cons, List.sum_cons]
    omega
  | x :: l, pos + 1, b, b', h => by
    have := sum_set f l pos b b' (by simpa using h)
    simp only [List.set_cons_succ, List.map_cons, List.sum_cons]
    omega

theorem sum_ended (f : Busy → Nat) (hf : ∀ id k k', f (.wait id k) = f (.wait id k')) (id : Nat) (l : List Busy) :
    ((l.map (ended id)).map f).sum = (l.map f).sum := by
  induction l with
  | nil => rfl
  | cons b l ih =>
    simp only [List.map_cons, List.sum_cons, ih]
    congr 1
    unfold ended
    split
    · split
      · exact hf _ _ _
      · rfl
    · rfl

theorem sum_replicate_inner (f : Item → Nat) (id n : Nat) : ((List.replicate n (Item.inner id)).map f).sum = n * f (.inner id) := by
  simp [List.map_replicate, List.sum_replicate_nat]

/-- What a step does to the weight and the rank. -/
theorem step_rank {m : Nat} {s s' : St} {a : Who} (h : step m s a = some s') : rank s' < rank s ∧ weight s' ≤ weight s := by
  unfold step at h
  split at h
  · split at h
    · cases h
    · rename_i id n todo ht
      cases h
      simp only [rank, weight, ht, List.map_append, List.map_cons, List.map_nil, List.sum_append, List.sum_cons, List.sum_nil, rT, rI, wT, wI]
      omega
  · split at h
    · cases h
    · rename_i t queue hq
      split at h
      · cases h
        simp only [rank, weight, hq, List.map_append, List.map_cons, List.map_nil, List.sum_append, List.sum_cons, List.sum_nil]
        cases t <;> simp only [begin_, rI, rB, wI, wB] <;> omega
      · cases h
  · rename_i pos
    split at h
    · cases h
    · rename_i id hb
      cases h
      have h1 := sum_erase rB _ _ _ hb
      have h2 := sum_erase wB _ _ _ hb
      simp only [rank, weight, rB, wB] at *
      omega
    · rename_i id n hb
      cases h
      have h1 := sum_set rB _ _ _ (.wait id (n + 1)) hb
      have h2 := sum_set wB _ _ _ (.wait id (n + 1)) hb
      simp only [rank, weight, List.map_append, List.sum_append, sum_replicate_inner]
      simp only [rB, wB, rI, wI, Nat.zero_lt_succ, if_true] at *
      omega
    · rename_i id hb
      cases h
      have h1 := sum_erase rB _ _ _ hb
      have h2 := sum_erase wB _ _ _ hb
      simp only [rank, weight, rB, wB] at *
      omega
    · cases h
    · rename_i id hb
      cases h
      have h1 := sum_erase rB _ _ _ hb
      have h2 := sum_erase wB _ _ _ hb
      simp only [rank, weight, sum_ended rB (fun _ _ _ => rfl), sum_ended wB (fun _ _ _ => rfl)]
      simp only [rB, wB] at *
      omega

theorem steps_rank {m n : Nat} {s s' : St} (h : PoolSteps m s n s') : n + rank s' ≤ rank s := by
  induction h with
  | refl => omega
  | step a hs _ ih =>
    have := (step_rank hs).1
    omega

/-- Whoever waits, waits for something that is in the queue or being done. -/
def Owed (s : St) : Prop := ∀ id k, Busy.wait id k ∈ s.busy → k ≤ s.queue.count (.inner id) + s.busy.count (.inner id)

theorem count_erase_le {l : List Busy} {pos : Nat} {b x : Busy} (hb : l[pos]? = some b) (hne : b ≠ x) : (l.eraseIdx pos).count x = l.count x := by
  induction l generalizing pos with
  | nil => simp at hb
  | cons y l ih =>
    cases pos with
    | zero =>
      simp only [List.getElem?_cons_zero, Option.some.injEq] at hb
      subst hb
      simp [List.count_cons_of_ne hne]
    | succ pos =>
      simp only [List.eraseIdx_cons_succ, List.count_cons]
      rw [ih (by simpa using hb)]

theorem count_erase_self {l : List Busy} {pos : Nat} {b : Busy} (hb : l[pos]? = some b) : (l.eraseIdx pos).count b + 1 = l.count b := by
  induction l generalizing pos with
  | nil => simp at hb
  | cons y l ih =>
    cases pos with
    | zero =>
      simp only [List.getElem?_cons_zero, Option.some.injEq] at hb
      subst hb
      simp
    | succ pos =>
      simp only [List.eraseIdx_cons_succ, List.count_cons]
      have := ih (by simpa using hb)
      omega

theorem count_set_ne {l : List Busy} {pos : Nat} {b b' x : Busy} (hb : l[pos]? = some b) (h1 : b ≠ x) (h2 : b' ≠ x) : (l.set pos b').count x = l.count x := by
  induction l generalizing pos with
  | nil => simp at hb
  | cons y l ih =>
    cases pos with
    | zero =>
      simp only [List.getElem?_cons_zero, Option.some.injEq] at hb
      subst hb
      simp [List.count_cons_of_ne h1, List.count_cons_of_ne h2]
    | succ pos =>
      simp only [List.set_cons_succ, List.count_cons]
      rw [ih (by simpa using hb)]

theorem count_ended (id id' : Nat) (l : List Busy) : (l.map (ended id)).count (.inner id') = l.count (.inner id') := by
  induction l with
  | nil => rfl
  | cons b l ih =>
    simp only [List.map_cons, List.count_cons, ih]
    congr 1
    unfold ended
    split
    · split <;> simp
    · rfl

theorem step_owed {m : Nat} {s s' : St} {a : Who} (ho : Owed s) (h : step m s a = some s') : Owed s' := by
  unfold step at h
  split at h
  · split at h
    · cases h
    · cases h
      intro id k hk
      have := ho id k hk
      simp only [List.count_append]
      omega
  · split at h
    · cases h
    · rename_i t queue hq
      split at h
      · cases h
        intro id k hk
        have hk : Busy.wait id k ∈ s.busy := by
          rcases List.mem_append.1 hk with h | h
          · exact h
          · cases t <;> simp [begin_] at h
        have := ho id k hk
        rw [hq] at this
        simp only [List.count_append, List.count_cons, List.count_nil] at this ⊢
        cases t with
        | outer => simp [begin_] at this ⊢; omega
        | inner id' =>
          simp only [begin_, beq_iff_eq, Item.inner.injEq, Busy.inner.injEq] at this ⊢
          omega
      · cases h
  · rename_i pos
    split at h
    · cases h
    · rename_i id hb
      cases h
      intro id' k hk
      have := ho id' k (List.mem_of_mem_eraseIdx hk)
      simp only
      rw [count_erase_le hb (by simp)]
      exact this
    · rename_i id n hb
      cases h
      intro id' k hk
      simp only [List.count_append]
      rw [count_set_ne hb (by simp) (by simp)]
      rcases List.mem_or_eq_of_mem_set hk with hk | hk
      · have := ho id' k hk
        omega
      · cases hk
        rw [List.count_replicate_self]
        omega
    · rename_i id hb
      cases h
      intro id' k hk
      have := ho id' k (List.mem_of_mem_eraseIdx hk)
      simp only
      rw [count_erase_le hb (by simp)]
      exact this
    · cases h
    · rename_i id hb
      cases h
      intro id' k hk
      simp only at hk ⊢
      rw [count_ended]
      obtain ⟨b, hbm, hbe⟩ := List.mem_map.1 hk
      have hbm := List.mem_of_mem_eraseIdx hbm
      by_cases hid : id' = id
      · subst hid
        have hc := count_erase_self hb
        unfold ended at hbe
        split at hbe
        · rename_i id2 k2
          split at hbe
          · rename_i he
            cases hbe
            have := ho id' (k + 1) hbm
            omega
          · rename_i he
            cases hbe
            exact absurd rfl he
        · rename_i hnot
          subst hbe
          have := ho id' k hbm
          cases k with
          | zero => omega
          | succ k => exact absurd rfl (hnot _ _)
      · rw [count_erase_le hb (by simp; omega)]
        unfold ended at hbe
        split at hbe
        · split at hbe
          · rename_i he
            cases hbe
            exact absurd he hid
          · cases hbe
            exact ho id' _ hbm
        · subst hbe
          exact ho id' _ hbm

theorem start_weight (sizes : List Nat) (i : Nat) : (((sizes.zipIdx i).map (fun p => (p.2, p.1))).map wT).sum = nesting sizes := by
  induction sizes generalizing i with
  | nil => rfl
  | cons n sizes ih =>
    simp only [List.zipIdx_cons, List.map_cons, List.sum_cons, ih, wT, nesting, List.filter_cons]
    by_cases h : 0 < n
    · simp only [h, decide_true, if_true, List.length_cons]
      omega
    · simp [h]

theorem start_rank (sizes : List Nat) (i : Nat) : (((sizes.zipIdx i).map (fun p => (p.2, p.1))).map rT).sum = 3 * sizes.sum + 5 * sizes.length := by
  induction sizes generalizing i with
  | nil => rfl
  | cons n sizes ih =>
    simp only [List.zipIdx_cons, List.map_cons, List.sum_cons, ih, rT, List.length_cons]
    omega

theorem steps_inv {m n : Nat} {s s' : St} (ho : Owed s) (h : PoolSteps m s n s') : Owed s' ∧ weight s' ≤ weight s := by
  induction h with
  | refl => exact ⟨ho, Nat.le_refl _⟩
  | step a hs _ ih =>
    have := ih (step_owed ho hs)
    have h2 := (step_rank hs).2
    exact ⟨this.1, by omega⟩

theorem sum_ge_of_all (l : List Busy) (h : ∀ b ∈ l, wB b = 1) : (l.map wB).sum = l.length := by
  induction l with
  | nil => rfl
  | cons b l ih =>
    simp only [List.map_cons, List.sum_cons, List.length_cons]
    rw [ih (fun b hb => h b (List.mem_cons_of_mem _ hb)), h b (List.mem_cons_self ..)]
    omega

theorem sum_le_length (l : List Busy) : (l.map wB).sum ≤ l.length := by
  induction l with
  | nil => exact Nat.le_refl _
  | cons b l ih =>
    simp only [List.map_cons, List.sum_cons, List.length_cons]
    have : wB b ≤ 1 := by cases b <;> simp only [wB] <;> first | omega | (split <;> omega)
    omega

theorem stuck_shape {m : Nat} {s : St} (h : ∀ a, step m s a = none) : s.todo = [] ∧ (s.queue = [] ∨ m ≤ s.busy.length) ∧
    ∀ b ∈ s.busy, ∃ id k, b = .wait id (k + 1) := by
  refine ⟨?_, ?_, ?_⟩
  · have := h .submit
    simp only [step] at this
    split at this
    · assumption
    · cases this
  · have := h .take
    simp only [step] at this
    split at this
    · left; assumption
    · split at this
      · cases this
      · right; omega
  · intro b hb
    obtain ⟨pos, hp, he⟩ := List.getElem_of_mem hb
    have := h (.work pos)
    simp only [step, List.getElem?_eq_getElem hp, he] at this
    cases b with
    | fresh id n => cases n <;> cases this
    | inner id => cases this
    | wait id k =>
      cases k with
      | zero => cases this
      | succ k => exact ⟨id, k, rfl⟩

/-- What stays true once everything is submitted, if there are too many nested plans: none of their operations is ever begun. -/
def Full (m : Nat) (s : St) : Prop :=
  s.todo = [] ∧ (∃ (a : List (Nat × Nat)) (b : List Nat), s.queue = a.map (fun p => .outer p.1 p.2) ++ b.map .inner) ∧
  (∀ b ∈ s.busy, (∃ id n, b = .fresh id n) ∨ ∃ id k, b = .wait id (k + 1)) ∧ m ≤ weight s

theorem full_step {m : Nat} (hm : 0 < m) {s s' : St} {a : Who} (hf : Full m s) (h : step m s a = some s') : Full m s' := by
  obtain ⟨h1, ⟨a', b', h2⟩, h3, h4⟩ := hf
  unfold step at h
  split at h
  · rw [h1] at h; cases h
  · split at h
    · cases h
    · rename_i t queue hq
      split at h
      · rename_i hlt
        cases h
        cases a' with
        | nil =>
          exfalso
          have : (s.queue.map wI).sum = 0 := by
            rw [h2]
            simp only [List.map_nil, List.nil_append, List.map_map]
            clear h2
            induction b' with
            | nil => rfl
            | cons b b' ih => simpa [wI] using ih
          have h5 := sum_le_length s.busy
          simp only [weight, h1, List.map_nil, List.sum_nil] at h4
          omega
        | cons p a' =>
          rw [hq] at h2
          simp only [List.map_cons, List.cons_append, List.cons.injEq] at h2
          refine ⟨h1, ⟨a', b', h2.2⟩, ?_, ?_⟩
          · intro b hb
            rcases List.mem_append.1 hb with hb | hb
            · exact h3 b hb
            · rw [List.mem_singleton.1 hb, h2.1]
              exact .inl ⟨_, _, rfl⟩
          · simp only [weight, h1, hq, List.map_append, List.map_cons, List.map_nil, List.sum_append, List.sum_cons, List.sum_nil] at h4 ⊢
            rw [h2.1] at h4 ⊢
            simp only [wI, begin_, wB] at h4 ⊢
            omega
      · cases h
  · rename_i pos
    split at h
    · cases h
    · rename_i id hb
      cases h
      refine ⟨h1, ⟨a', b', h2⟩, fun b hb => h3 b (List.mem_of_mem_eraseIdx hb), ?_⟩
      have := sum_erase wB _ _ _ hb
      simp only [weight, wB] at *
      simp at this
      omega
    · rename_i id n hb
      cases h
      refine ⟨h1, ⟨a', b' ++ List.replicate (n + 1) id, ?_⟩, ?_, ?_⟩
      · simp only [h2, List.map_append, List.map_replicate, List.append_assoc]
      · intro b hb'
        rcases List.mem_or_eq_of_mem_set hb' with hb' | hb'
        · exact h3 b hb'
        · exact .inr ⟨_, _, hb'⟩
      · have := sum_set wB _ _ _ (.wait id (n + 1)) hb
        simp only [weight, List.map_append, List.sum_append, sum_replicate_inner] at *
        simp only [wB, wI, Nat.zero_lt_succ, if_true] at *
        omega
    · rename_i id hb
      rcases h3 _ (List.mem_of_getElem? hb) with ⟨_, _, h⟩ | ⟨_, _, h⟩ <;> cases h
    · cases h
    · rename_i id hb
      rcases h3 _ (List.mem_of_getElem? hb) with ⟨_, _, h⟩ | ⟨_, _, h⟩ <;> cases h

theorem PoolSteps.trans {m n n' : Nat} {s s' s'' : St} (h : PoolSteps m s n s') (h' : PoolSteps m s' n' s'') : ∃ n'', PoolSteps m s n'' s'' := by
  induction h with
  | refl => exact ⟨_, h'⟩
  | step a hs _ ih =>
    obtain ⟨n2, h2⟩ := ih h'
    exact ⟨_, .step a hs h2⟩

/-- Everything is submitted before anything begins. -/
theorem submit_all (m : Nat) : ∀ (todo : List (Nat × Nat)) (queue : List Item) (busy : List Busy), ∃ n, PoolSteps m ⟨todo, queue, busy⟩ n
    ⟨[], queue ++ todo.map (fun p => .outer p.1 p.2), busy⟩
  | [], queue, busy => ⟨0, by simpa using PoolSteps.refl _⟩
  | (id, n) :: todo, queue, busy => by
    obtain ⟨k, h⟩ := submit_all m todo (queue ++ [.outer id n]) busy
    refine ⟨k + 1, .step .submit rfl ?_⟩
    simpa using h

theorem full_ends {m : Nat} (hm : 0 < m) : ∀ (r : Nat) (s : St), rank s ≤ r → Full m s → ∃ n s', PoolSteps m s n s' ∧ Full m s' ∧ ∀ a, step m s' a = none
  | r, s, hr, hf => by
    by_cases hx : ∀ a, step m s a = none
    · exact ⟨0, s, .refl s, hf, hx⟩
    · obtain ⟨a, ha⟩ := Classical.not_forall.1 hx
      cases hs : step m s a with
      | none => exact absurd hs ha
      | some s' =>
        have h1 := (step_rank hs).1
        cases r with
        | zero => omega
        | succ r =>
          obtain ⟨n, s'', h2, h3, h4⟩ := full_ends hm r s' (by omega) (full_step hm hf hs)
          exact ⟨n + 1, s'', .step a hs h2, h3, h4⟩

end Nested

/-- C98: with fewer operations that execute a plan of their own than workers, no schedule gets stuck. -/
theorem nested_progress_partial (m : Nat) (sizes : List Nat) (hm : nesting sizes < m) (n : Nat) (s : St) (h : PoolSteps m (withPlans sizes) n s) :
    ¬ Deadlock m s := by
  rintro ⟨hnd, hst⟩
  have hinv := steps_inv (s := withPlans sizes) (by intro id k hk; cases hk) h
  have hw : weight (withPlans sizes) = nesting sizes := by
    simp only [weight, withPlans, start_weight, List.map_nil, List.sum_nil]
    omega
  obtain ⟨h1, h2, h3⟩ := stuck_shape hst
  have hsum := sum_ge_of_all s.busy (fun b hb => by obtain ⟨id, k, rfl⟩ := h3 b hb; rfl)
  have hle := hinv.2
  rw [hw] at hle
  have hq : s.queue = [] := by
    rcases h2 with h2 | h2
    · exact h2
    · simp only [weight] at hle
      omega
  have hb : s.busy = [] := by
    cases hb : s.busy with
    | nil => rfl
    | cons b l =>
      obtain ⟨id, k, he⟩ := h3 b (by rw [hb]; exact List.mem_cons_self ..)
      have := hinv.1 id (k + 1) (by rw [hb, he]; exact List.mem_cons_self ..)
      rw [hq] at this
      have hc : s.busy.count (.inner id) = 0 := by
        rw [List.count_eq_zero]
        intro hx
        obtain ⟨_, _, hx⟩ := h3 _ hx
        cases hx
      simp only [List.count_nil] at this
      omega
  exact hnd ⟨h1, hq, hb⟩

/-- C98: with as many as workers, or more, some schedule gets stuck for ever. -/
theorem nested_deadlock_violated (m : Nat) (hpos : 0 < m) (sizes : List Nat) (hm : m ≤ nesting sizes) :
    ∃ n s, PoolSteps m (withPlans sizes) n s ∧ Deadlock m s := by
  obtain ⟨n, hn⟩ := submit_all m (withPlans sizes).todo [] []
  have hfull : Full m ⟨[], [] ++ (withPlans sizes).todo.map (fun p => .outer p.1 p.2), []⟩ := by
    refine ⟨rfl, ⟨(withPlans sizes).todo, [], by simp⟩, by simp, ?_⟩
    have h := start_weight sizes 0
    simp only [weight, List.map_nil, List.sum_nil, List.nil_append, List.map_map]
    have h2 : wI ∘ (fun p : Nat × Nat => Item.outer p.1 p.2) = wT := rfl
    rw [h2]
    simp only [withPlans]
    omega
  obtain ⟨n', s, h1, h2, h3⟩ := full_ends hpos _ _ (Nat.le_refl _) hfull
  obtain ⟨n'', h4⟩ := PoolSteps.trans hn h1
  refine ⟨n'', s, h4, ?_, h3⟩
  rintro ⟨h5, h6, h7⟩
  have := h2.2.2.2
  simp only [weight, h5, h6, h7, List.map_nil, List.sum_nil] at this
  omega

/-- C98: once all operations are submitted, and with so many of them nested, no schedule at all comes to the end. -/
theorem nested_never_done_violated (m : Nat) (hpos : 0 < m) (sizes : List Nat) (hm : m ≤ nesting sizes) (n : Nat) (s : St)
    (h : PoolSteps m ⟨[], (withPlans sizes).todo.map (fun p => .outer p.1 p.2), []⟩ n s) : ¬ AllDone s := by
  have hfull : Full m ⟨[], (withPlans sizes).todo.map (fun p => .outer p.1 p.2), []⟩ := by
    refine ⟨rfl, ⟨(withPlans sizes).todo, [], by simp⟩, by simp, ?_⟩
    have h := start_weight sizes 0
    simp only [weight, List.map_nil, List.sum_nil, List.nil_append, List.map_map]
    have h2 : wI ∘ (fun p : Nat × Nat => Item.outer p.1 p.2) = wT := rfl
    rw [h2]
    simp only [withPlans]
    omega
  have hs : ∀ s0 n, Full m s0 → PoolSteps m s0 n s → Full m s := by
    intro s0 n hf hp
    induction hp with
    | refl => exact hf
    | step a hs _ ih => exact ih h (full_step hpos hf hs)
  have hf := hs _ _ hfull h
  rintro ⟨h5, h6, h7⟩
  have := hf.2.2.2
  simp only [weight, h5, h6, h7, List.map_nil, List.sum_nil] at this
  omega

/-- C98: every schedule makes only so many steps; so one that does not get stuck ends with all done. -/
theorem nested_ends (m : Nat) (sizes : List Nat) (n : Nat) (s : St) (h : PoolSteps m (withPlans sizes) n s) : n ≤ 3 * sizes.sum + 5 * sizes.length := by
  have := steps_rank h
  have h2 : rank (withPlans sizes) = 3 * sizes.sum + 5 * sizes.length := by
    simp only [rank, withPlans, start_rank, List.map_nil, List.sum_nil]
    omega
  omega

/-- Two workers, one nested plan with two operations: all is done. -/
example : nesting [0, 2] < 2 ∧ ∃ n s, PoolSteps 2 (withPlans [0, 2]) n s ∧ AllDone s :=
  ⟨by decide, _, _, .step .submit rfl (.step .submit rfl (.step .take rfl (.step .take rfl (.step (.work 1) rfl (.step (.work 0) rfl (.step .take rfl (.step (.work 1) rfl
    (.step .take rfl (.step (.work 1) rfl (.step (.work 0) rfl (.refl _))))))))))), by decide, by decide, by decide⟩

/-- Two workers, two nested plans: stuck. -/
example : 2 ≤ nesting [1, 0, 3] ∧ ∃ n s, PoolSteps 2 (withPlans [1, 0, 3]) n s ∧ s.busy = [.wait 0 1, .wait 2 3] ∧ s.queue.length = 4 :=
  ⟨by decide, _, _, .step .submit rfl (.step .submit rfl (.step .submit rfl (.step .take rfl (.step .take rfl (.step (.work 1) rfl (.step .take rfl (.step (.work 0) rfl
    (.step (.work 1) rfl (.refl _))))))))), rfl, rfl⟩

end Pkm
