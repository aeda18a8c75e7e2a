import Verif.Install.ExecutionLemmas
import Mathlib.Data.List.Perm.Subperm
set_option linter.unusedVariables false
set_option linter.unusedSimpArgs false
/-
C97: executing a plan. Theorems over all plans, all schedules of the caller and the workers, all failures and, since they
hold in every state that is reached, all points at which the program may be killed.
-/
namespace Pkm
open PlanRun Spec

variable {I E : Type}

namespace Spec

/-- A number of steps. -/
inductive PlanSteps (env : Env I E) : State I E → Nat → State I E → Prop
  | refl (s : State I E) : PlanSteps env s 0 s
  | step {s s' s'' : State I E} {n : Nat} (a : Actor) : step env s a = some s' → PlanSteps env s' n s'' → PlanSteps env s (n + 1) s''

/-- The execution has ended, one way or the other. -/
def Ended (s : State I E) : Prop := s.main = .returned ∨ ∃ e, s.main = .raised e

end Spec

namespace PlanRun

def Status.rank (j : Job I E) : Status E → Nat
  | .waiting => 5
  | .queued => 4
  | .running k => opParts j.op - k + 1
  | .finished _ => 0
  | .cancelled => 0

def Main.rank (n : Nat) : Main E → Nat
  | .submit i => (n - i) + 3 * n + 10
  | .await i => (n - i) + 2 * n + 4
  | .cancel _ i left => 2 * (n - i) + left.length + 2
  | .settle _ left => left.length + 1
  | .raised _ => 0
  | .returned => 0

def ranks : List (Job I E) → List (Status E) → Nat
  | j :: js, st :: sts => st.rank j + ranks js sts
  | _, _ => 0

theorem ranks_set : ∀ (js : List (Job I E)) (sts : List (Status E)) (i : Nat) (j : Job I E) (old new : Status E),
    js[i]? = some j → sts[i]? = some old → ranks js (sts.set i new) + old.rank j = ranks js sts + new.rank j
  | [], sts, i, j, old, new, hj, hst => by simp at hj
  | j0 :: js, [], i, j, old, new, hj, hst => by simp at hst
  | j0 :: js, st :: sts, 0, j, old, new, hj, hst => by
    simp only [List.getElem?_cons_zero, Option.some.injEq] at hj hst
    subst hj; subst hst
    simp only [List.set_cons_zero, ranks]
    omega
  | j0 :: js, st :: sts, i + 1, j, old, new, hj, hst => by
    have := ranks_set js sts i j old new (by simpa using hj) (by simpa using hst)
    simp only [List.set_cons_succ, ranks]
    omega

def rank (env : Env I E) (s : State I E) : Nat := s.main.rank env.jobs.length + ranks env.jobs s.status

theorem rank_worker {env : Env I E} {s s' : State I E} {i : Nat} (hs : stepWorker env s i = some s') : rank env s' < rank env s := by
  unfold stepWorker at hs
  split at hs
  · rename_i j hj hst
    simp only at hs
    split at hs
    · cases hs
      have := ranks_set env.jobs s.status i j _ (.running 0) hj hst
      have h2 : opParts j.op ≤ 2 := by cases j.op <;> simp [opParts]
      simp only [rank, Status.rank] at this ⊢
      omega
    · cases hs
  · rename_i j k hj hst
    split at hs
    · cases hs
      have := ranks_set env.jobs s.status i j _ (.finished none) hj hst
      simp only [rank, Status.rank] at this ⊢
      omega
    · rename_i f hf
      have hk : k < opParts j.op := by
        have := (List.getElem?_eq_some_iff.1 hf).1
        rwa [phases_length] at this
      split at hs
      · rename_i e he
        cases hs
        have := ranks_set env.jobs s.status i j _ (.finished (some e)) hj hst
        simp only [rank, Status.rank] at this ⊢
        omega
      · cases hs
        have := ranks_set env.jobs s.status i j _ (.running (k + 1)) hj hst
        simp only [rank, Status.rank] at this ⊢
        omega
  · cases hs

theorem rank_main {env : Env I E} {before : Text → Option I} {s s' : State I E} (h : Inv env before s) (hs : stepMain env s = some s') :
    rank env s' < rank env s := by
  have hm := h.main
  have hlen := h.len
  unfold stepMain at hs
  split at hs
  · rename_i i hmain
    rw [hmain] at hm
    split at hs
    · rename_i hn
      have := List.getElem?_eq_none_iff.1 hn
      cases hs
      simp only [rank, hmain, Main.rank]
      omega
    · rename_i j hj
      have hi : i < env.jobs.length := (List.getElem?_eq_some_iff.1 hj).1
      have hw := hm.2.1 i (Nat.le_refl _) hi
      split at hs
      · cases hs
        have := ranks_set env.jobs s.status i j _ (.finished (runAll j 0 (phases j.op) s.site s.view).2.2) hj hw
        simp only [rank, hmain, Main.rank, Status.rank] at this ⊢
        omega
      · cases hs
        have := ranks_set env.jobs s.status i j _ .queued hj hw
        simp only [rank, hmain, Main.rank, Status.rank] at this ⊢
        omega
  · rename_i i hmain
    split at hs
    · cases hs
      simp only [rank, hmain, Main.rank]
      omega
    · rename_i hst
      have := (List.getElem?_eq_some_iff.1 hst).1
      cases hs
      simp only [rank, hmain, Main.rank]
      omega
    · cases hs
      simp only [rank, hmain]
      split <;> simp only [Main.rank, List.length_nil] <;> omega
    · cases hs
  · rename_i e i left hmain
    split at hs
    · rename_i j st hj hst
      have hi : i < env.jobs.length := (List.getElem?_eq_some_iff.1 hj).1
      split at hs
      · cases hs
        simp only [rank, hmain, Main.rank]
        omega
      · cases hs
        simp only [rank, hmain, Main.rank, List.length_append, List.length_singleton]
        omega
      · split at hs
        · cases hs
          have := ranks_set env.jobs s.status i j _ .cancelled hj hst
          simp only [rank, hmain, Main.rank, Status.rank] at this ⊢
          omega
        · cases hs
          simp only [rank, hmain, Main.rank]
          omega
        · cases hs
          simp only [rank, hmain, Main.rank, List.length_append, List.length_singleton]
          omega
    · cases hs
      simp only [rank, hmain, Main.rank]
      omega
  · rename_i e left hmain
    split at hs
    · cases hs
      simp only [rank, hmain, Main.rank]
      omega
    · split at hs
      · cases hs
        simp only [rank, hmain, Main.rank, List.length_cons]
        omega
      · cases hs
  · cases hs
  · cases hs

theorem ranks_init (js : List (Job I E)) : ranks js (js.map (fun _ => .waiting)) = 5 * js.length := by
  induction js with
  | nil => rfl
  | cons j js ih =>
    simp only [List.map_cons, ranks, Status.rank, ih, List.length_cons]
    omega

theorem steps_bound {env : Env I E} {before : Text → Option I} (ha : PlanApart env) {s s' : State I E} {n : Nat} (hr : PlanReached env before s)
    (h : PlanSteps env s n s') : n + rank env s' ≤ rank env s := by
  induction h with
  | refl s => omega
  | @step s s' s'' n a hs _ ih =>
    have h2 := ih (.step a hr hs)
    have h3 : rank env s' < rank env s := by
      cases a with
      | main => exact rank_main (Inv.reached ha hr) hs
      | worker i => exact rank_worker hs
    omega

/-- If something of a pool waits, the pool has work to do. -/
theorem pool_moves (env : Env I E) (s : State I E) (hlen : s.status.length = env.jobs.length) (p : Place) (hp : 0 < limit env p) (i : Nat) (j : Job I E)
    (hj : env.jobs[i]? = some j) (hpl : place env.mode env.jobs j = p) (hst : s.status[i]? = some .queued) :
    ∃ i' s', stepWorker env s i' = some s' := by
  by_cases hrun : ∃ (i' : Nat) (k : Nat), i' < env.jobs.length ∧ s.status[i']? = some (.running k)
  · obtain ⟨i', k, hi', hk⟩ := hrun
    refine ⟨i', ?_⟩
    unfold stepWorker
    rw [List.getElem?_eq_getElem hi', hk]
    simp only
    split
    · exact ⟨_, rfl⟩
    · split
      · exact ⟨_, rfl⟩
      · exact ⟨_, rfl⟩
  · have hbusy : busy env p s.status = 0 := by
      unfold busy
      rw [List.length_eq_zero_iff, List.filter_eq_nil_iff]
      intro i' hi'
      have hi' : i' < env.jobs.length := by simpa using hi'
      split
      · rename_i k _ hk
        exact absurd ⟨i', _, hi', hk⟩ hrun
      · simp
    -- the first one that waits
    have hex : ∃ n : Nat, (∃ j, env.jobs[n]? = some j ∧ place env.mode env.jobs j = p ∧ s.status[n]? = some .queued) ∧ ∀ m < n,
        ¬ ∃ j, env.jobs[m]? = some j ∧ place env.mode env.jobs j = p ∧ s.status[m]? = some .queued := by
      have hsome : ∃ n : Nat, ∃ j, env.jobs[n]? = some j ∧ place env.mode env.jobs j = p ∧ s.status[n]? = some .queued := ⟨i, j, hj, hpl, hst⟩
      clear hj hpl hst
      obtain ⟨n, hn⟩ := hsome
      induction n using Nat.strongRecOn with
      | ind n ih =>
        by_cases h : ∃ m < n, ∃ j, env.jobs[m]? = some j ∧ place env.mode env.jobs j = p ∧ s.status[m]? = some .queued
        · obtain ⟨m, hm, h⟩ := h
          exact ih m hm h
        · exact ⟨n, hn, fun m hm hx => h ⟨m, hm, hx⟩⟩
    obtain ⟨n, ⟨j', hj', hpl', hst'⟩, hfirst⟩ := hex
    refine ⟨n, ?_⟩
    unfold stepWorker
    rw [hj', hst']
    simp only [hpl', hbusy]
    have hf : first env p n s.status = true := by
      unfold first
      rw [List.all_eq_true]
      intro m hm
      have hm : m < n := by simpa using hm
      split
      · rename_i j'' h1 h2
        simp only [decide_eq_true_eq, ne_eq]
        exact fun h => hfirst m hm ⟨j'', h1, h, h2⟩
      · rfl
    rw [if_pos ⟨hf, hp⟩]
    exact ⟨_, rfl⟩

theorem limit_pos {env : Env I E} {before : Text → Option I} {s : State I E} (h : Inv env before s) (ht : 0 < env.threads) (hp : 0 < env.procs)
    {i : Nat} {j : Job I E} (hj : env.jobs[i]? = some j) (hst : s.status[i]? = some .queued) : 0 < limit env (place env.mode env.jobs j) := by
  cases hc : place env.mode env.jobs j with
  | caller => rcases h.caller i j hj hc with h | ⟨r, h⟩ <;> rw [hst] at h <;> cases h
  | thread => exact ht
  | process => exact hp

theorem running_moves {env : Env I E} {s : State I E} (hlen : s.status.length = env.jobs.length) {i k : Nat} (hk : s.status[i]? = some (.running k)) :
    ∃ s', stepWorker env s i = some s' := by
  have hi := (List.getElem?_eq_some_iff.1 hk).1
  unfold stepWorker
  rw [List.getElem?_eq_getElem (by omega : i < env.jobs.length), hk]
  simp only
  split
  · exact ⟨_, rfl⟩
  · split
    · exact ⟨_, rfl⟩
    · exact ⟨_, rfl⟩

end PlanRun

/-- C97: an execution that returns has done every operation, and nothing else. -/
theorem plan_run_returns (env : Env I E) (before : Text → Option I) (ha : PlanApart env) (s : State I E) (hr : PlanReached env before s)
    (hm : s.main = .returned) :
    (∀ j ∈ env.jobs, OpSucceeds j ∧ s.site j.key = opAfter j.op (before j.key)) ∧ (∀ k, (∀ j ∈ env.jobs, j.key ≠ k) → s.site k = before k) := by
  have h := Inv.reached ha hr
  have hmain := h.main
  rw [hm] at hmain
  refine ⟨?_, fun k hk => h.others k (fun hx => ?_)⟩
  · intro j hj
    obtain ⟨i, hi, hij⟩ := List.getElem_of_mem hj
    have hji : env.jobs[i]? = some j := by rw [List.getElem?_eq_getElem hi, hij]
    have := h.jobs i j _ hji (hmain i hi)
    exact ⟨this.2, this.1⟩
  · obtain ⟨j, hj, he⟩ := List.mem_map.1 hx
    exact hk j hj he

/-- C97: at every moment, so also if the program is killed, every package is as before or as its operation makes it; only a
package that is being replaced may be missing. -/
theorem plan_run_states (env : Env I E) (before : Text → Option I) (ha : PlanApart env) (s : State I E) (hr : PlanReached env before s) :
    (∀ j ∈ env.jobs, s.site j.key = before j.key ∨ s.site j.key = opAfter j.op (before j.key) ∨
      ((∃ new, j.op = .replace new) ∧ s.site j.key = none)) ∧ (∀ k, (∀ j ∈ env.jobs, j.key ≠ k) → s.site k = before k) := by
  have h := Inv.reached ha hr
  refine ⟨?_, fun k hk => h.others k (fun hx => ?_)⟩
  · intro j hj
    obtain ⟨i, hi, hij⟩ := List.getElem_of_mem hj
    have hji : env.jobs[i]? = some j := by rw [List.getElem?_eq_getElem hi, hij]
    have hsi : i < s.status.length := by rw [h.len]; exact hi
    have hk := h.jobs i j _ hji (List.getElem?_eq_getElem hsi)
    have hpart : ∀ k, k ≤ opParts j.op → s.site j.key = partly j.op k (before j.key) → s.site j.key = before j.key ∨
        s.site j.key = opAfter j.op (before j.key) ∨ ((∃ new, j.op = .replace new) ∧ s.site j.key = none) := by
      intro k hk he
      rcases Nat.eq_or_lt_of_le hk with h1 | h1
      · exact .inr (.inl (by rw [he, h1, partly_all]))
      · cases ho : j.op with
        | replace new =>
          rw [ho] at h1 he
          simp only [opParts] at h1
          match k, h1 with
          | 0, _ => exact .inl he
          | 1, _ => exact .inr (.inr ⟨⟨new, rfl⟩, he⟩)
        | _ =>
          rw [ho] at h1 he
          simp only [opParts] at h1
          match k, h1 with
          | 0, _ => exact .inl he
    generalize s.status[i] = st at hk
    cases st with
    | waiting => exact .inl hk
    | queued => exact .inl hk
    | cancelled => exact .inl hk
    | running k => exact hpart k hk.1 hk.2.1
    | finished r =>
      cases r with
      | none => exact .inr (.inl hk.1)
      | some e =>
        obtain ⟨k, h1, _, _, h2⟩ := hk
        exact hpart k (by omega) h2
  · obtain ⟨j, hj, he⟩ := List.mem_map.1 hx
    exact hk j hj he

/-- C97: an operation that fails leaves its package as it was, unless it is a replacement. -/
theorem plan_run_failed_partial (env : Env I E) (before : Text → Option I) (ha : PlanApart env) (s : State I E) (hr : PlanReached env before s)
    (j : Job I E) (hj : j ∈ env.jobs) (e : E) (hf : OpFails j e) (hop : ∀ new, j.op ≠ .replace new) : s.site j.key = before j.key := by
  have h := Inv.reached ha hr
  obtain ⟨i, hi, hij⟩ := List.getElem_of_mem hj
  have hji : env.jobs[i]? = some j := by rw [List.getElem?_eq_getElem hi, hij]
  have hsi : i < s.status.length := by rw [h.len]; exact hi
  have hk := h.jobs i j _ hji (List.getElem?_eq_getElem hsi)
  have h1 : opParts j.op = 1 := by
    cases ho : j.op with
    | replace new => exact absurd ho (hop new)
    | _ => rfl
  obtain ⟨k, hk1, hk2, _⟩ := hf
  have hk0 : k = 0 := by omega
  subst hk0
  generalize s.status[i] = st at hk
  cases st with
  | waiting => exact hk
  | queued => exact hk
  | cancelled => exact hk
  | running k =>
    obtain ⟨_, h2, h3⟩ := hk
    cases k with
    | zero => rw [h2, partly_zero]
    | succ k => rw [h3 0 (Nat.succ_pos _)] at hk2; cases hk2
  | finished r =>
    cases r with
    | none =>
      have := hk.2 0 (by omega)
      rw [this] at hk2; cases hk2
    | some e' =>
      obtain ⟨k', h2, h3, h4, h5⟩ := hk
      have : k' = 0 := by omega
      rw [h5, this, partly_zero]

/-- C97: the exception that `execute` raises is that of the first operation of the plan that fails: those before it have
succeeded. -/
theorem plan_run_raises (env : Env I E) (before : Text → Option I) (ha : PlanApart env) (s : State I E) (hr : PlanReached env before s) (e : E)
    (hm : s.main = .raised e) :
    ∃ (pre post : List (Job I E)) (j : Job I E), env.jobs = pre ++ j :: post ∧ OpFails j e ∧
      ∀ j' ∈ pre, OpSucceeds j' ∧ s.site j'.key = opAfter j'.op (before j'.key) := by
  have h := Inv.reached ha hr
  have hmain := h.main
  rw [hm] at hmain
  obtain ⟨⟨f, hf, hpre⟩, _, _⟩ := hmain
  have hlt : f < env.jobs.length := by rw [← h.len]; exact (List.getElem?_eq_some_iff.1 hf).1
  refine ⟨env.jobs.take f, env.jobs.drop (f + 1), env.jobs[f], ?_, ?_, ?_⟩
  · rw [List.getElem_cons_drop hlt, List.take_append_drop]
  · obtain ⟨k, h1, h2, h3, _⟩ := h.jobs f _ _ (List.getElem?_eq_getElem hlt) hf
    exact ⟨k, h1, h2, h3⟩
  · intro j' hj'
    obtain ⟨i, hi, hij⟩ := List.getElem_of_mem hj'
    have hi2 : i < f := by simp at hi; omega
    have hji : env.jobs[i]? = some j' := by
      rw [List.getElem?_eq_getElem (by omega), ← hij]
      simp
    have := h.jobs i j' _ hji (hpre i hi2)
    exact ⟨this.2, this.1⟩

/-- C97: in a mode without processes, when `execute` raises an `Exception`, nothing goes on behind it: every operation has
ended or will never begin. -/
theorem plan_run_quiet_partial (env : Env I E) (before : Text → Option I) (ha : PlanApart env) (hmode : env.mode ≠ .proc) (s : State I E)
    (hr : PlanReached env before s) (e : E) (he : env.isExc e = true) (hm : s.main = .raised e) :
    (∀ a, step env s a = none) ∧
      ∀ j ∈ env.jobs, s.site j.key = before j.key ∨ (∃ e', OpFails j e') ∨ s.site j.key = opAfter j.op (before j.key) := by
  have h := Inv.reached ha hr
  have hmain := h.main
  rw [hm] at hmain
  obtain ⟨_, hw, hq⟩ := hmain
  have hplace : ∀ j : Job I E, place env.mode env.jobs j ≠ .process := by
    intro j
    unfold place
    cases hmo : env.mode with
    | proc => exact absurd hmo hmode
    | _ => simp
  refine ⟨?_, ?_⟩
  · intro a
    cases a with
    | main => simp [step, stepMain, hm]
    | worker i =>
      simp only [step, stepWorker]
      cases hj : env.jobs[i]? with
      | none => rfl
      | some j =>
        rcases hq he i j hj (hplace j) with h1 | ⟨r, h1⟩ <;> rw [h1]
  · intro j hj
    obtain ⟨i, hi, hij⟩ := List.getElem_of_mem hj
    have hji : env.jobs[i]? = some j := by rw [List.getElem?_eq_getElem hi, hij]
    rcases hq he i j hji (hplace j) with h1 | ⟨r, h1⟩
    · exact .inl (h.jobs i j _ hji h1)
    · cases r with
      | none => exact .inr (.inr (h.jobs i j _ hji h1).1)
      | some e' =>
        obtain ⟨k, h2, h3, h4, _⟩ := h.jobs i j _ hji h1
        exact .inr (.inl ⟨e', k, h2, h3, h4⟩)

/-- C97: an execution never gets stuck: until it has ended, somebody can go on. -/
theorem plan_run_progress (env : Env I E) (before : Text → Option I) (ha : PlanApart env) (ht : 0 < env.threads) (hp : 0 < env.procs)
    (s : State I E) (hr : PlanReached env before s) (hn : ¬ Ended s) : ∃ a s', step env s a = some s' := by
  have h := Inv.reached ha hr
  have hmain := h.main
  have hlen := h.len
  have hworker : ∀ i : Nat, (∃ k, s.status[i]? = some (.running k)) ∨ s.status[i]? = some .queued → ∃ a s', step env s a = some s' := by
    rintro i (⟨k, hk⟩ | hq)
    · obtain ⟨s', hs⟩ := running_moves hlen hk
      exact ⟨.worker i, s', hs⟩
    · have hi := (List.getElem?_eq_some_iff.1 hq).1
      have hj := List.getElem?_eq_getElem (by omega : i < env.jobs.length)
      obtain ⟨i', s', hs⟩ := pool_moves env s hlen _ (limit_pos h ht hp hj hq) i _ hj rfl hq
      exact ⟨.worker i', s', hs⟩
  cases hm : s.main with
  | submit i =>
    refine ⟨.main, ?_⟩
    simp only [step, stepMain, hm]
    split
    · exact ⟨_, rfl⟩
    · split <;> exact ⟨_, rfl⟩
  | await i =>
    rw [hm] at hmain
    cases hst : s.status[i]? with
    | none => exact ⟨.main, _, by simp only [step, stepMain, hm, hst]; rfl⟩
    | some st =>
      cases st with
      | waiting => exact absurd hst (hmain.2 i).1
      | cancelled => exact absurd hst (hmain.2 i).2
      | queued => exact hworker i (.inr hst)
      | running k => exact hworker i (.inl ⟨k, hst⟩)
      | finished r => cases r <;> exact ⟨.main, _, by simp only [step, stepMain, hm, hst]; rfl⟩
  | cancel e i left =>
    refine ⟨.main, ?_⟩
    simp only [step, stepMain, hm]
    split
    · split
      · exact ⟨_, rfl⟩
      · exact ⟨_, rfl⟩
      · split <;> exact ⟨_, rfl⟩
    · exact ⟨_, rfl⟩
  | settle e left =>
    rw [hm] at hmain
    cases left with
    | nil => exact ⟨.main, _, by simp only [step, stepMain, hm]; rfl⟩
    | cons i left =>
      obtain ⟨_, _, h3, h4, _⟩ := hmain
      obtain ⟨h5, h6, h7⟩ := h4 i (List.mem_cons_self ..)
      have hst := List.getElem?_eq_getElem (by omega : i < s.status.length)
      cases hx : s.status[i] with
      | waiting => rw [hx] at hst; exact absurd hst (h3 i)
      | cancelled => rw [hx] at hst; exact absurd hst h5
      | queued => rw [hx] at hst; exact absurd hst h6
      | running k => rw [hx] at hst; exact hworker i (.inl ⟨k, hst⟩)
      | finished r => rw [hx] at hst; exact ⟨.main, _, by simp only [step, stepMain, hm, hst]; rfl⟩
  | raised e => exact absurd (.inr ⟨e, hm⟩) hn
  | returned => exact absurd (.inl hm) hn

/-- C97: and it ends, after a number of steps that is bounded by the size of the plan. -/
theorem plan_run_ends (env : Env I E) (before : Text → Option I) (ha : PlanApart env) (n : Nat) (s : State I E)
    (h : PlanSteps env (init env before) n s) : n ≤ 9 * env.jobs.length + 10 := by
  have := steps_bound ha (.start (before := before)) h
  have h2 : rank env (init env before) = 9 * env.jobs.length + 10 := by
    simp only [rank, init, Main.rank, ranks_init]
    omega
  omega

/-- C97: after an execution that returns, the site is read anew. -/
theorem plan_run_view (env : Env I E) (before : Text → Option I) (s : State I E) (hr : PlanReached env before s)
    (hm : s.main = .returned) : s.view = none := by
  suffices ∀ s, PlanReached env before s → s.main = .returned → s.view = none from this s hr hm
  intro s hr
  induction hr with
  | start => intro h; cases h
  | @step s s' a hr hs ih =>
    intro hm
    cases a with
    | main =>
      simp only [step, stepMain] at hs
      split at hs
      · split at hs
        · cases hs; cases hm
        · split at hs <;> cases hs <;> cases hm
      · split at hs
        · cases hs; rfl
        · cases hs; cases hm
        · cases hs
          revert hm
          simp only
          split <;> intro hm <;> cases hm
        · cases hs
      · split at hs
        · split at hs
          · cases hs; cases hm
          · cases hs; cases hm
          · split at hs <;> cases hs <;> cases hm
        · cases hs; cases hm
      · split at hs
        · cases hs; cases hm
        · split at hs
          · cases hs; cases hm
          · cases hs
      · cases hs
      · cases hs
    | worker i =>
      simp only [step, stepWorker] at hs
      split at hs
      · split at hs
        · cases hs; exact ih hm
        · cases hs
      · split at hs
        · cases hs; exact ih hm
        · split at hs
          · cases hs; exact ih hm
          · cases hs
            have := ih hm
            simp only [viewAfter, this]
            split <;> rfl
      · cases hs

namespace PlanRun

theorem filter_grow (p q : Nat → Bool) (i : Nat) (h : ∀ x, x ≠ i → q x = true → p x = true) : ∀ n, ((List.range n).filter q).length ≤
    ((List.range n).filter p).length + 1 ∧ (n ≤ i → ((List.range n).filter q).length ≤ ((List.range n).filter p).length)
  | 0 => by simp
  | n + 1 => by
    obtain ⟨h1, h2⟩ := filter_grow p q i h n
    simp only [List.range_succ, List.filter_append, List.length_append, List.filter_cons, List.filter_nil]
    by_cases hn : n = i
    · have h2 := h2 (by omega)
      refine ⟨?_, by omega⟩
      split <;> split <;> simp <;> omega
    · have hx := h n hn
      have : (if q n = true then [n] else []).length ≤ (if p n = true then [n] else []).length := by
        split
        · rw [if_pos (hx (by assumption))]; simp
        · simp
      exact ⟨by omega, fun hle => by have := h2 (by omega); omega⟩

theorem filter_mono (p q : Nat → Bool) (h : ∀ x, q x = true → p x = true) (l : List Nat) : (l.filter q).length ≤ (l.filter p).length := by
  induction l with
  | nil => simp
  | cons x l ih =>
    simp only [List.filter_cons]
    split
    · rw [if_pos (h x (by assumption))]
      simp; omega
    · split
      · simp; omega
      · exact ih

/-- Whether operation `i` runs in a pool. -/
def runsAt (env : Env I E) (p : Place) (status : List (Status E)) (i : Nat) : Bool :=
  match env.jobs[i]?, status[i]? with
  | some j, some (.running _) => place env.mode env.jobs j = p
  | _, _ => false

theorem busy_eq (env : Env I E) (p : Place) (status : List (Status E)) : busy env p status = ((List.range env.jobs.length).filter (runsAt env p status)).length := rfl

theorem runsAt_set (env : Env I E) (p : Place) (status : List (Status E)) (i : Nat) (st : Status E) (x : Nat) (hx : x ≠ i) :
    runsAt env p (status.set i st) x = runsAt env p status x := by
  unfold runsAt
  rw [List.getElem?_set_ne (Ne.symm hx)]

theorem runsAt_true {env : Env I E} {p : Place} {status : List (Status E)} {i : Nat} : runsAt env p status i = true ↔
    ∃ j k, env.jobs[i]? = some j ∧ status[i]? = some (.running k) ∧ place env.mode env.jobs j = p := by
  unfold runsAt
  constructor
  · intro h
    split at h
    · rename_i j k h1 h2
      exact ⟨j, k, h1, h2, by simpa using h⟩
    · cases h
  · rintro ⟨j, k, h1, h2, h3⟩
    rw [h1, h2]
    simpa using h3

theorem busy_keep {env : Env I E} {p : Place} {status : List (Status E)} {i : Nat} {st : Status E}
    (h : ∀ k, st = .running k → ∃ k', status[i]? = some (.running k')) : busy env p (status.set i st) ≤ busy env p status := by
  rw [busy_eq, busy_eq]
  apply filter_mono
  intro x hx
  by_cases hxi : x = i
  · subst hxi
    obtain ⟨j, k, h1, h2, h3⟩ := runsAt_true.1 hx
    have hlt : x < status.length := by
      have := (List.getElem?_eq_some_iff.1 h2).1
      simpa using this
    rw [List.getElem?_set_self hlt] at h2
    obtain ⟨k', hk'⟩ := h k (Option.some.inj h2)
    exact runsAt_true.2 ⟨j, k', h1, hk', h3⟩
  · rwa [runsAt_set _ _ _ _ _ _ hxi] at hx

theorem busy_limit {env : Env I E} {before : Text → Option I} {s : State I E} (hr : PlanReached env before s) (p : Place) : busy env p s.status ≤ limit env p := by
  induction hr with
  | start =>
    rw [busy_eq]
    have : (List.range env.jobs.length).filter (runsAt env p (init env before).status) = [] := by
      rw [List.filter_eq_nil_iff]
      intro x _ hx
      obtain ⟨j, k, _, h2, _⟩ := runsAt_true.1 hx
      simp [init, List.getElem?_replicate] at h2
    rw [this]; exact Nat.zero_le _
  | @step s s' a hr hs ih =>
    cases a with
    | main =>
      simp only [step, stepMain] at hs
      split at hs
      · split at hs
        · cases hs; exact ih
        · split at hs
          · cases hs
            exact Nat.le_trans (busy_keep (by intro k hk; cases hk)) ih
          · cases hs
            exact Nat.le_trans (busy_keep (by intro k hk; cases hk)) ih
      · split at hs
        · cases hs; exact ih
        · cases hs; exact ih
        · cases hs; exact ih
        · cases hs
      · split at hs
        · split at hs
          · cases hs; exact ih
          · cases hs; exact ih
          · split at hs
            · cases hs
              exact Nat.le_trans (busy_keep (by intro k hk; cases hk)) ih
            · cases hs; exact ih
            · cases hs; exact ih
        · cases hs; exact ih
      · split at hs
        · cases hs; exact ih
        · split at hs
          · cases hs; exact ih
          · cases hs
      · cases hs
      · cases hs
    | worker i =>
      simp only [step, stepWorker] at hs
      split at hs
      · rename_i j hj hst
        split at hs
        · rename_i hc
          cases hs
          by_cases hp : place env.mode env.jobs j = p
          · have := (filter_grow (runsAt env p s.status) (runsAt env p (s.status.set i (.running 0))) i
              (fun x hx h => by rwa [runsAt_set _ _ _ _ _ _ hx] at h) env.jobs.length).1
            rw [← busy_eq, ← busy_eq] at this
            have h2 := hc.2
            rw [hp] at h2
            exact Nat.le_trans this h2
          · refine Nat.le_trans ?_ ih
            rw [busy_eq, busy_eq]
            apply filter_mono
            intro x hx
            by_cases hxi : x = i
            · subst hxi
              obtain ⟨j', k, h1, _, h3⟩ := runsAt_true.1 hx
              rw [hj] at h1
              cases h1
              exact absurd h3 hp
            · rwa [runsAt_set _ _ _ _ _ _ hxi] at hx
        · cases hs
      · rename_i j k hj hst
        split at hs
        · cases hs
          exact Nat.le_trans (busy_keep (by intro k hk; cases hk)) ih
        · split at hs
          · cases hs
            exact Nat.le_trans (busy_keep (by intro k hk; cases hk)) ih
          · cases hs
            exact Nat.le_trans (busy_keep (by intro _ _; exact ⟨_, hst⟩)) ih
      · cases hs

end PlanRun

/-- C97: no pool ever works on more operations than it has workers. -/
theorem plan_run_limit (env : Env I E) (before : Text → Option I) (s : State I E) (hr : PlanReached env before s) (p : Place) (is : List Nat) (hd : is.Nodup)
    (h : ∀ i ∈ is, ∃ j k, env.jobs[i]? = some j ∧ place env.mode env.jobs j = p ∧ s.status[i]? = some (.running k)) : is.length ≤ limit env p := by
  refine Nat.le_trans ?_ (busy_limit hr p)
  rw [busy_eq]
  apply List.Subperm.length_le
  apply List.subperm_of_subset hd
  intro i hi
  obtain ⟨j, k, h1, h2, h3⟩ := h i hi
  rw [List.mem_filter, List.mem_range]
  exact ⟨(List.getElem?_eq_some_iff.1 h1).1, runsAt_true.2 ⟨j, k, h1, h3, h2⟩⟩

namespace PlanRun

/-- The first operation of a plan of the tests raises, in its phase `k`. -/
def boomAt (k : Nat) : Nat → Option Nat := fun i => if i = k then some 7 else none

/-- A plan of three operations: `a` is replaced, which raises in phase `k`, `b` is installed, `c` removed. -/
def trial (mode : Mode) (k : Nat) (isExc : Bool) : Env Nat Nat :=
  ⟨mode, [⟨['a'], .replace 2, true, boomAt k⟩, ⟨['b'], .install 1, true, fun _ => none⟩, ⟨['c'], .remove, false, fun _ => none⟩], 2, 2, fun _ => isExc⟩

def trialSite : Text → Option Nat := fun k => if k = ['a'] then some 1 else if k = ['c'] then some 1 else if k = ['d'] then some 5 else none

/-- What is left of a run: the packages, what is known of `a`, and the caller. -/
def seen (s : State Nat Nat) : List (Option Nat) × Option (Option Nat) × Main Nat :=
  ([s.site ['a'], s.site ['b'], s.site ['c'], s.site ['d']], s.view.map (· ['a']), s.main)

theorem run_reached (env : Env I E) (before : Text → Option I) (as : List Actor) (s : State I E) (h : PlanReached env before s) :
    PlanReached env before (run env as s) := by
  induction as generalizing s with
  | nil => exact h
  | cons a as ih =>
    simp only [run]
    cases hs : step env s a with
    | none => exact ih s h
    | some s' => exact ih s' (.step a h hs)

theorem trial_apart (mode : Mode) (k : Nat) (b : Bool) : PlanApart (trial mode k b) := by
  simp [PlanApart, trial]

end PlanRun
open PlanRun

/-! ### The hypotheses are met -/

/-- All goes well, in the threads: the workers take the operations in any order. -/
example : ∃ s : State Nat Nat, PlanReached (trial .thread 9 true) trialSite s ∧ seen s = ([some 2, some 1, none, some 5], none, .returned) :=
  ⟨_, run_reached _ _ [.main, .main, .main, .main, .worker 0, .worker 1, .worker 1, .worker 1, .worker 2, .worker 2, .worker 0, .worker 0, .worker 2, .worker 0, .main, .main, .main, .main] _ .start, by decide +kernel⟩

/-- The first raises: an `Exception`, one operation is cancelled and one is waited for. -/
example : ∃ s : State Nat Nat, PlanReached (trial .thread 0 true) trialSite s ∧ seen s = ([some 1, some 1, some 1, some 5], some (some 1), .raised 7) ∧
    s.status = [.finished (some 7), .finished none, .cancelled] :=
  ⟨_, run_reached _ _ [.main, .main, .main, .main, .worker 0, .worker 1, .worker 0, .main, .main, .main, .main, .main, .main, .main, .worker 1, .worker 1, .main, .main] _ .start,
    by decide +kernel, by decide +kernel⟩

/-- Half way: a state in which the execution has not ended. -/
example : ∃ s : State Nat Nat, PlanReached (trial .proc 1 true) trialSite s ∧ ¬ Ended s ∧ seen s = ([none, some 1, some 1, some 5], some (some 1), .await 0) := by
  refine ⟨_, run_reached _ _ [.main, .main, .main, .main, .worker 0, .worker 1, .worker 0, .worker 1] _ .start, ?_, by decide +kernel⟩
  rintro (h | ⟨e, h⟩) <;> exact absurd h (by first | decide +kernel | (intro hx; cases hx))

example : PlanApart (trial .proc 1 true) ∧ OpFails (⟨['b'], .install 1, true, boomAt 0⟩ : Job Nat Nat) 7 :=
  ⟨trial_apart _ _ _, 0, by decide, by decide, by intro k hk; omega⟩

example : ∃ s, PlanSteps (trial .none 9 true) (init (trial .none 9 true) trialSite) 4 s :=
  ⟨_, .step .main rfl (.step .main rfl (.step .main rfl (.step .main rfl (.refl _))))⟩

example : ∃ s : State Nat Nat, PlanReached (trial .thread 9 true) trialSite s ∧ ∀ i ∈ [0, 1], ∃ j k, (trial .thread 9 true).jobs[i]? = some j ∧
    place .thread (trial .thread 9 true).jobs j = .thread ∧ s.status[i]? = some (.running k) := by
  refine ⟨_, run_reached _ _ [.main, .main, .main, .main, .worker 0, .worker 1, .worker 2, .worker 0] _ .start, ?_⟩
  intro i hi
  rcases List.mem_cons.1 hi with rfl | hi
  · exact ⟨_, 1, rfl, rfl, by decide +kernel⟩
  · rw [List.mem_singleton] at hi
    subst hi
    exact ⟨_, 0, rfl, rfl, by decide +kernel⟩

/-! ### What fails -/

/-- An update that fails loses the package: it was uninstalled, and is not put back. In every mode. -/
theorem plan_run_lost_violated (mode : Mode) : ∃ s : State Nat Nat, PlanReached (trial mode 1 true) trialSite s ∧ s.main = .raised 7 ∧
    trialSite ['a'] = some 1 ∧ s.site ['a'] = none := by
  cases mode with
  | none => exact ⟨_, run_reached _ _ (List.replicate 20 .main) _ .start, by decide +kernel, by decide, by decide +kernel⟩
  | _ => exact ⟨_, run_reached _ _ (List.replicate 4 .main ++ List.replicate 4 (.worker 0) ++ List.replicate 12 .main ++ List.replicate 4 (.worker 1) ++
      List.replicate 4 (.worker 2) ++ List.replicate 20 .main) _ .start, by decide +kernel, by decide, by decide +kernel⟩

/-- With processes, operations go on after `execute` has raised, even ones that had not begun. -/
theorem plan_run_quiet_violated : ∃ s s' : State Nat Nat, PlanReached (trial .proc 0 true) trialSite s ∧ s.main = .raised 7 ∧ s.site ['b'] = none ∧
    (∃ i, s.status[1]? = some i ∧ i = .queued) ∧ PlanReached (trial .proc 0 true) trialSite s' ∧ s'.main = .raised 7 ∧ s'.site ['b'] = some 1 := by
  have hr := run_reached (trial .proc 0 true) trialSite (List.replicate 4 .main ++ List.replicate 2 (.worker 0) ++ List.replicate 12 .main ++ List.replicate 3 (.worker 2) ++ List.replicate 12 .main) _ .start
  exact ⟨_, _, hr, by decide +kernel, by decide +kernel, ⟨_, rfl, by decide +kernel⟩, run_reached _ _ (List.replicate 3 (.worker 1)) _ hr, by decide +kernel, by decide +kernel⟩

/-- After an exception that is not an `Exception` (such as `SystemExit`, which a build may raise), operations go on also in
the threads. -/
theorem plan_run_interrupt_violated : ∃ s s' : State Nat Nat, PlanReached (trial .thread 0 false) trialSite s ∧ s.main = .raised 7 ∧ s.site ['b'] = none ∧
    PlanReached (trial .thread 0 false) trialSite s' ∧ s'.main = .raised 7 ∧ s'.site ['b'] = some 1 ∧ s'.site ['c'] = none := by
  have hr := run_reached (trial .thread 0 false) trialSite (List.replicate 4 .main ++ List.replicate 2 (.worker 0) ++ List.replicate 4 .main) _ .start
  exact ⟨_, _, hr, by decide +kernel, by decide +kernel, run_reached _ _ (List.replicate 3 (.worker 1) ++ List.replicate 3 (.worker 2)) _ hr, by decide +kernel, by decide +kernel,
    by decide +kernel⟩

/-- Without concurrency, a failure stops nothing: when `execute` raises, every other operation has been tried, also the ones
after the failure. -/
theorem plan_run_goes_on_violated (env : Env I E) (before : Text → Option I) (ha : PlanApart env) (hmode : env.mode = .none) (s : State I E)
    (hr : PlanReached env before s) (e : E) (hm : s.main = .raised e) (j : Job I E) (hj : j ∈ env.jobs) (hs : OpSucceeds j) :
    s.site j.key = opAfter j.op (before j.key) := by
  have h := Inv.reached ha hr
  have hmain := h.main
  rw [hm] at hmain
  obtain ⟨i, hi, hij⟩ := List.getElem_of_mem hj
  have hji : env.jobs[i]? = some j := by rw [List.getElem?_eq_getElem hi, hij]
  have hpl : place env.mode env.jobs j = .caller := by simp [place, hmode]
  rcases h.caller i j hji hpl with h1 | ⟨r, h1⟩
  · exact absurd h1 (hmain.2.1 i)
  · have hk := h.jobs i j _ hji h1
    cases r with
    | none => exact hk.1
    | some e' =>
      obtain ⟨k, h2, h3, _⟩ := hk
      rw [hs k h2] at h3
      cases h3

example : ∃ s : State Nat Nat, PlanReached (trial .none 0 true) trialSite s ∧ seen s = ([some 1, some 1, none, some 5], none, .raised 7) :=
  ⟨_, run_reached _ _ (List.replicate 20 .main) _ .start, by decide +kernel⟩

/-- After a failure the site is not read anew: it still shows the packages that were there before. -/
theorem plan_run_view_violated : ∃ s : State Nat Nat, PlanReached (trial .proc 1 true) trialSite s ∧ s.main = .raised 7 ∧ s.site ['a'] = none ∧
    s.view.map (· ['a']) = some (some 1) :=
  ⟨_, run_reached _ _ (List.replicate 4 .main ++ List.replicate 4 (.worker 0) ++ List.replicate 6 .main ++ List.replicate 12 .main) _ .start,
    by decide +kernel, by decide +kernel, by decide +kernel⟩


/-- C97: without concurrency operations run where the caller is; an operation is sent to another process only if the mode says so, its package can be
sent, and there is another such operation; otherwise it runs in a thread. -/
theorem plan_run_place (mode : Mode) (jobs : List (Job I E)) (i : Nat) (j : Job I E) (hj : jobs[i]? = some j) :
    (place mode jobs j = .caller ↔ mode = .none) ∧
    (place mode jobs j = .process ↔ mode = .proc ∧ j.serial = true ∧
      ∃ (i' : Nat) (j' : Job I E), i' ≠ i ∧ jobs[i']? = some j' ∧ j'.serial = true) := by
  have hlt : i < jobs.length := by
    rcases Nat.lt_or_ge i jobs.length with h | h
    · exact h
    · rw [List.getElem?_eq_none h] at hj; cases hj
  have hji : jobs[i] = j := by rw [List.getElem?_eq_getElem hlt] at hj; exact Option.some.inj hj
  have hcount : j.serial = true → (1 < (jobs.filter (·.serial)).length ↔
      ∃ (i' : Nat) (j' : Job I E), i' ≠ i ∧ jobs[i']? = some j' ∧ j'.serial = true) := by
    intro hs
    have hsplit : jobs = jobs.take i ++ j :: jobs.drop (i + 1) := by
      rw [← hji, List.getElem_cons_drop, List.take_append_drop]
    have hlen : (jobs.filter (·.serial)).length =
        ((jobs.take i).filter (·.serial)).length + 1 + ((jobs.drop (i + 1)).filter (·.serial)).length := by
      conv => lhs; rw [hsplit]
      simp [hs]; omega
    rw [hlen]
    constructor
    · intro h
      have h2 : 0 < ((jobs.take i).filter (·.serial)).length ∨ 0 < ((jobs.drop (i + 1)).filter (·.serial)).length := by omega
      rcases h2 with h2 | h2
      · obtain ⟨j', hm⟩ := List.exists_mem_of_length_pos h2
        rw [List.mem_filter] at hm
        obtain ⟨i', hi', he⟩ := List.getElem_of_mem hm.1
        have hi2 : i' < i := by rw [List.length_take] at hi'; omega
        refine ⟨i', j', by omega, ?_, hm.2⟩
        rw [List.getElem_take] at he
        rw [← he]
        exact List.getElem?_eq_getElem (by omega)
      · obtain ⟨j', hm⟩ := List.exists_mem_of_length_pos h2
        rw [List.mem_filter] at hm
        obtain ⟨i', hi', he⟩ := List.getElem_of_mem hm.1
        rw [List.length_drop] at hi'
        refine ⟨i + 1 + i', j', by omega, ?_, hm.2⟩
        rw [List.getElem_drop] at he
        rw [← he]
        exact List.getElem?_eq_getElem (by omega)
    · rintro ⟨i', j', hne, hj', hs'⟩
      rcases Nat.lt_or_ge i' i with h | h
      · have hm : j' ∈ (jobs.take i).filter (·.serial) := by
          rw [List.mem_filter]
          refine ⟨List.mem_of_getElem? (i := i') ?_, hs'⟩
          rw [List.getElem?_take_of_lt h]; exact hj'
        have := List.length_pos_of_mem hm
        omega
      · have hm : j' ∈ (jobs.drop (i + 1)).filter (·.serial) := by
          rw [List.mem_filter]
          refine ⟨List.mem_of_getElem? (i := i' - (i + 1)) ?_, hs'⟩
          rw [List.getElem?_drop]
          rw [show i + 1 + (i' - (i + 1)) = i' by omega]; exact hj'
        have := List.length_pos_of_mem hm
        omega
  cases mode with
  | none => simp [place]
  | thread => simp [place]
  | proc =>
    by_cases hs : j.serial = true
    · by_cases hc : 1 < (jobs.filter (·.serial)).length
      · simp only [place, hc, hs, and_self, if_true, true_and]
        exact ⟨by simp, by simpa using (hcount hs).1 hc⟩
      · simp only [place, hc, hs, false_and, if_false, true_and]
        exact ⟨by simp, by simpa using fun i' h j' h2 h3 => hc ((hcount hs).2 ⟨i', j', h, h2, h3⟩)⟩
    · simp [place, hs]

/-- Two operations that can be sent and one that cannot. -/
example : let job (k : Char) (serial : Bool) : Job Nat Nat := ⟨[k], .remove, serial, fun _ => none⟩
    let jobs := [job 'a' true, job 'b' false, job 'c' true]
    jobs.map (place .proc jobs) = [.process, .thread, .process] ∧ jobs.map (place .thread jobs) = [.thread, .thread, .thread] :=
  ⟨rfl, rfl⟩

end Pkm
