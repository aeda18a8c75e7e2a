import Verif.Concurrency.PromiseCount
set_option linter.unusedVariables false
set_option linter.unusedSimpArgs false
set_option linter.unusedSectionVars false
/-
C29: a promise is completed at most once, its result never changes, every listener is called exactly once
and only after the completion.
-/
namespace Pkm
open Conc

variable {V E L : Type}

namespace Spec

/-- How often the promise was completed. -/
def completions (log : List (Ev V E L)) : Nat :=
  (log.filter (fun e => match e with | .completed _ => true | _ => false)).length

/-- How often the listener `l` was called. -/
def callsOf [DecidableEq L] (l : L) : List (Ev V E L) → Nat
  | [] => 0
  | .called l' :: log => (if l' = l then 1 else 0) + callsOf l log
  | _ :: log => callsOf l log

/-- How often the programs of the threads register the listener `l`. -/
def registrations [DecidableEq L] (l : L) : List (List (POp V E L)) → Nat
  | [] => 0
  | [] :: ps => registrations l ps
  | (.listen l' :: p) :: ps => (if l' = l then 1 else 0) + registrations l (p :: ps)
  | (_ :: p) :: ps => registrations l (p :: ps)
termination_by ps => (ps.map (fun p => p.length + 1)).sum

/-- No thread can do another step. -/
def Stuck (truthy : E → Bool) (s : PState V E L) : Prop := ∀ i, s.step truthy i = none

/-- The thread has returned from all of its calls. -/
def Finished (th : Thread V E L) : Prop := th.pc = .run ∧ th.prog = []

end Spec

theorem callsOf_eq [DecidableEq L] (l : L) (log : List (Ev V E L)) :
    Spec.callsOf l log = (log.map (Ev.calls l)).sum := by
  induction log with
  | nil => rfl
  | cons e log ih => cases e <;> simp [Spec.callsOf, Ev.calls, ih]

theorem registrations_cons [DecidableEq L] (l : L) (p : List (POp V E L)) (ps : List (List (POp V E L))) :
    Spec.registrations l (p :: ps) = (p.map (POp.regs l)).sum + Spec.registrations l ps := by
  induction p with
  | nil => simp [Spec.registrations]
  | cons op p ih => cases op <;> simp [Spec.registrations, POp.regs, ih] <;> omega

theorem registrations_eq [DecidableEq L] (l : L) (ps : List (List (POp V E L))) :
    Spec.registrations l ps = (PState.init ps : PState V E L).total l := by
  induction ps with
  | nil => simp [Spec.registrations, PState.total, PState.init]
  | cons p ps ih =>
    rw [registrations_cons, ih]
    simp [PState.total, PState.init, Thread.regs, PC.regs]

/-- C29: a promise is completed at most once, for all numbers of threads, all their programs and all
interleavings. -/
theorem promise_completed_once (truthy : E → Bool) (progs : List (List (POp V E L))) (s : PState V E L)
    (h : Reach truthy (PState.init progs) s) : Spec.completions s.log ≤ 1 := by
  have inv := Inv.reach h
  have e : Spec.completions s.log = (s.log.filter Ev.isCompleted).length := by
    unfold Spec.completions; congr 2
  rw [e]
  cases hd : s.done with
  | true =>
    obtain ⟨_, o, _, b⟩ := inv.closed hd
    rw [b]; simp
  | false =>
    obtain ⟨_, b, _⟩ := inv.open_ hd
    have : s.log.filter Ev.isCompleted = [] := by
      rw [List.filter_eq_nil_iff]
      intro e he
      have := b e he
      revert this
      cases e <;> simp [Ev.isCompleted, Ev.needsDone]
    rw [this]; simp

theorem completed_mem {truthy : E → Bool} {s : PState V E L} (inv : s.Inv truthy) (hd : s.done = true) :
    ∃ o, s.matchesOut o ∧ Ev.completed o ∈ s.log := by
  obtain ⟨_, o, a, b⟩ := inv.closed hd
  refine ⟨o, a, ?_⟩
  have : Ev.completed o ∈ s.log.filter Ev.isCompleted := by rw [b]; simp
  exact (List.mem_filter.mp this).1

theorem outcome_matches {truthy : E → Bool} {s : PState V E L} (ht : ∀ e, truthy e = true) {o : Outcome V E}
    (h : s.matchesOut o) : s.outcome truthy = some o := by
  cases o with
  | value v => obtain ⟨a, b⟩ := h; simp [PState.outcome, a, b]
  | error e => obtain ⟨a, b⟩ := h; simp [PState.outcome, a, b, ht]

/-- C29: whatever a call of `result` returns or raises is what the promise was completed with, so all calls,
before and after, in all threads, see the same. Partial: for exceptions that are true in a boolean context. -/
theorem promise_result_fixed_partial (truthy : E → Bool) (ht : ∀ e, truthy e = true)
    (progs : List (List (POp V E L))) (s : PState V E L) (h : Reach truthy (PState.init progs) s) :
    (∀ i o, Ev.got i o ∈ s.log → Ev.completed o ∈ s.log) ∧
    (∀ i j o o', Ev.got i o ∈ s.log → Ev.got j o' ∈ s.log → o = o') ∧
    (∀ i, Ev.gotNone i ∉ s.log) := by
  have inv := Inv.reach h
  have key : ∀ i o, Ev.got i o ∈ s.log → Ev.completed o ∈ s.log := by
    intro i o ho
    obtain ⟨hd, e⟩ := inv.got i o ho
    obtain ⟨o', a, b⟩ := completed_mem inv hd
    rw [outcome_matches ht a] at e
    cases e; exact b
  refine ⟨key, ?_, ?_⟩
  · intro i j o o' h1 h2
    have e1 := (inv.got i o h1).2
    have e2 := (inv.got j o' h2).2
    rw [e1] at e2; cases e2; rfl
  · intro i hi
    obtain ⟨hd, e⟩ := inv.gotNone i hi
    obtain ⟨o', a, b⟩ := completed_mem inv hd
    rw [outcome_matches ht a] at e
    cases e

/-- C29: a promise that failed with an exception that is false in a boolean context (for example one with
`__len__` or `__bool__`): `result` does not raise it but returns `None`. -/
theorem promise_falsy_exception_violated :
    ∃ s : PState Nat Nat Nat, Reach (fun e => decide (e ≠ 0))
        (PState.init [[.finish (.error 0)], [.result true]]) s ∧
      Ev.completed (.error 0) ∈ s.log ∧ Ev.gotNone 1 ∈ s.log := by
  refine ⟨PState.runSchedule (fun e => decide (e ≠ 0)) [0, 0, 0, 0, 0, 0, 0, 1, 1]
    (PState.init [[.finish (.error 0)], [.result true]]), ?_, by decide, by decide⟩
  have run : ∀ (is : List Nat) (s0 s : PState Nat Nat Nat), Reach (fun e => decide (e ≠ 0)) s0 s →
      Reach (fun e => decide (e ≠ 0)) s0 (PState.runSchedule (fun e => decide (e ≠ 0)) is s) := by
    intro is
    induction is with
    | nil => intro s0 s h; exact h
    | cons i is ih =>
      intro s0 s h
      simp only [PState.runSchedule]
      cases hs : s.step (fun e => decide (e ≠ 0)) i with
      | none => exact ih s0 s h
      | some s' => exact ih s0 s' (.next i h hs)
  exact run _ _ _ .start

/-- C29: no listener is called, and no call of `result` returns, before the promise is completed. (The
latest event is the first one of the log.) -/
theorem promise_called_after_completion (truthy : E → Bool) (progs : List (List (POp V E L)))
    (s : PState V E L) (h : Reach truthy (PState.init progs) s) (later earlier : List (Ev V E L)) (l : L)
    (hl : s.log = later ++ .called l :: earlier) : ∃ o, Ev.completed o ∈ earlier :=
  (Inv.reach h).order later earlier l hl

/-- C29: a listener is called at most as often as it was registered, at every moment of every
interleaving. -/
theorem promise_listener_at_most_once [DecidableEq L] (truthy : E → Bool) (progs : List (List (POp V E L)))
    (s : PState V E L) (h : Reach truthy (PState.init progs) s) (l : L) :
    Spec.callsOf l s.log ≤ Spec.registrations l progs := by
  rw [callsOf_eq, registrations_eq, ← total_reach l h]
  unfold PState.total; omega

theorem sum_zero {A : Type} (f : A → Nat) (l : List A) (h : ∀ a ∈ l, f a = 0) : (l.map f).sum = 0 := by
  induction l with
  | nil => rfl
  | cons a l ih =>
    simp [h a List.mem_cons_self]
    exact ih fun x hx => h x (List.mem_cons_of_mem _ hx)

/-- C29: there are no deadlocks and no lost wake-ups: when no thread can do another step, every thread has
returned from all its calls, or the promise was never completed and the thread waits for its result. -/
theorem promise_no_deadlock (truthy : E → Bool) (progs : List (List (POp V E L)))
    (s : PState V E L) (h : Reach truthy (PState.init progs) s) (hs : Spec.Stuck truthy s) :
    ∀ th ∈ s.threads, Spec.Finished th ∨ (th.pc = .waiting ∧ Spec.completions s.log = 0) := by
  have inv := Inv.reach h
  have free : s.lock = none := by
    cases hl : s.lock with
    | none => rfl
    | some k =>
      exfalso
      have hk := inv.holder k hl
      have hth : s.threads[k]? = some s.threads[k] := List.getElem?_eq_getElem hk
      obtain ⟨a, b⟩ := inv.threads k _ hth
      have hin := a.mpr hl
      have := hs k
      unfold PState.step at this
      rw [hth] at this
      simp only at this
      cases hp : s.threads[k].pc <;> rw [hp] at hin this <;> simp [PC.inLock] at hin <;> simp only at this
      all_goals repeat' split at this
      all_goals cases this
  intro th hth
  obtain ⟨i, hi, rfl⟩ := List.mem_iff_getElem.mp hth
  have hg : s.threads[i]? = some s.threads[i] := List.getElem?_eq_getElem hi
  obtain ⟨a, b⟩ := inv.threads i _ hg
  have hst := hs i
  unfold PState.step at hst
  rw [hg] at hst
  simp only at hst
  have hcur : s.cur = none := by simp [PState.cur, free]
  cases hp : s.threads[i].pc <;> rw [hp] at hst a b <;> simp only at hst
  case run =>
    left
    refine ⟨hp, ?_⟩
    cases hprog : s.threads[i].prog with
    | nil => rfl
    | cons op rest => rw [hprog] at hst; simp [free] at hst
  case waiting =>
    right
    refine ⟨rfl, ?_⟩
    rw [hcur] at b
    have hd : s.done = false := by
      rcases b with b | b
      · exact b
      · cases b
    obtain ⟨_, ev, _⟩ := inv.open_ hd
    unfold Spec.completions
    rw [List.length_eq_zero_iff, List.filter_eq_nil_iff]
    intro e he
    have := ev e he
    revert this
    cases e <;> simp [Ev.needsDone]
  case retry => simp [free] at hst
  all_goals
    exfalso
    repeat' split at hst
    all_goals cases hst

/-- C29: when no thread can do another step and the promise was completed, every listener has been called
exactly as often as it was registered, whether it was registered before, during or after the completion. -/
theorem promise_listeners_all_called [DecidableEq L] (truthy : E → Bool) (progs : List (List (POp V E L)))
    (s : PState V E L) (h : Reach truthy (PState.init progs) s) (hs : Spec.Stuck truthy s)
    (hc : Spec.completions s.log ≠ 0) (l : L) : Spec.callsOf l s.log = Spec.registrations l progs := by
  have fin := promise_no_deadlock truthy progs s h hs
  have inv := Inv.reach h
  have hf : ∀ th ∈ s.threads, Spec.Finished th := by
    intro th hth
    rcases fin th hth with a | ⟨_, a⟩
    · exact a
    · exact absurd a hc
  have hd : s.done = true := by
    cases hd : s.done with
    | true => rfl
    | false =>
      exfalso
      obtain ⟨_, b, _⟩ := inv.open_ hd
      apply hc
      unfold Spec.completions
      rw [List.length_eq_zero_iff, List.filter_eq_nil_iff]
      intro e he
      have := b e he
      revert this
      cases e <;> simp [Ev.needsDone]
  have hcur : s.cur ≠ some .notifyAll ∧ s.cur ≠ some .take := by
    unfold PState.cur
    cases hl : s.lock with
    | none => simp
    | some k =>
      have hk := inv.holder k hl
      have := (hf _ (List.getElem_mem hk)).1
      simp [List.getElem?_eq_getElem hk, this]
  obtain ⟨c, _⟩ := inv.closed hd
  have hln : s.listeners = none := by
    rcases c with c | c | c
    · exact c
    · exact absurd c hcur.1
    · exact absurd c hcur.2
  rw [callsOf_eq, registrations_eq, ← total_reach l h]
  unfold PState.total
  rw [hln, sum_zero (Thread.regs l)]
  · simp
  · intro th hth
    obtain ⟨a, b⟩ := hf th hth
    simp [Thread.regs, a, b, PC.regs]

/-- `n` steps in a row. -/
inductive Conc.Steps (truthy : E → Bool) : PState V E L → Nat → PState V E L → Prop where
  | zero {s} : Steps truthy s 0 s
  | succ {s s' s'' n} (i : Nat) : Steps truthy s n s' → s'.step truthy i = some s'' → Steps truthy s (n + 1) s''

/-- C29: every execution ends: the number of steps is bounded by the programs of the threads, so the calls
of the listeners do happen. -/
theorem promise_terminates (truthy : E → Bool) (progs : List (List (POp V E L))) :
    ∃ bound, ∀ n s, Conc.Steps truthy (PState.init progs) n s → n ≤ bound := by
  refine ⟨(PState.init progs : PState V E L).rank, ?_⟩
  have key : ∀ n s, Conc.Steps truthy (PState.init progs) n s →
      Reach truthy (PState.init progs) s ∧ n + s.rank ≤ (PState.init progs : PState V E L).rank := by
    intro n s h
    induction h with
    | zero => exact ⟨.start, by omega⟩
    | succ i h1 h2 ih =>
      obtain ⟨a, b⟩ := ih
      refine ⟨.next i a h2, ?_⟩
      have := rank_step truthy _ _ i a h2
      omega
  intro n s h
  have := (key n s h).2
  omega

/-- C29: no call on a promise fails since the list of listeners is gone. -/
theorem promise_no_crash (truthy : E → Bool) (progs : List (List (POp V E L)))
    (s : PState V E L) (h : Reach truthy (PState.init progs) s) (i : Nat) : Ev.crash i ∉ s.log :=
  (Inv.reach h).noCrash i

/-- Two threads that complete the promise, one that registers a listener and waits for the result, one that
registers late: a schedule in which the waiting thread is woken up. -/
example :
    let progs : List (List (POp Nat Nat Nat)) :=
      [[.finish (.value 7)], [.finish (.error 1)], [.listen 5, .result true], [.result false, .listen 5]]
    let s := PState.runSchedule (fun _ => true)
      ([2, 2, 2, 2] ++ [0, 0, 0, 0, 0, 0, 0, 0] ++ [2, 2, 2, 2] ++ [1, 1, 1] ++ [3, 3, 3, 3, 3, 3]) (PState.init progs)
    s.log.reverse = [.completed (.value 7), .called 5, .got 2 (.value 7), .rejected 1, .got 3 (.value 7), .called 5] ∧
    (∀ th ∈ s.threads, th.pc = .run ∧ th.prog = []) := by decide

/-- Without a completion the thread that asks for the result waits. -/
example : (PState.runSchedule (fun _ => true) [0, 0, 0, 0]
    (PState.init [[.result true]] : PState Nat Nat Nat)).threads = [⟨.waiting, []⟩] := by decide

example : Spec.registrations 5 ([[.finish (.value 7)], [.listen 5, .result true], [.listen 5, .listen 6]] :
    List (List (POp Nat Nat Nat))) = 2 := by simp [Spec.registrations]

end Pkm
