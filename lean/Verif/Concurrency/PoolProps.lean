import Verif.Concurrency.Pool
set_option linter.unusedVariables false
set_option linter.unusedSimpArgs false
set_option linter.unusedSectionVars false
/-
C46: the process pool.
-/
namespace Pkm
open Conc

namespace Spec

/-- The tasks that were given to workers, in the order of time. -/
def startedTasks (log : List PEv) : List Nat :=
  (log.filterMap (fun e => match e with | .started t _ => some t | _ => none)).reverse

/-- How often the promise of the task was completed. -/
def doneCount (t : Nat) : List PEv → Nat
  | [] => 0
  | .done t' _ :: log => (if t' = t then 1 else 0) + doneCount t log
  | _ :: log => doneCount t log

/-- How many workers were started. -/
def spawnCount : List PEv → Nat
  | [] => 0
  | .spawned _ :: log => 1 + spawnCount log
  | _ :: log => spawnCount log

/-- The steps that the pool does by itself. -/
def Internal : Act → Bool
  | .check | .enter _ | .take _ | .finish _ | .fail _ | .remove _ => true
  | _ => false

/-- The pool has come to rest. -/
def Rest (s : Pool) : Prop := ∀ a, Internal a = true → s.step a = none

end Spec

namespace Conc

def Worker.runs (t : Nat) (w : Worker) : Nat :=
  match w.phase with
  | .running t' => if t'.id = t then 1 else 0
  | _ => 0

def Worker.busy (w : Worker) : Nat :=
  match w.phase with
  | .running _ => 1
  | _ => 0

theorem pool_sum_set {A : Type} (f : A → Nat) (l : List A) (i : Nat) (x a : A) (h : l[i]? = some a) :
    ((l.set i x).map f).sum + f a = (l.map f).sum + f x := by
  induction l generalizing i with
  | nil => simp at h
  | cons b l ih =>
    cases i with
    | zero => simp at h; subst h; simp; omega
    | succ i => simp at h; have := ih i h; simp only [List.set_cons_succ, List.map_cons, List.sum_cons]; omega

theorem sum_erase {A : Type} (f : A → Nat) (l : List A) (i : Nat) (a : A) (h : l[i]? = some a) :
    ((l.eraseIdx i).map f).sum + f a = (l.map f).sum := by
  induction l generalizing i with
  | nil => simp at h
  | cons b l ih =>
    cases i with
    | zero => simp at h; subst h; simp; omega
    | succ i => simp at h; have := ih i h; simp only [List.eraseIdx_cons_succ, List.map_cons, List.sum_cons]; omega

/-- 1 for the ids of submitted tasks. -/
def known (t n : Nat) : Nat := if t < n then 1 else 0

theorem known_le (t n : Nat) : known t n ≤ 1 := by unfold known; split <;> omega

theorem known_succ (t n : Nat) : known t (n + 1) = known t n + if n = t then 1 else 0 := by
  unfold known; repeat' split
  all_goals omega

structure Pool.Inv (s : Pool) : Prop where
  len : s.workers.length ≤ s.max
  order : Spec.startedTasks s.log ++ s.queue.map (·.id) = List.range s.nextTask
  unf : s.unfinished = s.queue.length + (s.workers.map Worker.busy).sum
  cnt : ∀ t, Spec.doneCount t s.log + (s.workers.map (Worker.runs t)).sum + (s.queue.map (·.id)).count t =
    known t s.nextTask
  cap : min s.unfinished s.max ≤ s.workers.length + s.pending
  canc : ∀ t ∈ s.canceled, 0 < Spec.doneCount t s.log

theorem isDone_count (s : Pool) (t : Nat) (h : s.isDone t = true) : 0 < Spec.doneCount t s.log := by
  unfold Pool.isDone at h
  generalize s.log = log at h
  induction log with
  | nil => simp at h
  | cons e log ih =>
    simp only [List.any_cons, Bool.or_eq_true] at h
    rcases h with h | h
    · cases e <;> simp at h
      simp [Spec.doneCount, h]; omega
    · have := ih h
      cases e <;> simp [Spec.doneCount] <;> omega

theorem Pool.Inv.init (m : Nat) : (Pool.init m).Inv := by
  refine ⟨?_, ?_, ?_, ?_, ?_, ?_⟩ <;> simp [Pool.init, Spec.startedTasks, Spec.doneCount, known]

theorem Pool.Inv.putStep {s : Pool} (h : s.Inv) (e : Bool) : (s.put e).Inv := by
  obtain ⟨h1, h2, h3, h4, h5, h6⟩ := h
  refine ⟨h1, ?_, ?_, ?_, ?_, h6⟩
  · simp only [Pool.put, List.map_append, List.map_cons, List.map_nil, List.range_succ, ← h2, List.append_assoc]
  · simp only [Pool.put, List.length_append, List.length_cons, List.length_nil]; omega
  · intro t
    have := h4 t
    simp only [Pool.put, List.map_append, List.map_cons, List.map_nil, List.count_append, List.count_cons, List.count_nil]
    rw [known_succ]; simp only [beq_iff_eq]; omega
  · simp only [Pool.put]; omega

theorem runs_phase (t : Nat) (w : Worker) (ph : Phase) (h : w.phase = ph) : w.runs t = Worker.runs t ⟨0, ph, true⟩ := by
  subst h; rfl

theorem Pool.Inv.step {s s' : Pool} (h : s.Inv) (a : Act) (hs : s.step a = some s') : s'.Inv := by
  obtain ⟨h1, h2, h3, h4, h5, h6⟩ := h
  cases a with
  | submit =>
    simp only [Pool.step] at hs
    split at hs
    · cases hs
    · simp only [Option.some.injEq] at hs; subst hs
      exact Pool.Inv.putStep ⟨h1, h2, h3, h4, h5, h6⟩ false
  | check =>
    simp only [Pool.step] at hs
    cases hp : s.pending with
    | zero => rw [hp] at hs; cases hs
    | succ p =>
      rw [hp] at hs
      simp only at hs
      split at hs
      · rename_i hc
        simp at hc
        simp only [Option.some.injEq] at hs; subst hs
        refine ⟨?_, h2, ?_, ?_, ?_, ?_⟩
        · simp; omega
        · simp [Worker.busy]; exact h3
        · intro t
          have := h4 t
          simp [Worker.runs, Spec.doneCount]
          exact this
        · simp; omega
        · intro t ht
          have := h6 t ht
          simpa [Spec.doneCount] using this
      · rename_i hc
        simp at hc
        simp only [Option.some.injEq] at hs; subst hs
        refine ⟨h1, h2, h3, h4, ?_, h6⟩
        simp only; omega
  | enter i =>
    simp only [Pool.step] at hs
    cases hw : s.workers[i]? with
    | none => rw [hw] at hs; cases hs
    | some w =>
      rw [hw] at hs
      simp only at hs
      cases hp : w.phase <;> rw [hp] at hs <;> simp only [Option.some.injEq, reduceCtorEq] at hs
      subst hs
      refine ⟨?_, h2, ?_, ?_, ?_, h6⟩
      · simp [Pool.setPhase]; exact h1
      · have := pool_sum_set Worker.busy s.workers i { w with phase := if s.closed || !w.alive then .removing else .waiting } w hw
        have e1 : w.busy = 0 := by simp [Worker.busy, hp]
        have e2 : Worker.busy { w with phase := if s.closed || !w.alive then .removing else .waiting } = 0 := by
          unfold Worker.busy; cases (s.closed || !w.alive) <;> rfl
        simp only [Pool.setPhase]; omega
      · intro t
        have := pool_sum_set (Worker.runs t) s.workers i { w with phase := if s.closed || !w.alive then .removing else .waiting } w hw
        have e1 : w.runs t = 0 := by simp [Worker.runs, hp]
        have e2 : Worker.runs t { w with phase := if s.closed || !w.alive then .removing else .waiting } = 0 := by
          unfold Worker.runs; cases (s.closed || !w.alive) <;> rfl
        have := h4 t
        simp only [Pool.setPhase]; omega
      · simp [Pool.setPhase]; omega
  | take i =>
    simp only [Pool.step] at hs
    cases hw : s.workers[i]? with
    | none => rw [hw] at hs; cases hs
    | some w =>
      rw [hw] at hs
      simp only at hs
      cases hp : w.phase with
      | waiting =>
        cases hq : s.queue with
        | nil => rw [hp, hq] at hs; cases hs
        | cons t rest =>
          rw [hp, hq] at hs
          simp only at hs
          rw [hq] at h2 h3 h4
          split at hs
          · rename_i hc
            exfalso
            have h7 := h6 t.id (by simpa using hc)
            have := h4 t.id
            have hk := known_le t.id s.nextTask
            simp at this
            omega
          · simp only [Option.some.injEq] at hs; subst hs
            refine ⟨?_, ?_, ?_, ?_, ?_, ?_⟩
            · simp [Pool.setPhase, Pool.say]; exact h1
            · simp only [Pool.setPhase, Pool.say, Spec.startedTasks, List.filterMap_cons, List.reverse_cons,
                List.append_assoc, List.cons_append, List.nil_append]
              simpa [Spec.startedTasks] using h2
            · have := pool_sum_set Worker.busy s.workers i { w with phase := .running t } w hw
              have e1 : w.busy = 0 := by simp [Worker.busy, hp]
              have e2 : Worker.busy { w with phase := .running t } = 1 := rfl
              simp at h3
              simp only [Pool.setPhase, Pool.say]; omega
            · intro t'
              have := pool_sum_set (Worker.runs t') s.workers i { w with phase := .running t } w hw
              have e1 : w.runs t' = 0 := by simp [Worker.runs, hp]
              have e2 : Worker.runs t' { w with phase := .running t } = if t.id = t' then 1 else 0 := rfl
              have h7 := h4 t'
              simp only [List.map_cons, List.count_cons, beq_iff_eq] at h7
              simp only [Pool.setPhase, Pool.say, Spec.doneCount]; omega
            · simp [Pool.setPhase, Pool.say]; omega
            · intro t' ht
              have := h6 t' ht
              simpa [Spec.doneCount, Pool.setPhase, Pool.say] using this
      | top => rw [hp] at hs; simp at hs
      | running t => rw [hp] at hs; simp at hs
      | removing => rw [hp] at hs; simp at hs
  | timeout i =>
    simp only [Pool.step] at hs
    cases hw : s.workers[i]? with
    | none => rw [hw] at hs; cases hs
    | some w =>
      rw [hw] at hs
      simp only at hs
      cases hp : w.phase with
      | waiting =>
        cases hq : s.queue with
        | cons t rest => rw [hp, hq] at hs; cases hs
        | nil =>
          rw [hp, hq] at hs
          simp only [Option.some.injEq] at hs; subst hs
          refine ⟨?_, h2, ?_, ?_, ?_, h6⟩
          · simp [Pool.setPhase]; exact h1
          · have := pool_sum_set Worker.busy s.workers i { w with alive := false, phase := .removing } w hw
            have e1 : w.busy = 0 := by simp [Worker.busy, hp]
            have e2 : Worker.busy { w with alive := false, phase := .removing } = 0 := rfl
            simp only [Pool.setPhase]; omega
          · intro t
            have := pool_sum_set (Worker.runs t) s.workers i { w with alive := false, phase := .removing } w hw
            have e1 : w.runs t = 0 := by simp [Worker.runs, hp]
            have e2 : Worker.runs t { w with alive := false, phase := .removing } = 0 := rfl
            have := h4 t
            simp only [Pool.setPhase]; omega
          · simp [Pool.setPhase]; omega
      | top => rw [hp] at hs; simp at hs
      | running t => rw [hp] at hs; simp at hs
      | removing => rw [hp] at hs; simp at hs
  | finish i =>
    simp only [Pool.step] at hs
    cases hw : s.workers[i]? with
    | none => rw [hw] at hs; cases hs
    | some w =>
      rw [hw] at hs
      simp only at hs
      cases hp : w.phase <;> rw [hp] at hs <;> simp only [reduceCtorEq] at hs
      rename_i t
      split at hs
      · simp only [Option.some.injEq] at hs; subst hs
        have hb := pool_sum_set Worker.busy s.workers i { w with phase := .top } w hw
        have e1 : w.busy = 1 := by simp [Worker.busy, hp]
        have e2 : Worker.busy { w with phase := .top } = 0 := rfl
        refine ⟨?_, h2, ?_, ?_, ?_, ?_⟩
        · simp [Pool.setPhase, Pool.say]; exact h1
        · simp only [Pool.setPhase, Pool.say]; omega
        · intro t'
          have := pool_sum_set (Worker.runs t') s.workers i { w with phase := .top } w hw
          have e1 : w.runs t' = if t.id = t' then 1 else 0 := by simp [Worker.runs, hp]
          have e2 : Worker.runs t' { w with phase := .top } = 0 := rfl
          have := h4 t'
          simp only [Pool.setPhase, Pool.say, Spec.doneCount]; omega
        · simp [Pool.setPhase, Pool.say]; omega
        · intro t' ht
          have := h6 t' ht
          simp only [Pool.setPhase, Pool.say, Spec.doneCount]; omega
      · cases hs
  | die i =>
    simp only [Pool.step] at hs
    cases hw : s.workers[i]? with
    | none => rw [hw] at hs; cases hs
    | some w =>
      rw [hw] at hs
      simp only [Option.some.injEq] at hs; subst hs
      refine ⟨?_, h2, ?_, ?_, ?_, h6⟩
      · simp; exact h1
      · have := pool_sum_set Worker.busy s.workers i { w with alive := false } w hw
        have e2 : Worker.busy { w with alive := false } = w.busy := rfl
        simp only; omega
      · intro t
        have := pool_sum_set (Worker.runs t) s.workers i { w with alive := false } w hw
        have e2 : Worker.runs t { w with alive := false } = w.runs t := rfl
        have := h4 t
        simp only; omega
      · simp; omega
  | fail i =>
    simp only [Pool.step] at hs
    cases hw : s.workers[i]? with
    | none => rw [hw] at hs; cases hs
    | some w =>
      rw [hw] at hs
      simp only at hs
      cases hp : w.phase <;> rw [hp] at hs <;> simp only [reduceCtorEq] at hs
      rename_i t
      split at hs
      · simp only [Option.some.injEq] at hs; subst hs
        have hb := pool_sum_set Worker.busy s.workers i { w with alive := false, phase := .top } w hw
        have e1 : w.busy = 1 := by simp [Worker.busy, hp]
        have e2 : Worker.busy { w with alive := false, phase := .top } = 0 := rfl
        refine ⟨?_, h2, ?_, ?_, ?_, ?_⟩
        · simp [Pool.setPhase, Pool.say]; exact h1
        · simp only [Pool.setPhase, Pool.say]; omega
        · intro t'
          have := pool_sum_set (Worker.runs t') s.workers i { w with alive := false, phase := .top } w hw
          have e1 : w.runs t' = if t.id = t' then 1 else 0 := by simp [Worker.runs, hp]
          have e2 : Worker.runs t' { w with alive := false, phase := .top } = 0 := rfl
          have := h4 t'
          simp only [Pool.setPhase, Pool.say, Spec.doneCount]; omega
        · simp [Pool.setPhase, Pool.say]; omega
        · intro t' ht
          have := h6 t' ht
          simp only [Pool.setPhase, Pool.say, Spec.doneCount]; omega
      · cases hs
  | remove i =>
    simp only [Pool.step] at hs
    cases hw : s.workers[i]? with
    | none => rw [hw] at hs; cases hs
    | some w =>
      rw [hw] at hs
      simp only at hs
      have hi := lt_of_get hw
      cases hp : w.phase <;> rw [hp] at hs <;> simp only [Option.some.injEq, reduceCtorEq] at hs
      subst hs
      have hl : (s.workers.eraseIdx i).length = s.workers.length - 1 := by simp [List.length_eraseIdx, hi]
      refine ⟨?_, h2, ?_, ?_, ?_, ?_⟩
      · simp only [hl]; omega
      · have := sum_erase Worker.busy s.workers i w hw
        have e1 : w.busy = 0 := by simp [Worker.busy, hp]
        simp only; omega
      · intro t
        have := sum_erase (Worker.runs t) s.workers i w hw
        have e1 : w.runs t = 0 := by simp [Worker.runs, hp]
        have := h4 t
        simp only [Spec.doneCount]; omega
      · simp only [hl]; omega
      · intro t' ht
        have := h6 t' ht
        simpa [Spec.doneCount] using this
  | close =>
    simp only [Pool.step, Option.some.injEq] at hs; subst hs
    exact ⟨h1, h2, h3, h4, h5, h6⟩
  | submitExit =>
    simp only [Pool.step] at hs
    cases he : s.exits with
    | zero => rw [he] at hs; cases hs
    | succ n =>
      rw [he] at hs
      simp only [Option.some.injEq] at hs; subst hs
      exact Pool.Inv.putStep (s := { s with exits := n }) ⟨h1, h2, h3, h4, h5, h6⟩ true
  | cancel t =>
    simp only [Pool.step] at hs
    split at hs
    · rename_i hc
      have hd : 0 < Spec.doneCount t s.log := by
        simp only [Bool.or_eq_true] at hc
        rcases hc with hc | hc
        · exact h6 t (by simpa using hc)
        · exact isDone_count s t hc
      have hc' : ∀ t' ∈ t :: s.canceled, 0 < Spec.doneCount t' s.log := by
        intro t' ht'
        rcases List.mem_cons.mp ht' with rfl | ht'
        · exact hd
        · exact h6 t' ht'
      split at hs
      · rename_i w _
        simp only [Option.some.injEq] at hs; subst hs
        have mapEq : ∀ (f : Worker → Nat), (∀ w : Worker, f { w with alive := false } = f w) →
            ((s.workers.map (fun v => if v.id = w then { v with alive := false } else v)).map f).sum = (s.workers.map f).sum := by
          intro f hf
          congr 1
          rw [List.map_map]
          apply List.map_congr_left
          intro v _
          simp only [Function.comp]
          split
          · exact hf v
          · rfl
        refine ⟨?_, h2, ?_, ?_, ?_, hc'⟩
        · simp [Pool.kill]; exact h1
        · simp only [Pool.kill]; rw [mapEq Worker.busy (fun _ => rfl)]; exact h3
        · intro t'
          simp only [Pool.kill]; rw [mapEq (Worker.runs t') (fun _ => rfl)]; exact h4 t'
        · simp [Pool.kill]; omega
      · simp only [Option.some.injEq] at hs; subst hs
        exact ⟨h1, h2, h3, h4, h5, hc'⟩
    · simp only [Option.some.injEq] at hs; subst hs
      exact ⟨h1, h2, h3, h4, h5, h6⟩

theorem Pool.Inv.reach {m : Nat} {s : Pool} (h : PoolReach m s) : s.Inv ∧ s.max = m := by
  induction h with
  | start => exact ⟨Pool.Inv.init m, rfl⟩
  | next a _ hs ih =>
    refine ⟨ih.1.step a hs, ?_⟩
    rw [← ih.2]
    cases a <;> simp only [Pool.step] at hs
    all_goals repeat' split at hs
    all_goals first
      | (cases hs; done)
      | (simp only [Option.some.injEq] at hs; subst hs; rfl)

theorem pool_reach_run (m : Nat) (as : List Act) (s : Pool) (h : PoolReach m s) : PoolReach m (Pool.run as s) := by
  induction as generalizing s with
  | nil => exact h
  | cons a as ih =>
    simp only [Pool.run]
    cases hs : s.step a with
    | none => exact ih s h
    | some s' => exact ih s' (.next a h hs)

end Conc

/-- C46: there are never more workers than allowed, whatever the clients do and whichever processes die. -/
theorem pool_bounded (m : Nat) (s : Pool) (h : PoolReach m s) : s.workers.length ≤ m := by
  obtain ⟨i, e⟩ := Pool.Inv.reach h
  rw [← e]; exact i.len

/-- C46: tasks are given to workers in the order of submission, each at most once: the tasks started so far,
followed by the tasks in the queue, are all the submitted tasks in order. -/
theorem pool_fifo (m : Nat) (s : Pool) (h : PoolReach m s) :
    Spec.startedTasks s.log ++ s.queue.map (·.id) = List.range s.nextTask :=
  (Pool.Inv.reach h).1.order

/-- C46: the promise of a task is completed at most once, and not before the task was started. -/
theorem pool_done_once (m : Nat) (s : Pool) (h : PoolReach m s) (t : Nat) :
    Spec.doneCount t s.log ≤ 1 ∧ (0 < Spec.doneCount t s.log → t ∈ Spec.startedTasks s.log) := by
  have inv := (Pool.Inv.reach h).1
  have h4 := inv.cnt t
  have hk := known_le t s.nextTask
  refine ⟨by omega, ?_⟩
  intro hpos
  have hlt : t < s.nextTask := by
    by_cases hlt : t < s.nextTask
    · exact hlt
    · unfold known at h4; rw [if_neg hlt] at h4; omega
  have hm : t ∈ Spec.startedTasks s.log ++ s.queue.map (·.id) := by
    rw [inv.order]; simp [hlt]
  rcases List.mem_append.mp hm with hm | hm
  · exact hm
  · exfalso
    have := List.count_pos_iff.mpr hm
    omega

/-- C46: no task is lost: when an open pool has come to rest, the promise of every submitted task is completed,
also if workers stopped for inactivity or their processes died in between. -/
theorem pool_nothing_lost (m : Nat) (hm : 0 < m) (s : Pool) (h : PoolReach m s) (ho : s.closed = false)
    (hr : Spec.Rest s) : ∀ t, t < s.nextTask → Spec.doneCount t s.log = 1 := by
  obtain ⟨inv, e⟩ := Pool.Inv.reach h
  have hpend : s.pending = 0 := by
    cases hp : s.pending with
    | zero => rfl
    | succ p =>
      have := hr .check rfl
      simp only [Pool.step, hp] at this
      split at this <;> cases this
  have hphase : ∀ (i : Nat) (w : Worker), s.workers[i]? = some w → w.phase = .waiting := by
    intro i w hw
    cases hp : w.phase with
    | waiting => rfl
    | top => have := hr (.enter i) rfl; simp [Pool.step, hw, hp] at this
    | removing => have := hr (.remove i) rfl; simp [Pool.step, hw, hp] at this
    | running t =>
      have h1 := hr (.finish i) rfl
      have h2 := hr (.fail i) rfl
      simp [Pool.step, hw, hp] at h1 h2
      cases ha : w.alive <;> simp [ha] at h1 h2
      rw [h1] at h2; cases h2
  have hq : s.queue = [] := by
    cases hq : s.queue with
    | nil => rfl
    | cons t rest =>
      exfalso
      have hu := inv.unf
      have hc := inv.cap
      rw [hq] at hu
      simp at hu
      rw [hpend, e] at hc
      have hne : 0 < s.workers.length := by omega
      obtain ⟨w, hw⟩ : ∃ w, s.workers[0]? = some w := ⟨s.workers[0], List.getElem?_eq_getElem hne⟩
      have hp := hphase 0 w hw
      have := hr (.take 0) rfl
      simp only [Pool.step, hw, hp, hq] at this
      split at this <;> cases this
  intro t ht
  have h4 := inv.cnt t
  have hz : (s.workers.map (Worker.runs t)).sum = 0 := by
    have : ∀ l : List Worker, (∀ w ∈ l, w.phase = .waiting) → (l.map (Worker.runs t)).sum = 0 := by
      intro l hl
      induction l with
      | nil => rfl
      | cons w l ih =>
        have e1 : w.runs t = 0 := by simp [Worker.runs, hl w List.mem_cons_self]
        simp [e1]
        exact ih (fun w hw => hl w (List.mem_cons_of_mem _ hw))
    apply this
    intro w hw
    obtain ⟨i, hi, rfl⟩ := List.mem_iff_getElem.mp hw
    exact hphase i _ (List.getElem?_eq_getElem hi)
  unfold known at h4
  rw [hq, hz, if_pos ht] at h4
  simpa using h4

/-- C46: the pool uses the workers it may: unless a check is still to come, there are as many workers as
unfinished tasks or as many as allowed. -/
theorem pool_uses_workers (m : Nat) (s : Pool) (h : PoolReach m s) (hp : s.pending = 0) :
    s.unfinished ≤ s.workers.length ∨ s.workers.length = m := by
  obtain ⟨inv, e⟩ := Pool.Inv.reach h
  have := inv.cap
  have := inv.len
  omega

/-- C46: a request to cancel a task that is not completed does nothing (the test in `_on_cancel` is the wrong
way round), in every state of a pool. -/
theorem pool_cancel_ignored (m : Nat) (s : Pool) (h : PoolReach m s) (t : Nat)
    (hd : Spec.doneCount t s.log = 0) : s.step (.cancel t) = some s := by
  have inv := (Pool.Inv.reach h).1
  have h1 : s.canceled.contains t = false := by
    cases hc : s.canceled.contains t with
    | false => rfl
    | true => have := inv.canc t (by simpa using hc); omega
  have h2 : s.isDone t = false := by
    cases hc : s.isDone t with
    | false => rfl
    | true => have := isDone_count s t hc; omega
  simp only [Pool.step, h1, h2, Bool.or_false, Bool.false_eq_true, if_false]

/-- C46: canceling a completed task kills its worker, and with it the other task that it runs now. -/
theorem pool_cancel_kills_other_violated :
    ∃ s s', PoolReach 1 s ∧ Spec.doneCount 0 s.log = 1 ∧ s.step (.cancel 0) = some s' ∧
      (s'.step (.fail 0)).map (fun s => s.log.head?) = some (some (.done 1 false)) ∧ s.step (.fail 0) = none := by
  refine ⟨Pool.run [.submit, .check, .enter 0, .take 0, .finish 0, .submit, .check, .enter 0, .take 0] (Pool.init 1),
    _, pool_reach_run _ _ _ .start, by decide, rfl, by decide, by decide⟩

/-- The steps of the pool in `pool_close_spawns_violated`: a worker that starts after `close`, stops at once. -/
def Conc.respawn : List Act := [.enter 0, .remove 0, .check]

/-- C46: closing a pool while a worker is busy makes it start new worker processes without end: the task that
shall stop the busy worker stays in the queue, every new worker sees that the pool is closed and stops, and
its removal starts the next one. -/
theorem pool_close_spawns_violated (n : Nat) :
    ∃ s, PoolReach 1 s ∧ s.closed = true ∧ n < Spec.spawnCount s.log ∧ s.nextTask = 2 := by
  have key : ∀ n, ∃ k log, PoolReach 1 ⟨1, [⟨1, true⟩], 1, [⟨k, .top, true⟩], k + 1, 2, 0, true, 0, [(0, 0)], [], log⟩ ∧
      n < Spec.spawnCount log := by
    intro n
    induction n with
    | zero =>
      have := pool_reach_run 1 [.submit, .check, .enter 0, .take 0, .close, .submitExit, .check, .finish 0,
        .enter 0, .remove 0, .check] (Pool.init 1) .start
      exact ⟨1, [.spawned 1, .removed 0, .done 0 true, .started 0 0, .spawned 0], this, by decide⟩
    | succ n ih =>
      obtain ⟨k, log, hr, hn⟩ := ih
      refine ⟨k + 1, .spawned (k + 1) :: .removed k :: log, ?_, ?_⟩
      · have := pool_reach_run 1 respawn _ hr
        exact this
      · simp only [Spec.spawnCount]; omega
  obtain ⟨k, log, hr, hn⟩ := key n
  exact ⟨_, hr, rfl, hn, rfl⟩

/-- A pool of two workers with three tasks, in which one process dies, comes to rest with everything done. -/
example :
    let s := Pool.run [.submit, .check, .submit, .check, .submit, .check, .enter 0, .enter 1, .take 1, .take 0,
      .die 1, .fail 1, .enter 1, .remove 1, .check, .enter 1, .take 1, .finish 0, .finish 1, .enter 0, .enter 1] (Pool.init 2)
    s.log.reverse = [.spawned 0, .spawned 1, .started 0 1, .started 1 0, .done 0 false, .removed 1, .spawned 2,
      .started 2 2, .done 1 true, .done 2 true] ∧ s.closed = false ∧ s.nextTask = 3 ∧
    s.workers = [⟨0, .waiting, true⟩, ⟨2, .waiting, true⟩] ∧ s.pending = 0 ∧ s.queue = [] := by decide

end Pkm
