import Verif.Concurrency.PromiseLemmas
set_option linter.unusedVariables false
set_option linter.unusedSimpArgs false
set_option linter.unusedSectionVars false
/-
Counting the calls of listeners, progress and termination of the promise.
-/
namespace Pkm
namespace Conc

variable {V E L : Type}

theorem sum_set {A : Type} (f : A → Nat) (l : List A) (i : Nat) (x a : A) (h : l[i]? = some a) :
    ((l.set i x).map f).sum + f a = (l.map f).sum + f x := by
  induction l generalizing i with
  | nil => simp at h
  | cons b l ih =>
    cases i with
    | zero => simp at h; subst h; simp; omega
    | succ i => simp at h; have := ih i h; simp only [List.set_cons_succ, List.map_cons, List.sum_cons]; omega

section counts
variable [DecidableEq L]

def POp.regs (l : L) : POp V E L → Nat
  | .listen l' => if l' = l then 1 else 0
  | _ => 0

def PC.regs (l : L) : PC V E L → Nat
  | .listenIn l' => if l' = l then 1 else 0
  | .call ls => ls.count l
  | _ => 0

def Thread.regs (l : L) (th : Thread V E L) : Nat := th.pc.regs l + (th.prog.map (POp.regs l)).sum

def Ev.calls (l : L) : Ev V E L → Nat
  | .called l' => if l' = l then 1 else 0
  | _ => 0

def PState.total (l : L) (s : PState V E L) : Nat :=
  (s.threads.map (Thread.regs l)).sum + (s.listeners.getD []).count l + (s.log.map (Ev.calls l)).sum

theorem wake_regs (l : L) (th : Thread V E L) : (PState.wake th).regs l = th.regs l := by
  unfold PState.wake Thread.regs
  cases hp : th.pc <;> simp [hp, PC.regs]

theorem map_wake_regs (l : L) (ts : List (Thread V E L)) :
    ((ts.map PState.wake).map (Thread.regs l)).sum = (ts.map (Thread.regs l)).sum := by
  induction ts with
  | nil => rfl
  | cons t ts ih => simp [wake_regs] at ih ⊢; omega

theorem total_step (truthy : E → Bool) (s s' : PState V E L) (i : Nat) (l : L) (h : s.Inv truthy)
    (hs : s.step truthy i = some s') : s'.total l = s.total l := by
  unfold PState.step at hs
  cases hth : s.threads[i]? with
  | none => rw [hth] at hs; simp at hs
  | some th =>
    rw [hth] at hs
    simp only at hs
    obtain ⟨hlk, hpc⟩ := h.threads i th hth
    have hset := fun x => sum_set (Thread.regs l) s.threads i x th hth
    have hself : th.regs l = th.pc.regs l + (th.prog.map (POp.regs l)).sum := rfl
    cases hp : th.pc with
    | run =>
      rw [hp] at hs hself
      simp only at hs
      cases hprog : th.prog with
      | nil => rw [hprog] at hs; simp at hs
      | cons op rest =>
        rw [hprog] at hs hself
        simp only at hs
        split at hs
        · cases hs
        · simp only [Option.some.injEq] at hs; subst hs
          have h1 := hset ⟨PState.entry op, rest⟩
          simp only [PState.total]
          have h2 : Thread.regs l ⟨PState.entry op, rest⟩ = th.regs l := by
            rw [hself]
            cases op <;> simp [Thread.regs, PState.entry, PC.regs, POp.regs] <;> rfl
          omega
    | check o =>
      rw [hp] at hs hself
      simp only at hs
      have hr : ∀ pc : PC V E L, pc.regs l = 0 → Thread.regs l { th with pc := pc } = th.regs l := by
        intro pc e; show pc.regs l + _ = _; rw [e, hself]; rfl
      split at hs
      all_goals simp only [Option.some.injEq] at hs; subst hs
      · have h1 := hset { th with pc := .run }
        rw [hr (.run) rfl] at h1
        simp only [PState.total, PState.leave, PState.say, List.map_cons, List.sum_cons, Ev.calls]
        omega
      · have h1 := hset { th with pc := .write o }
        rw [hr (.write o) rfl] at h1
        simp only [PState.total, PState.setPC, PState.say, List.map_cons, List.sum_cons, Ev.calls]
        omega
    | write o =>
      rw [hp] at hs hself
      have hr : ∀ pc : PC V E L, pc.regs l = 0 → Thread.regs l { th with pc := pc } = th.regs l := by
        intro pc e; show pc.regs l + _ = _; rw [e, hself]; rfl
      have h1 := hset { th with pc := .setDone o }
      rw [hr (.setDone o) rfl] at h1
      cases o <;> simp only [Option.some.injEq] at hs <;> subst hs <;>
        simp only [PState.total, PState.setPC, PState.say, List.map_cons, List.sum_cons, Ev.calls] <;> omega
    | setDone o =>
      rw [hp] at hs hself
      have hr : ∀ pc : PC V E L, pc.regs l = 0 → Thread.regs l { th with pc := pc } = th.regs l := by
        intro pc e; show pc.regs l + _ = _; rw [e, hself]; rfl
      have h1 := hset { th with pc := .notifyAll }
      rw [hr (.notifyAll) rfl] at h1
      simp only [Option.some.injEq] at hs; subst hs
      simp only [PState.total, PState.setPC, PState.say, List.map_cons, List.sum_cons, Ev.calls]
      omega
    | notifyAll =>
      rw [hp] at hs hself
      have hr : ∀ pc : PC V E L, pc.regs l = 0 → Thread.regs l { th with pc := pc } = th.regs l := by
        intro pc e; show pc.regs l + _ = _; rw [e, hself]; rfl
      have hth2 : (s.threads.map PState.wake)[i]? = some (PState.wake th) := by simp [hth]
      have h1 := sum_set (Thread.regs l) _ i { th with pc := .take } _ hth2
      rw [hr .take rfl, wake_regs, map_wake_regs] at h1
      simp only [Option.some.injEq] at hs; subst hs
      simp only [PState.total, PState.setPC]
      omega
    | take =>
      rw [hp] at hs hself hpc
      simp only at hs
      obtain ⟨_, hsome⟩ := hpc
      cases hls : s.listeners with
      | none => rw [hls] at hsome; cases hsome
      | some ls =>
        rw [hls] at hs
        simp only [Option.some.injEq] at hs; subst hs
        have h1 := hset { th with pc := .call ls }
        have h2 : Thread.regs l { th with pc := PC.call ls } = th.regs l + ls.count l := by
          rw [hself]; simp only [Thread.regs, PC.regs]; omega
        simp only [PState.total, PState.leave, hls, Option.getD_none, Option.getD_some, List.count_nil]
        omega
    | call ls =>
      rw [hp] at hs hself
      cases ls with
      | nil =>
        simp only [Option.some.injEq] at hs; subst hs
        have h1 := hset { th with pc := .run }
        have h2 : Thread.regs l { th with pc := PC.run } = th.regs l := by
          rw [hself]; simp [Thread.regs, PC.regs]
        simp only [PState.total, PState.setPC]
        omega
      | cons l' ls =>
        simp only [Option.some.injEq] at hs; subst hs
        have h1 := hset { th with pc := .call ls }
        have h2 : Thread.regs l { th with pc := PC.call ls } + (if l' = l then 1 else 0) = th.regs l := by
          rw [hself]; simp [Thread.regs, PC.regs, List.count_cons]; omega
        simp only [PState.total, PState.setPC, PState.say, List.map_cons, List.sum_cons, Ev.calls]
        omega
    | listenIn l' =>
      rw [hp] at hs hself
      simp only at hs
      cases hd : s.done with
      | true =>
        rw [hd] at hs
        simp only [if_true, Option.some.injEq] at hs; subst hs
        have h1 := hset { th with pc := .call [l'] }
        have h2 : Thread.regs l { th with pc := PC.call [l'] } = th.regs l := by
          rw [hself]; simp [Thread.regs, PC.regs, List.count_cons]
        simp only [PState.total, PState.leave]
        omega
      | false =>
        rw [hd] at hs
        simp only [Bool.false_eq_true, if_false] at hs
        obtain ⟨a, b, c⟩ := h.open_ hd
        cases hls : s.listeners with
        | none => rw [hls] at a; cases a
        | some ls =>
          rw [hls] at hs
          simp only [Option.some.injEq] at hs; subst hs
          have h1 := hset { th with pc := .run }
          have h2 : Thread.regs l { th with pc := PC.run } + (if l' = l then 1 else 0) = th.regs l := by
            rw [hself]; simp only [Thread.regs, PC.regs]; omega
          simp only [PState.total, PState.leave, hls, Option.getD_some, List.count_append, List.count_cons, List.count_nil, beq_iff_eq]
          omega
    | resultIn w =>
      rw [hp] at hs hself
      simp only at hs
      have hr : ∀ pc : PC V E L, pc.regs l = 0 → Thread.regs l { th with pc := pc } = th.regs l := by
        intro pc e; show pc.regs l + _ = _; rw [e, hself]; rfl
      have h1 := hset { th with pc := .run }
      rw [hr (.run) rfl] at h1
      have h2 := hset { th with pc := .waiting }
      rw [hr (.waiting) rfl] at h2
      repeat' split at hs
      all_goals simp only [Option.some.injEq] at hs; subst hs
      all_goals simp only [PState.total, PState.leave, PState.say, List.map_cons, List.sum_cons, Ev.calls]
      all_goals omega
    | waiting => rw [hp] at hs; simp at hs
    | retry =>
      rw [hp] at hs hself
      simp only at hs
      have hr : ∀ pc : PC V E L, pc.regs l = 0 → Thread.regs l { th with pc := pc } = th.regs l := by
        intro pc e; show pc.regs l + _ = _; rw [e, hself]; rfl
      have h1 := hset { th with pc := .resultIn true }
      rw [hr (.resultIn true) rfl] at h1
      split at hs
      · cases hs
      · simp only [Option.some.injEq] at hs; subst hs
        simp only [PState.total]
        omega

theorem total_reach {truthy : E → Bool} {progs : List (List (POp V E L))} {s : PState V E L} (l : L)
    (h : Reach truthy (PState.init progs) s) : s.total l = (PState.init progs).total l := by
  induction h with
  | start => rfl
  | next i hr hs ih => rw [total_step truthy _ _ i l (Inv.reach hr) hs, ih]

end counts

/-- The number of steps is bounded. -/
def PC.rank (done : Bool) : PC V E L → Nat
  | .run => 0
  | .check _ => 9
  | .write _ => 8
  | .setDone _ => 7
  | .notifyAll => 6
  | .take => 5
  | .call ls => 1 + ls.length
  | .listenIn _ => 3
  | .resultIn _ => if done then 1 else 4
  | .waiting => 3
  | .retry => 2

def Thread.rank (done : Bool) (th : Thread V E L) : Nat := th.pc.rank done + 10 * th.prog.length

def PState.rank (s : PState V E L) : Nat :=
  (s.threads.map (Thread.rank s.done)).sum + (s.listeners.getD []).length

theorem wake_rank (d : Bool) (th : Thread V E L) : (PState.wake th).rank d ≤ th.rank d := by
  unfold PState.wake Thread.rank
  cases hp : th.pc <;> simp [hp, PC.rank]

theorem map_wake_rank (d : Bool) (ts : List (Thread V E L)) :
    ((ts.map PState.wake).map (Thread.rank d)).sum ≤ (ts.map (Thread.rank d)).sum := by
  induction ts with
  | nil => simp
  | cons t ts ih => have := wake_rank d t; simp at ih ⊢; omega

theorem done_rank (ts : List (Thread V E L)) :
    (ts.map (Thread.rank true)).sum ≤ (ts.map (Thread.rank false)).sum := by
  induction ts with
  | nil => simp
  | cons t ts ih =>
    have : t.rank true ≤ t.rank false := by
      unfold Thread.rank
      cases t.pc <;> simp [PC.rank]
    simp at ih ⊢; omega

theorem entry_ne (op : POp V E L) : PState.entry op ≠ .retry := by
  cases op <;> simp [PState.entry]

/-- Threads that were notified find the promise completed. -/
theorem retry_done {truthy : E → Bool} {progs : List (List (POp V E L))} {s : PState V E L}
    (h : Reach truthy (PState.init progs) s) : ∀ (j : Nat) (th : Thread V E L), s.threads[j]? = some th → th.pc = .retry → s.done = true := by
  induction h with
  | start =>
    intro j th hj hp
    simp [PState.init] at hj
    obtain ⟨p, _, rfl⟩ := hj
    cases hp
  | next i hr hs ih =>
    rename_i s s'
    have inv := Inv.reach hr
    unfold PState.step at hs
    cases hth : s.threads[i]? with
    | none => rw [hth] at hs; simp at hs
    | some th =>
      rw [hth] at hs
      simp only at hs
      have key : ∀ (x : Thread V E L), x.pc ≠ .retry → ∀ (j : Nat) (th' : Thread V E L), (s.threads.set i x)[j]? = some th' → th'.pc = .retry → s.done = true := by
        intro x hx
        refine forall_set hth _ (fun e => absurd e hx) ?_
        intro j y _ hy hyp
        exact ih j y hy hyp
      cases hp : th.pc with
      | notifyAll =>
        have ok := (inv.threads i th hth).2
        rw [hp] at hs ok
        simp only [Option.some.injEq] at hs; subst hs
        intro _ _ _ _
        exact ok.1
      | _ =>
        rw [hp] at hs
        simp only at hs
        repeat' split at hs
        all_goals first
          | (cases hs; done)
          | (simp only [Option.some.injEq] at hs; subst hs
             simp only [PState.leave, PState.setPC, PState.say]
             first
              | exact fun _ _ _ _ => trivial
              | (refine key _ ?_; simp; done)
              | exact key _ (entry_ne _))

theorem rank_step (truthy : E → Bool) {progs : List (List (POp V E L))} (s s' : PState V E L) (i : Nat)
    (hr : Reach truthy (PState.init progs) s) (hs : s.step truthy i = some s') : s'.rank < s.rank := by
  have h := Inv.reach hr
  have hretry := retry_done hr
  unfold PState.step at hs
  cases hth : s.threads[i]? with
  | none => rw [hth] at hs; simp at hs
  | some th =>
    rw [hth] at hs
    simp only at hs
    obtain ⟨hlk, hpc⟩ := h.threads i th hth
    have hset0 := fun x => sum_set (Thread.rank s.done) s.threads i x th hth
    have hset : ∀ pc : PC V E L, ((s.threads.set i { th with pc := pc }).map (Thread.rank s.done)).sum +
        (th.pc.rank s.done + 10 * th.prog.length) =
        (s.threads.map (Thread.rank s.done)).sum + (pc.rank s.done + 10 * th.prog.length) :=
      fun pc => hset0 { th with pc := pc }
    have hself : th.rank s.done = th.pc.rank s.done + 10 * th.prog.length := rfl
    cases hp : th.pc with
    | run =>
      rw [hp] at hs hself hset
      simp only at hs
      cases hprog : th.prog with
      | nil => rw [hprog] at hs; simp at hs
      | cons op rest =>
        rw [hprog] at hs hself
        simp only at hs
        split at hs
        · cases hs
        · simp only [Option.some.injEq] at hs; subst hs
          have h1 := hset0 ⟨PState.entry op, rest⟩
          simp only [PState.rank]
          have h2 : Thread.rank s.done ⟨PState.entry op, rest⟩ < th.rank s.done := by
            rw [hself]
            cases op <;> simp [Thread.rank, PState.entry, PC.rank] <;> try split
            all_goals omega
          omega
    | notifyAll =>
      rw [hp] at hs hself hset
      have hq : Thread.rank s.done { th with pc := PC.take } = (PC.take : PC V E L).rank s.done + 10 * th.prog.length := rfl
      have hth2 : (s.threads.map PState.wake)[i]? = some (PState.wake th) := by simp [hth]
      have h1 := sum_set (Thread.rank s.done) _ i { th with pc := .take } _ hth2
      have hw : PState.wake th = th := by unfold PState.wake; rw [hp]
      rw [hw, hq] at h1
      have h3 := map_wake_rank s.done s.threads
      simp only [Option.some.injEq] at hs; subst hs
      simp only [PState.rank, PState.setPC]
      simp only [PC.rank] at *
      omega
    | setDone o =>
      rw [hp] at hs hself hset hpc
      simp only [Option.some.injEq] at hs; subst hs
      have hd := hpc.1
      rw [hd] at hset hself
      have h1 := hset (.notifyAll)
      have h3 := done_rank (s.threads.set i { th with pc := .notifyAll })
      simp only [PState.rank, PState.setPC, PState.say, hd]
      simp only [PC.rank] at *
      omega
    | take =>
      rw [hp] at hs hself hset hpc
      simp only at hs
      obtain ⟨_, hsome⟩ := hpc
      cases hls : s.listeners with
      | none => rw [hls] at hsome; cases hsome
      | some ls =>
        rw [hls] at hs
        simp only [Option.some.injEq] at hs; subst hs
        have h1 := hset (.call ls)
        simp only [PState.rank, PState.leave, hls, Option.getD_none, Option.getD_some, List.length_nil]
        simp only [PC.rank] at *
        omega
    | listenIn l' =>
      rw [hp] at hs hself hset
      simp only at hs
      cases hd : s.done with
      | true =>
        rw [hd] at hs hset hself
        simp only [if_true, Option.some.injEq] at hs; subst hs
        have h1 := hset (.call [l'])
        simp only [PState.rank, PState.leave, hd]
        simp only [PC.rank, List.length_cons, List.length_nil] at *
        omega
      | false =>
        rw [hd] at hs hset hself
        simp only [Bool.false_eq_true, if_false] at hs
        obtain ⟨a, b, c⟩ := h.open_ hd
        cases hls : s.listeners with
        | none => rw [hls] at a; cases a
        | some ls =>
          rw [hls] at hs
          simp only [Option.some.injEq] at hs; subst hs
          have h1 := hset (.run)
          simp only [PState.rank, PState.leave, hls, hd, Option.getD_some, List.length_append, List.length_cons, List.length_nil]
          simp only [PC.rank] at *
          omega
    | retry =>
      have hd := hretry i th hth hp
      rw [hp] at hs hself hset
      simp only at hs
      have h1 := hset (.resultIn true)
      split at hs
      · cases hs
      · simp only [Option.some.injEq] at hs; subst hs
        simp only [PState.rank]
        simp only [PC.rank, hd, if_true] at *
        omega
    | _ =>
      rw [hp] at hs hself hset
      simp only at hs
      repeat' split at hs
      all_goals first
        | (cases hs; done)
        | (simp only [Option.some.injEq] at hs; subst hs
           simp only [PState.rank, PState.leave, PState.setPC, PState.say]
           have h1 := hset .run
           have h3 := hset .waiting
           simp only [PC.rank, List.length_cons, List.length_nil] at h1 h3 hset hself
           first
            | omega
            | (have h4 := hset (.write ‹_›); simp only [PC.rank] at h4; omega)
            | (have h4 := hset (.setDone (.value ‹V›)); simp only at h4; omega)
            | (have h4 := hset (.setDone (.error ‹E›)); simp only at h4; omega)
            | (have h4 := hset (.call ‹List L›); simp only at h4; omega)
            | (cases hd : s.done <;> rw [hd] at hset h1 h3 <;> simp only [hd] at * <;> simp only [if_true, Bool.false_eq_true, if_false] at h1 h3 <;> first | contradiction | omega))

end Conc
end Pkm
