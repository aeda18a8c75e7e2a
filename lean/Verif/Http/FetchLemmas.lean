import Verif.Http.Fetch
import Verif.Concurrency.PromiseLemmas
set_option linter.unusedVariables false
set_option linter.unusedSimpArgs false
/-
Invariants of concurrent fetches.
-/
namespace Pkm
namespace Http
open Conc (get_set lt_of_get)

/-- The promise that the thread has to complete. -/
def FPC.owner : FPC → Option Nat
  | .working p _ => some p
  | .requesting p => some p
  | .releasing p _ => some p
  | .completing p _ => some p
  | _ => none

/-- The promise of a fetch that is not released yet. -/
def FPC.active : FPC → Option Nat
  | .working p _ => some p
  | .requesting p => some p
  | .releasing p _ => some p
  | _ => none

def FPC.waits : FPC → Option Nat
  | .waiting p => some p
  | _ => none

/-- What a thread is. -/
def FState.pcOf (s : FState) (j : Nat) : FPC := (s.threads[j]?.map (·.pc)).getD .idle

theorem pcOf_some {s : FState} {j : Nat} {th : FThread} (h : s.threads[j]? = some th) : s.pcOf j = th.pc := by
  simp [FState.pcOf, h]

theorem pcOf_set (s : FState) (i : Nat) (th y : FThread) (h : s.threads[i]? = some th) (e : Option Nat)
    (ps : List (Option FRes)) (st : Option Stored) (b : Bool) (lg : List FEv) (j : Nat) :
    (FState.mk e ps st b (s.threads.set i y) lg).pcOf j = if i = j then y.pc else s.pcOf j := by
  simp only [FState.pcOf, get_set _ _ _ _ _ h]
  split <;> simp

theorem active_owner {pc : FPC} {p : Nat} (h : pc.active = some p) : pc.owner = some p := by
  cases pc <;> simp_all [FPC.active, FPC.owner]

structure FInv (entry : Option Nat) (ps : List (Option FRes)) (pc : Nat → FPC) : Prop where
  act : ∀ j p, (pc j).active = some p → entry = some p
  own : ∀ j p, (pc j).owner = some p → ps[p]? = some none
  uniq : ∀ i j p, (pc i).owner = some p → (pc j).owner = some p → i = j
  ent : ∀ p, entry = some p → p < ps.length
  wait : ∀ j p, (pc j).waits = some p → p < ps.length
  served : ∀ p, ps[p]? = some none → ∃ j, (pc j).owner = some p

/-- Thread `i` goes to another place without any change of the table or the promises. -/
theorem FInv.move {entry : Option Nat} {ps : List (Option FRes)} {pc pc' : Nat → FPC} (h : FInv entry ps pc) (i : Nat)
    (new : FPC) (hpc : ∀ j, pc' j = if i = j then new else pc j) (hown : new.owner = (pc i).owner)
    (hact : ∀ p, new.active = some p → entry = some p) (hwait : ∀ p, new.waits = some p → p < ps.length) :
    FInv entry ps pc' := by
  have ho : ∀ j, (pc' j).owner = (pc j).owner := by
    intro j; rw [hpc]; split
    · rename_i e; subst e; exact hown
    · rfl
  refine ⟨?_, ?_, ?_, h.ent, ?_, ?_⟩
  · intro j p hj
    rw [hpc] at hj
    split at hj
    · exact hact p hj
    · exact h.act j p hj
  · intro j p hj; rw [ho] at hj; exact h.own j p hj
  · intro a b p ha hb; rw [ho] at ha hb; exact h.uniq a b p ha hb
  · intro j p hj
    rw [hpc] at hj
    split at hj
    · exact hwait p hj
    · exact h.wait j p hj
  · intro p hp
    obtain ⟨j, hj⟩ := h.served p hp
    exact ⟨j, by rw [ho]; exact hj⟩

def FState.Inv (s : FState) : Prop := FInv s.entry s.promises s.pcOf

theorem finv_step (srv : Nat → Answer) (s s' : FState) (i : Nat) (h : s.Inv) (hs : s.step srv i = some s') : s'.Inv := by
  unfold FState.step at hs
  cases hth : s.threads[i]? with
  | none => rw [hth] at hs; cases hs
  | some th =>
    rw [hth] at hs
    have hpi := pcOf_some hth
    have setEq : ∀ (new : FPC) (rest : List Directive) (e : Option Nat) (ps : List (Option FRes)) (st : Option Stored)
        (b : Bool) (lg : List FEv) (j : Nat),
        (FState.mk e ps st b (s.threads.set i ⟨new, rest⟩) lg).pcOf j = if i = j then new else s.pcOf j :=
      fun new rest e ps st b lg j => pcOf_set s i th ⟨new, rest⟩ hth e ps st b lg j
    simp only at hs
    cases hpc : th.pc with
    | idle =>
      rw [hpc] at hs hpi
      simp only at hs
      cases hpr : th.prog with
      | nil => rw [hpr] at hs; cases hs
      | cons d rest =>
        rw [hpr] at hs
        simp only at hs
        cases he : s.entry with
        | some p =>
          rw [he] at hs
          simp only [Option.some.injEq] at hs; subst hs
          have h' : FInv (some p) s.promises s.pcOf := by rw [← he]; exact h
          refine FInv.move h' i (.waiting p) (setEq _ _ _ _ _ _ _) (by rw [hpi]; rfl) (by simp [FPC.active]) ?_
          intro q hq
          simp [FPC.waits] at hq; subst hq
          exact h.ent p he
        | none =>
          rw [he] at hs
          simp only [Option.some.injEq] at hs; subst hs
          have hno : ∀ j p, (s.pcOf j).active ≠ some p := by
            intro j p hj
            have := h.act j p hj
            rw [he] at this; cases this
          have hlen : ∀ p v, s.promises[p]? = some v → p < s.promises.length := by
            intro p v hp
            exact lt_of_get hp
          have hpcs := setEq (.working s.promises.length d) rest (some s.promises.length) (s.promises ++ [none]) s.stored
            s.broken (.began i :: s.log)
          unfold FState.Inv
          simp only [FState.say]
          generalize FState.pcOf _ = pc' at hpcs ⊢
          refine ⟨?_, ?_, ?_, ?_, ?_, ?_⟩
          · intro j p hj
            rw [hpcs] at hj
            split at hj
            · exact hj
            · exact absurd hj (hno j p)
          · intro j p hj
            rw [hpcs] at hj
            split at hj
            · simp [FPC.owner] at hj; subst hj; simp
            · have := h.own j p hj
              rw [List.getElem?_append_left (hlen _ _ this)]; exact this
          · intro a b p ha hb
            rw [hpcs] at ha hb
            split at ha <;> split at hb
            · omega
            · simp [FPC.owner] at ha; subst ha
              have := hlen _ _ (h.own b _ hb); omega
            · simp [FPC.owner] at hb; subst hb
              have := hlen _ _ (h.own a _ ha); omega
            · exact h.uniq a b p ha hb
          · intro p hp; simp at hp; subst hp; simp
          · intro j p hj
            rw [hpcs] at hj
            split at hj
            · simp [FPC.waits] at hj
            · have := h.wait j p hj; simp; omega
          · intro p hp
            by_cases e : p < s.promises.length
            · rw [List.getElem?_append_left e] at hp
              obtain ⟨j, hj⟩ := h.served p hp
              refine ⟨j, ?_⟩
              rw [hpcs, if_neg]
              · exact hj
              · intro e; subst e; rw [hpi] at hj; simp [FPC.owner] at hj
            · have : p < (s.promises ++ [none]).length := lt_of_get hp
              simp at this
              have : p = s.promises.length := by omega
              exact ⟨i, by rw [hpcs]; simp [FPC.owner, this]⟩
    | working p d =>
      rw [hpc] at hs hpi
      simp only at hs
      have hp := h.act i p (by rw [hpi]; rfl)
      split at hs
      · simp only [Option.some.injEq] at hs; subst hs
        exact FInv.move h i (.completing p .error) (setEq _ _ _ _ _ _ _) (by rw [hpi]; rfl) (by simp [FPC.active]) (by simp [FPC.waits])
      · have go : s'.entry = s.entry → s'.promises = s.promises → (∀ j, s'.pcOf j = if i = j then .requesting p else s.pcOf j) → s'.Inv := by
          intro e1 e2 e3
          unfold FState.Inv; rw [e1, e2]
          exact FInv.move h i (.requesting p) e3 (by rw [hpi]; rfl) (by intro q hq; simp [FPC.active] at hq; subst hq; exact hp) (by simp [FPC.waits])
        split at hs
        · split at hs
          · simp only [Option.some.injEq] at hs; subst hs
            exact FInv.move h i _ (setEq _ _ _ _ _ _ _) (by rw [hpi]; rfl) (by simp [FPC.active]) (by simp [FPC.waits])
          · simp only [Option.some.injEq] at hs; subst hs
            exact go rfl rfl (setEq _ _ _ _ _ _ _)
        · simp only [Option.some.injEq] at hs; subst hs
          exact go rfl rfl (setEq _ _ _ _ _ _ _)
    | requesting p =>
      rw [hpc] at hs hpi
      simp only [Option.some.injEq] at hs
      have hp := h.act i p (by rw [hpi]; rfl)
      have key : ∀ a, FState.Inv ((s.answer a).1.setPC i th (.releasing p (s.answer a).2)) := by
        intro a
        have e : ∃ st b, (s.answer a).1 = ⟨s.entry, s.promises, st, b, s.threads, s.log⟩ := by
          cases a with
          | ok c lm dt now => exact ⟨_, _, rfl⟩
          | notModified => exact ⟨_, _, rfl⟩
          | failed dl => cases dl <;> exact ⟨_, _, rfl⟩
        obtain ⟨st, b, e⟩ := e
        rw [e]
        exact FInv.move h i (.releasing p _) (setEq _ _ _ _ _ _ _) (by rw [hpi]; rfl)
          (by intro q hq; simp [FPC.active] at hq; subst hq; exact hp) (by simp [FPC.waits])
      rw [← hs]; exact key _
    | releasing p r =>
      rw [hpc] at hs hpi
      simp only at hs
      have hp := h.act i p (by rw [hpi]; rfl)
      rw [hp] at hs
      simp only [Option.some.injEq] at hs; subst hs
      have hpcs := setEq (.completing p r) th.prog none s.promises s.stored s.broken (.finished r :: s.log)
      have h' : FInv none s.promises (fun j => if i = j then .completing p r else s.pcOf j) := by
        have hm := FInv.move (pc' := fun j => if i = j then .completing p r else s.pcOf j) h i (.completing p r) (fun _ => rfl) (by rw [hpi]; rfl) (by simp [FPC.active]) (by simp [FPC.waits])
        refine ⟨?_, hm.own, hm.uniq, by simp, hm.wait, hm.served⟩
        intro j q hj
        exfalso
        by_cases e : i = j
        · simp [e, FPC.active] at hj
        · simp only [e, if_false] at hj
          have h1 := h.act j q hj
          rw [hp] at h1; simp at h1; subst h1
          exact e (h.uniq i j p (by rw [hpi]; rfl) (active_owner hj))
      have : FState.pcOf (((FState.mk none s.promises s.stored s.broken s.threads s.log).setPC i th (.completing p r)).say (.finished r)) =
          fun j => if i = j then .completing p r else s.pcOf j := funext hpcs
      unfold FState.Inv
      rw [this]
      exact h'
    | completing p r =>
      rw [hpc] at hs hpi
      simp only [Option.some.injEq] at hs; subst hs
      have hp := h.own i p (by rw [hpi]; rfl)
      have hlt : p < s.promises.length := lt_of_get hp
      have hpcs := setEq .idle th.prog s.entry (s.promises.set p (some r)) s.stored s.broken (.returned i r :: s.log)
      unfold FState.Inv
      simp only [FState.say, FState.setPC]
      generalize FState.pcOf _ = pc' at hpcs ⊢
      have hne : ∀ j q, ¬ i = j → (s.pcOf j).owner = some q → q ≠ p := by
        intro j q hij hj e
        subst e
        exact hij (h.uniq i j q (by rw [hpi]; rfl) hj)
      refine ⟨?_, ?_, ?_, ?_, ?_, ?_⟩
      · intro j q hj
        rw [hpcs] at hj
        split at hj
        · simp [FPC.active] at hj
        · exact h.act j q hj
      · intro j q hj
        rw [hpcs] at hj
        split at hj
        · simp [FPC.owner] at hj
        · rename_i hij
          have := hne j q hij hj
          rw [List.getElem?_set_ne (Ne.symm this)]; exact h.own j q hj
      · intro a b q ha hb
        rw [hpcs] at ha hb
        split at ha
        · simp [FPC.owner] at ha
        · split at hb
          · simp [FPC.owner] at hb
          · exact h.uniq a b q ha hb
      · intro q hq; simp; exact h.ent q hq
      · intro j q hj
        rw [hpcs] at hj
        split at hj
        · simp [FPC.waits] at hj
        · simp; exact h.wait j q hj
      · intro q hq
        by_cases e : q = p
        · subst e; simp [List.getElem?_set, hlt] at hq
        · rw [List.getElem?_set_ne (Ne.symm e)] at hq
          obtain ⟨j, hj⟩ := h.served q hq
          refine ⟨j, ?_⟩
          rw [hpcs, if_neg]
          · exact hj
          · intro e'; subst e'; rw [hpi] at hj; simp [FPC.owner] at hj; exact e hj.symm
    | waiting p =>
      rw [hpc] at hs hpi
      simp only at hs
      split at hs
      · simp only [Option.some.injEq] at hs; subst hs
        exact FInv.move h i .idle (setEq _ _ _ _ _ _ _) (by rw [hpi]; rfl) (by simp [FPC.active]) (by simp [FPC.waits])
      · cases hs

theorem finv_init (st : Option Stored) (b : Bool) (progs : List (List Directive)) : (FState.init st b progs).Inv := by
  have hp : ∀ j, (FState.init st b progs).pcOf j = .idle := by
    intro j
    simp only [FState.pcOf, FState.init, List.getElem?_map]
    cases progs[j]? <;> simp
  unfold FState.Inv
  generalize hpc : (FState.init st b progs).pcOf = pc at *
  refine ⟨?_, ?_, ?_, ?_, ?_, ?_⟩
  · intro j p h; rw [hp j] at h; simp [FPC.active] at h
  · intro j p h; rw [hp j] at h; simp [FPC.owner] at h
  · intro i j p h; rw [hp i] at h; simp [FPC.owner] at h
  · intro p h; simp [FState.init] at h
  · intro j p h; rw [hp j] at h; simp [FPC.waits] at h
  · intro p h; simp [FState.init] at h

theorem finv_reach (srv : Nat → Answer) (s0 s : FState) (h0 : s0.Inv) (h : FReach srv s0 s) : s.Inv := by
  induction h with
  | start => exact h0
  | next i _ hs ih => exact finv_step srv _ _ i ih hs

theorem fthreads_length (srv : Nat → Answer) (s s' : FState) (i : Nat) (hs : s.step srv i = some s') :
    s'.threads.length = s.threads.length := by
  unfold FState.step at hs
  repeat' split at hs
  all_goals first
    | (cases hs; done)
    | (simp only [Option.some.injEq] at hs; subst hs; simp [FState.setPC, FState.say]; done)
    | (rename_i heq; simp only [Option.some.injEq] at hs; subst hs
       have : ∀ a, (s.answer a).1.threads = s.threads := by
         intro a; cases a with
         | ok c lm dt now => rfl
         | notModified => rfl
         | failed dl => cases dl <;> rfl
       have h2 := this (srv (s.contacts - 1))
       simp only [FState.setPC, List.length_set]
       rw [heq] at h2
       rw [h2])
    | (simp only [Option.some.injEq] at hs; subst hs
       have : ∀ a, (s.answer a).1.threads = s.threads := by
         intro a; cases a with
         | ok c lm dt now => rfl
         | notModified => rfl
         | failed dl => cases dl <;> rfl
       simp only [FState.setPC, List.length_set, this])

end Http
end Pkm
