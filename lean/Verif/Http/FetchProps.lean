import Verif.Http.FetchLemmas
set_option linter.unusedVariables false
set_option linter.unusedSimpArgs false
/-
C32: fetching respects the cache directives, and concurrent fetches share one download.
-/
namespace Pkm
open Http
open Conc (get_set lt_of_get)

namespace Spec

/-- The directive asks to contact the server. -/
def Asks (d : Directive) : Prop := d = .askForUpdate ∨ d = .never

/-- What happened since the thread began its last fetch (the log has the latest event first). -/
def sinceBegan (i : Nat) (log : List FEv) : List FEv := log.takeWhile (fun e => decide (e ≠ .began i))

/-- Every fetch returned the result of a download that was not over when the fetch began. -/
def FreshLog : List FEv → Prop
  | [] => True
  | e :: log => (∀ i r, e = .returned i r → .finished r ∈ sinceBegan i log) ∧ FreshLog log

/-- No thread can do a step. -/
def FStuck (srv : Nat → Answer) (s : FState) : Prop := ∀ i, s.step srv i = none

end Spec

namespace Http

theorem since_cons {i : Nat} {r : FRes} {log : List FEv} (e : FEv) (he : e ≠ .began i)
    (h : .finished r ∈ Spec.sinceBegan i log) : .finished r ∈ Spec.sinceBegan i (e :: log) := by
  unfold Spec.sinceBegan at *
  rw [List.takeWhile_cons, if_pos (by simpa using he)]
  exact List.mem_cons_of_mem _ h

theorem since_head (i : Nat) (r : FRes) (log : List FEv) : .finished r ∈ Spec.sinceBegan i (.finished r :: log) := by
  unfold Spec.sinceBegan
  simp [List.takeWhile_cons]

/-- The invariant of fetches that all ask the server. -/
structure GInv (s : FState) : Prop where
  asks : ∀ th ∈ s.threads, (∀ d ∈ th.prog, Spec.Asks d) ∧ ∀ p d, th.pc = .working p d → Spec.Asks d
  intact : s.broken = false
  ent : ∀ p, s.entry = some p → ∃ j, (s.pcOf j).active = some p
  wait : ∀ i p, s.pcOf i = .waiting p → s.entry = some p ∨ ∃ r, .finished r ∈ Spec.sinceBegan i s.log ∧
    (s.promises[p]? = some (some r) ∨ ∃ j, s.pcOf j = .completing p r)
  compl : ∀ i p r, s.pcOf i = .completing p r → .finished r ∈ Spec.sinceBegan i s.log
  fresh : Spec.FreshLog s.log

theorem asks_set {s : FState} {i : Nat} {y : FThread} (h : ∀ th ∈ s.threads, (∀ d ∈ th.prog, Spec.Asks d) ∧ ∀ p d, th.pc = .working p d → Spec.Asks d)
    (hy : (∀ d ∈ y.prog, Spec.Asks d) ∧ ∀ p d, y.pc = .working p d → Spec.Asks d) :
    ∀ th ∈ s.threads.set i y, (∀ d ∈ th.prog, Spec.Asks d) ∧ ∀ p d, th.pc = .working p d → Spec.Asks d := by
  intro th hth
  rcases List.mem_or_eq_of_mem_set hth with hth | hth
  · exact h th hth
  · rw [hth]; exact hy

theorem not_valid {d : Directive} (h : Spec.Asks d) (c : Stored) : d.valid c = false := by
  rcases h with h | h <;> subst h <;> rfl

theorem ginv_step (srv : Nat → Answer) (s s' : FState) (i : Nat) (hI : s.Inv) (h : GInv s) (hs : s.step srv i = some s') :
    GInv s' := by
  have hs0 := hs
  unfold FState.step at hs
  cases hth : s.threads[i]? with
  | none => rw [hth] at hs; cases hs
  | some th =>
    rw [hth] at hs
    have hpi := pcOf_some hth
    have hmem : th ∈ s.threads := List.mem_of_getElem? hth
    obtain ⟨ha1, ha2⟩ := h.asks th hmem
    have setEq : ∀ (new : FPC) (rest : List Directive) (e : Option Nat) (ps : List (Option FRes)) (st : Option Stored)
        (b : Bool) (lg : List FEv) (j : Nat),
        (FState.mk e ps st b (s.threads.set i ⟨new, rest⟩) lg).pcOf j = if i = j then new else s.pcOf j :=
      fun new rest e ps st b lg j => pcOf_set s i th ⟨new, rest⟩ hth e ps st b lg j
    simp only at hs
    cases hpc : th.pc with
    | idle =>
      rw [hpc] at hs hpi
      simp only at hs
      cases hpr : th.prog with
      | nil => rw [hpr] at hs; cases hs
      | cons d rest =>
        rw [hpr] at hs ha1
        simp only at hs
        have hd := ha1 d List.mem_cons_self
        have hrest : ∀ d ∈ rest, Spec.Asks d := fun d hd => ha1 d (List.mem_cons_of_mem _ hd)
        cases he : s.entry with
        | some p =>
          rw [he] at hs
          simp only [Option.some.injEq] at hs; subst hs
          have hp := setEq (.waiting p) rest (some p) s.promises s.stored s.broken (.began i :: s.log)
          refine ⟨asks_set h.asks ⟨hrest, by simp⟩, h.intact, ?_, ?_, ?_, ?_⟩
          · intro q hq
            simp [FState.say] at hq; subst hq
            obtain ⟨j, hj⟩ := h.ent p he
            refine ⟨j, ?_⟩
            have := hp j
            simp only [FState.say]
            rw [this, if_neg]
            · exact hj
            · intro e; subst e; rw [hpi] at hj; simp [FPC.active] at hj
          · intro k q hk
            have hkk : (if i = k then FPC.waiting p else s.pcOf k) = .waiting q := by rw [← hp k]; exact hk
            split at hkk
            · simp at hkk; left; simp [FState.say]; exact hkk
            · rename_i hik
              rcases h.wait k q hkk with hw | ⟨r, h1, h2⟩
              · left; simp [FState.say]; rw [he] at hw; simpa using hw
              · right
                refine ⟨r, since_cons _ (by simpa using hik) h1, ?_⟩
                rcases h2 with h2 | ⟨j, hj⟩
                · exact .inl h2
                · right; refine ⟨j, ?_⟩
                  simp only [FState.say]; rw [hp j, if_neg]
                  · exact hj
                  · intro e; subst e; rw [hpi] at hj; cases hj
          · intro k q r hk
            have hkk : (if i = k then FPC.waiting p else s.pcOf k) = .completing q r := by rw [← hp k]; exact hk
            split at hkk
            · cases hkk
            · rename_i hik
              exact since_cons _ (by simpa using hik) (h.compl k q r hkk)
          · exact ⟨by simp, h.fresh⟩
        | none =>
          rw [he] at hs
          simp only [Option.some.injEq] at hs; subst hs
          have hp := setEq (.working s.promises.length d) rest (some s.promises.length) (s.promises ++ [none]) s.stored
            s.broken (.began i :: s.log)
          refine ⟨asks_set h.asks ⟨hrest, ?_⟩, h.intact, ?_, ?_, ?_, ?_⟩
          · intro p d' hw; simp at hw; rw [← hw.2]; exact hd
          · intro q hq
            simp [FState.say] at hq; subst hq
            exact ⟨i, by simp only [FState.say]; rw [hp i]; simp [FPC.active]⟩
          · intro k q hk
            have hkk : (if i = k then FPC.working s.promises.length d else s.pcOf k) = .waiting q := by rw [← hp k]; exact hk
            split at hkk
            · cases hkk
            · rename_i hik
              rcases h.wait k q hkk with hw | ⟨r, h1, h2⟩
              · rw [he] at hw; cases hw
              · right
                refine ⟨r, since_cons _ (by simpa using hik) h1, ?_⟩
                rcases h2 with h2 | ⟨j, hj⟩
                · left; simp only [FState.say]; rw [List.getElem?_append_left (lt_of_get h2)]; exact h2
                · right; refine ⟨j, ?_⟩
                  simp only [FState.say]; rw [hp j, if_neg]
                  · exact hj
                  · intro e; subst e; rw [hpi] at hj; cases hj
          · intro k q r hk
            have hkk : (if i = k then FPC.working s.promises.length d else s.pcOf k) = .completing q r := by rw [← hp k]; exact hk
            split at hkk
            · cases hkk
            · rename_i hik
              exact since_cons _ (by simpa using hik) (h.compl k q r hkk)
          · exact ⟨by simp, h.fresh⟩
    | working p d =>
      have hd := ha2 p d hpc
      rw [hpc] at hs hpi
      simp only [h.intact, Bool.false_eq_true, if_false] at hs
      have hs' : s' = ((s.setPC i th (.requesting p)).say (.contact i)) := by
        split at hs
        · simp only [not_valid hd, Bool.false_eq_true, if_false, Option.some.injEq] at hs; exact hs.symm
        · simp only [Option.some.injEq] at hs; exact hs.symm
      subst hs'
      have hp := setEq (.requesting p) th.prog s.entry s.promises s.stored s.broken (.contact i :: s.log)
      refine ⟨asks_set h.asks ⟨ha1, by simp⟩, h.intact, ?_, ?_, ?_, ⟨by simp, h.fresh⟩⟩
      · intro q hq
        obtain ⟨j, hj⟩ := h.ent q hq
        refine ⟨j, ?_⟩
        simp only [FState.say, FState.setPC]
        rw [hp j]
        split
        · rename_i e; subst e; rw [hpi] at hj; exact hj
        · exact hj
      · intro k q hk
        have hkk : (if i = k then FPC.requesting p else s.pcOf k) = .waiting q := by rw [← hp k]; exact hk
        split at hkk
        · cases hkk
        · rcases h.wait k q hkk with hw | ⟨r, h1, h2⟩
          · exact .inl hw
          · right
            refine ⟨r, since_cons _ (by simp) h1, ?_⟩
            rcases h2 with h2 | ⟨j, hj⟩
            · exact .inl h2
            · right; refine ⟨j, ?_⟩
              simp only [FState.say, FState.setPC]; rw [hp j, if_neg]
              · exact hj
              · intro e; subst e; rw [hpi] at hj; cases hj
      · intro k q r hk
        have hkk : (if i = k then FPC.requesting p else s.pcOf k) = .completing q r := by rw [← hp k]; exact hk
        split at hkk
        · cases hkk
        · exact since_cons _ (by simp) (h.compl k q r hkk)
    | requesting p =>
      rw [hpc] at hs hpi
      simp only [Option.some.injEq] at hs
      have key : ∀ a, GInv ((s.answer a).1.setPC i th (.releasing p (s.answer a).2)) := by
        intro a
        have e : ∃ st, (s.answer a).1 = ⟨s.entry, s.promises, st, false, s.threads, s.log⟩ := by
          cases a with
          | ok c lm dt now => exact ⟨_, rfl⟩
          | notModified => exact ⟨s.stored, by simp only [FState.answer]; rw [← h.intact]⟩
          | failed dl =>
            cases dl
            · exact ⟨s.stored, by simp only [FState.answer, Bool.false_eq_true, if_false]; rw [← h.intact]⟩
            · exact ⟨_, rfl⟩
        obtain ⟨st, e⟩ := e
        rw [e]
        generalize (s.answer a).2 = r0
        have hp := setEq (.releasing p r0) th.prog s.entry s.promises st false s.log
        refine ⟨asks_set h.asks ⟨ha1, by simp⟩, rfl, ?_, ?_, ?_, h.fresh⟩
        · intro q hq
          obtain ⟨j, hj⟩ := h.ent q hq
          refine ⟨j, ?_⟩
          simp only [FState.setPC]
          rw [hp j]
          split
          · rename_i e; subst e; rw [hpi] at hj; exact hj
          · exact hj
        · intro k q hk
          have hkk : (if i = k then FPC.releasing p r0 else s.pcOf k) = .waiting q := by rw [← hp k]; exact hk
          split at hkk
          · cases hkk
          · rcases h.wait k q hkk with hw | ⟨r, h1, h2⟩
            · exact .inl hw
            · right
              refine ⟨r, h1, ?_⟩
              rcases h2 with h2 | ⟨j, hj⟩
              · exact .inl h2
              · right; refine ⟨j, ?_⟩
                simp only [FState.setPC]; rw [hp j, if_neg]
                · exact hj
                · intro e; subst e; rw [hpi] at hj; cases hj
        · intro k q r hk
          have hkk : (if i = k then FPC.releasing p r0 else s.pcOf k) = .completing q r := by rw [← hp k]; exact hk
          split at hkk
          · cases hkk
          · exact h.compl k q r hkk
      rw [← hs]; exact key _
    | releasing p r =>
      rw [hpc] at hs hpi
      simp only at hs
      have hent := hI.act i p (by rw [hpi]; rfl)
      rw [hent] at hs
      simp only [Option.some.injEq] at hs; subst hs
      have hp := setEq (.completing p r) th.prog none s.promises s.stored s.broken (.finished r :: s.log)
      refine ⟨asks_set h.asks ⟨ha1, by simp⟩, h.intact, ?_, ?_, ?_, ⟨by simp, h.fresh⟩⟩
      · intro q hq; simp [FState.say, FState.setPC] at hq
      · intro k q hk
        have hkk : (if i = k then FPC.completing p r else s.pcOf k) = .waiting q := by rw [← hp k]; exact hk
        split at hkk
        · cases hkk
        · right
          rcases h.wait k q hkk with hw | ⟨r', h1, h2⟩
          · rw [hent] at hw; simp at hw; subst hw
            refine ⟨r, since_head k r _, .inr ⟨i, ?_⟩⟩
            simp only [FState.say, FState.setPC]; rw [hp i]; simp
          · refine ⟨r', since_cons _ (by simp) h1, ?_⟩
            rcases h2 with h2 | ⟨j, hj⟩
            · exact .inl h2
            · right; refine ⟨j, ?_⟩
              simp only [FState.say, FState.setPC]; rw [hp j, if_neg]
              · exact hj
              · intro e; subst e; rw [hpi] at hj; cases hj
      · intro k q r' hk
        have hkk : (if i = k then FPC.completing p r else s.pcOf k) = .completing q r' := by rw [← hp k]; exact hk
        split at hkk
        · simp at hkk; rw [← hkk.2]; exact since_head k r _
        · exact since_cons _ (by simp) (h.compl k q r' hkk)
    | completing p r =>
      rw [hpc] at hs hpi
      simp only [Option.some.injEq] at hs; subst hs
      have hown := hI.own i p (by rw [hpi]; rfl)
      have hlt : p < s.promises.length := lt_of_get hown
      have hp := setEq .idle th.prog s.entry (s.promises.set p (some r)) s.stored s.broken (.returned i r :: s.log)
      refine ⟨asks_set h.asks ⟨ha1, by simp⟩, h.intact, ?_, ?_, ?_, ⟨?_, h.fresh⟩⟩
      · intro q hq
        obtain ⟨j, hj⟩ := h.ent q hq
        refine ⟨j, ?_⟩
        simp only [FState.say, FState.setPC]
        rw [hp j, if_neg]
        · exact hj
        · intro e; subst e; rw [hpi] at hj; cases hj
      · intro k q hk
        have hkk : (if i = k then FPC.idle else s.pcOf k) = .waiting q := by rw [← hp k]; exact hk
        split at hkk
        · cases hkk
        · rcases h.wait k q hkk with hw | ⟨r', h1, h2⟩
          · exact .inl hw
          · right
            refine ⟨r', since_cons _ (by simp) h1, ?_⟩
            simp only [FState.say, FState.setPC]
            by_cases e : p = q
            · subst e
              rcases h2 with h2 | ⟨j, hj⟩
              · rw [hown] at h2; simp at h2
              · have := hI.uniq i j p (by rw [hpi]; rfl) (by rw [hj]; rfl)
                subst this
                rw [hpi] at hj; simp at hj; subst hj
                left; simp [List.getElem?_set, hlt]
            · rcases h2 with h2 | ⟨j, hj⟩
              · left; rw [List.getElem?_set_ne e]; exact h2
              · right; refine ⟨j, ?_⟩
                rw [hp j, if_neg]
                · exact hj
                · intro e'; subst e'; rw [hpi] at hj; simp at hj; exact e hj.1
      · intro k q r' hk
        have hkk : (if i = k then FPC.idle else s.pcOf k) = .completing q r' := by rw [← hp k]; exact hk
        split at hkk
        · cases hkk
        · exact since_cons _ (by simp) (h.compl k q r' hkk)
      · intro k r' e
        simp at e
        obtain ⟨rfl, rfl⟩ := e
        exact h.compl i p r hpi
    | waiting p =>
      rw [hpc] at hs hpi
      simp only at hs
      split at hs
      · rename_i r hr
        simp only [Option.some.injEq] at hs; subst hs
        have hp := setEq .idle th.prog s.entry s.promises s.stored s.broken (.returned i r :: s.log)
        have hwait := h.wait i p hpi
        refine ⟨asks_set h.asks ⟨ha1, by simp⟩, h.intact, ?_, ?_, ?_, ⟨?_, h.fresh⟩⟩
        · intro q hq
          obtain ⟨j, hj⟩ := h.ent q hq
          refine ⟨j, ?_⟩
          simp only [FState.say, FState.setPC]
          rw [hp j, if_neg]
          · exact hj
          · intro e; subst e; rw [hpi] at hj; cases hj
        · intro k q hk
          have hkk : (if i = k then FPC.idle else s.pcOf k) = .waiting q := by rw [← hp k]; exact hk
          split at hkk
          · cases hkk
          · rcases h.wait k q hkk with hw | ⟨r', h1, h2⟩
            · exact .inl hw
            · right
              refine ⟨r', since_cons _ (by simp) h1, ?_⟩
              rcases h2 with h2 | ⟨j, hj⟩
              · exact .inl h2
              · right; refine ⟨j, ?_⟩
                simp only [FState.say, FState.setPC]; rw [hp j, if_neg]
                · exact hj
                · intro e'; subst e'; rw [hpi] at hj; cases hj
        · intro k q r' hk
          have hkk : (if i = k then FPC.idle else s.pcOf k) = .completing q r' := by rw [← hp k]; exact hk
          split at hkk
          · cases hkk
          · exact since_cons _ (by simp) (h.compl k q r' hkk)
        · intro k r' e
          simp at e
          obtain ⟨rfl, rfl⟩ := e
          rcases hwait with hw | ⟨r', h1, h2⟩
          · exfalso
            obtain ⟨j, hj⟩ := h.ent p hw
            have := hI.own j p (active_owner hj)
            rw [hr] at this; simp at this
          · rcases h2 with h2 | ⟨j, hj⟩
            · rw [hr] at h2; simp at h2; rw [h2]; exact h1
            · exfalso
              have := hI.own j p (by rw [hj]; rfl)
              rw [hr] at this; simp at this
      · cases hs

theorem freach_schedule (srv : Nat → Answer) (s0 s : FState) (h : FReach srv s0 s) (is : List Nat) :
    FReach srv s0 (s.runSchedule srv is) := by
  induction is generalizing s with
  | nil => exact h
  | cons i is ih =>
    simp only [FState.runSchedule]
    cases hs : s.step srv i with
    | none => exact ih s h
    | some s' => exact ih s' (.next i h hs)

theorem freach_trans (srv : Nat → Answer) (s0 s s' : FState) (h : FReach srv s0 s) (h' : FReach srv s s') : FReach srv s0 s' := by
  induction h' with
  | start => exact h
  | next i _ hs ih => exact .next i ih hs

end Http

/-- C32: at any time at most one thread is downloading. -/
theorem fetch_one_download (srv : Nat → Answer) (st : Option Stored) (b : Bool) (progs : List (List Directive)) (s : FState)
    (h : FReach srv (FState.init st b progs) s) (i j : Nat) (a b' : FThread) (p q : Nat)
    (hi : s.threads[i]? = some a) (hj : s.threads[j]? = some b') (ha : a.pc = .requesting p) (hb : b'.pc = .requesting q) :
    i = j := by
  have inv := finv_reach srv _ s (finv_init st b progs) h
  have h1 := inv.act i p (by rw [pcOf_some hi, ha]; rfl)
  have h2 := inv.act j q (by rw [pcOf_some hj, hb]; rfl)
  rw [h1] at h2; simp at h2; subst h2
  exact inv.uniq i j p (by rw [pcOf_some hi, ha]; rfl) (by rw [pcOf_some hj, hb]; rfl)

/-- C32: fetches do not block each other: if no thread can step, all fetches have returned. -/
theorem fetch_no_deadlock (srv : Nat → Answer) (st : Option Stored) (b : Bool) (progs : List (List Directive)) (s : FState)
    (h : FReach srv (FState.init st b progs) s) (hs : Spec.FStuck srv s) :
    ∀ th ∈ s.threads, th.pc = .idle ∧ th.prog = [] := by
  have inv := finv_reach srv _ s (finv_init st b progs) h
  have canStep : ∀ (i : Nat) (th : FThread), s.threads[i]? = some th → th.pc.owner = none := by
    intro i th hi
    have := hs i
    unfold FState.step at this
    rw [hi] at this
    simp only at this
    cases hpc : th.pc with
    | idle => rfl
    | waiting p => rfl
    | working p d =>
      rw [hpc] at this; simp only at this
      repeat' split at this
      all_goals cases this
    | requesting p => rw [hpc] at this; simp at this
    | releasing p r =>
      rw [hpc] at this; simp only at this
      split at this <;> cases this
    | completing p r => rw [hpc] at this; simp at this
  intro th hth
  obtain ⟨i, hlt, hget⟩ := List.mem_iff_getElem.mp hth
  have hi : s.threads[i]? = some th := by rw [List.getElem?_eq_getElem hlt, hget]
  have hown := canStep i th hi
  have hstep := hs i
  unfold FState.step at hstep
  rw [hi] at hstep
  simp only at hstep
  cases hpc : th.pc with
  | idle =>
    rw [hpc] at hstep; simp only at hstep
    cases hpr : th.prog with
    | nil => exact ⟨rfl, rfl⟩
    | cons d rest =>
      rw [hpr] at hstep; simp only at hstep
      split at hstep <;> cases hstep
  | waiting p =>
    exfalso
    rw [hpc] at hstep; simp only at hstep
    have hlt := inv.wait i p (by rw [pcOf_some hi, hpc]; rfl)
    have hget : s.promises[p]? = some (s.promises[p]) := List.getElem?_eq_getElem hlt
    cases hv : s.promises[p] with
    | some r => rw [hget, hv] at hstep; simp at hstep
    | none =>
      rw [hv] at hget
      obtain ⟨j, hj⟩ := inv.served p hget
      unfold FState.pcOf at hj
      cases hjt : s.threads[j]? with
      | none => rw [hjt] at hj; simp [FPC.owner] at hj
      | some tj => rw [hjt] at hj; simp at hj; rw [canStep j tj hjt] at hj; cases hj
  | working p d => rw [hpc] at hown; simp [FPC.owner] at hown
  | requesting p => rw [hpc] at hown; simp [FPC.owner] at hown
  | releasing p r => rw [hpc] at hown; simp [FPC.owner] at hown
  | completing p r => rw [hpc] at hown; simp [FPC.owner] at hown

/-- C32: the entry of the table is there when a download is over. -/
theorem fetch_no_key_error (srv : Nat → Answer) (st : Option Stored) (b : Bool) (progs : List (List Directive)) (s : FState)
    (h : FReach srv (FState.init st b progs) s) (i : Nat) : .keyError i ∉ s.log := by
  induction h with
  | start => simp [FState.init]
  | @next s s' j hr hs ih =>
    have inv := finv_reach srv _ s (finv_init st b progs) hr
    unfold FState.step at hs
    cases hth : s.threads[j]? with
    | none => rw [hth] at hs; cases hs
    | some th =>
      rw [hth] at hs
      simp only at hs
      have hlog : ∀ a, (s.answer a).1.log = s.log := by
        intro a; cases a with
        | ok c lm dt now => rfl
        | notModified => rfl
        | failed dl => cases dl <;> rfl
      cases hpc : th.pc with
      | idle =>
        rw [hpc] at hs; simp only at hs
        repeat' split at hs
        all_goals first
          | (cases hs; done)
          | (simp only [Option.some.injEq] at hs; subst hs; simp [FState.say]; exact ih)
      | working p d =>
        rw [hpc] at hs; simp only at hs
        repeat' split at hs
        all_goals (simp only [Option.some.injEq] at hs; subst hs; simp [FState.say, FState.setPC]; exact ih)
      | requesting p =>
        rw [hpc] at hs; simp only [Option.some.injEq] at hs; subst hs
        simp only [FState.setPC, hlog]; exact ih
      | releasing p r =>
        have he := inv.act j p (by rw [pcOf_some hth, hpc]; rfl)
        rw [hpc] at hs; simp only [he, Option.some.injEq] at hs; subst hs
        simp [FState.say, FState.setPC]; exact ih
      | completing p r =>
        rw [hpc] at hs; simp only [Option.some.injEq] at hs; subst hs
        simp [FState.say, FState.setPC]; exact ih
      | waiting p =>
        rw [hpc] at hs; simp only at hs
        split at hs
        · simp only [Option.some.injEq] at hs; subst hs
          simp [FState.say, FState.setPC]; exact ih
        · cases hs

/-- C32, partial: if all fetches of the URL ask the server, then in every interleaving each fetch returns the result
of a download that was not over when the fetch began. -/
theorem fetch_fresh_partial (srv : Nat → Answer) (st : Option Stored) (progs : List (List Directive))
    (hp : ∀ prog ∈ progs, ∀ d ∈ prog, Spec.Asks d) (s : FState) (h : FReach srv (FState.init st false progs) s) :
    Spec.FreshLog s.log := by
  suffices hG : GInv s from hG.fresh
  induction h with
  | start =>
    have hpc : ∀ j, (FState.init st false progs).pcOf j = .idle := by
      intro j
      simp only [FState.pcOf, FState.init, List.getElem?_map]
      cases progs[j]? <;> simp
    refine ⟨?_, rfl, ?_, ?_, ?_, trivial⟩
    · intro th hth
      simp [FState.init] at hth
      obtain ⟨prog, hprog, rfl⟩ := hth
      exact ⟨hp prog hprog, by simp⟩
    · intro p hp; simp [FState.init] at hp
    · intro i p hi; rw [hpc] at hi; cases hi
    · intro i p r hi; rw [hpc] at hi; cases hi
  | next i hr hs ih => exact ginv_step srv _ _ i (finv_reach srv _ _ (finv_init st false progs) hr) ih hs

/-- C32: a single fetch contacts the server exactly if the directive does not allow the stored resource, provided
that the table has no entry for the URL. -/
theorem fetch_contacts_partial (srv : Nat → Answer) (s : FState) (i : Nat) (d : Directive) (rest : List Directive)
    (hi : s.threads[i]? = some ⟨.idle, d :: rest⟩) (he : s.entry = none) (hb : s.broken = false) :
    (s.runSchedule srv [i, i]).contacts = s.contacts + (if s.stored.any d.valid then 0 else 1) := by
  have h1 : s.step srv i = some (FState.say (FState.mk (some s.promises.length) (s.promises ++ [none]) s.stored s.broken
      (s.threads.set i ⟨.working s.promises.length d, rest⟩) s.log) (.began i)) := by
    unfold FState.step; rw [hi]; simp only; rw [he]
  simp only [FState.runSchedule, h1, Option.getD_some]
  have hlt := lt_of_get hi
  have h2 : (s.threads.set i ⟨.working s.promises.length d, rest⟩)[i]? = some ⟨.working s.promises.length d, rest⟩ := by
    simp [List.getElem?_set, hlt]
  have h3 : ∀ s2 : FState, s2.threads[i]? = some ⟨.working s.promises.length d, rest⟩ → s2.broken = false →
      ((s2.step srv i).getD s2).contacts = s2.contacts + (if s2.stored.any d.valid then 0 else 1) := by
    intro s2 h2 hb2
    unfold FState.step; rw [h2]; simp only [hb2, Bool.false_eq_true, if_false]
    cases hst : s2.stored with
    | none => simp [FState.contacts, FState.say, FState.setPC]
    | some c =>
      simp only [Option.any_some]
      split <;> simp [FState.contacts, FState.say, FState.setPC]
  have h4 := h3 (FState.say (FState.mk (some s.promises.length) (s.promises ++ [none]) s.stored s.broken
      (s.threads.set i ⟨.working s.promises.length d, rest⟩) s.log) (.began i)) h2 hb
  rw [h4]
  simp [FState.contacts, FState.say]
  rfl

/-- C32: once a fetch was answered from the stored files, its promise stays in the table: from then on no fetch of
the URL contacts the server any more, in every continuation. -/
theorem fetch_after_hit_violated (srv : Nat → Answer) (st : Option Stored) (b : Bool) (progs : List (List Directive))
    (s : FState) (h : FReach srv (FState.init st b progs) s) (p : Nat) (r : FRes) (he : s.entry = some p)
    (hr : s.promises[p]? = some (some r)) (s' : FState) (h' : FReach srv s s') :
    s'.contacts = s.contacts ∧ s'.entry = some p ∧ s'.promises[p]? = some (some r) := by
  induction h' with
  | start => exact ⟨rfl, he, hr⟩
  | @next t t' i ht hs ih =>
    obtain ⟨i1, i2, i3⟩ := ih
    have inv := finv_reach srv _ t (finv_init st b progs) (freach_trans srv _ _ _ h ht)
    have noact : ∀ j, (t.pcOf j).active = none := by
      intro j
      cases hj : (t.pcOf j).active with
      | none => rfl
      | some q =>
        have h1 := inv.act j q hj
        rw [i2] at h1; simp at h1; subst h1
        have := inv.own j p (active_owner hj)
        rw [i3] at this; simp at this
    unfold FState.step at hs
    cases hth : t.threads[i]? with
    | none => rw [hth] at hs; cases hs
    | some th =>
      rw [hth] at hs
      simp only at hs
      have hna := noact i
      rw [pcOf_some hth] at hna
      cases hpc : th.pc with
      | idle =>
        rw [hpc] at hs; simp only at hs
        split at hs
        · cases hs
        · rw [i2] at hs
          simp only [Option.some.injEq] at hs; subst hs
          refine ⟨?_, rfl, i3⟩
          rw [← i1]; simp [FState.contacts, FState.say]
      | working q d => rw [hpc] at hna; simp [FPC.active] at hna
      | requesting q => rw [hpc] at hna; simp [FPC.active] at hna
      | releasing q r => rw [hpc] at hna; simp [FPC.active] at hna
      | completing q r' =>
        rw [hpc] at hs; simp only [Option.some.injEq] at hs; subst hs
        have hq := inv.own i q (by rw [pcOf_some hth, hpc]; rfl)
        have hne : q ≠ p := by intro e; subst e; rw [i3] at hq; simp at hq
        refine ⟨?_, i2, ?_⟩
        · rw [← i1]; simp [FState.contacts, FState.say, FState.setPC]
        · simp only [FState.say, FState.setPC]; rw [List.getElem?_set_ne hne]; exact i3
      | waiting q =>
        rw [hpc] at hs; simp only at hs
        split at hs
        · simp only [Option.some.injEq] at hs; subst hs
          refine ⟨?_, i2, i3⟩
          rw [← i1]; simp [FState.contacts, FState.say, FState.setPC]
        · cases hs

/-- C32: the situation of `fetch_after_hit_violated` arises: the resource is stored, it is fetched, then a fetch that
asks for an update returns the stored content without any contact. -/
theorem fetch_update_violated : ∃ (srv : Nat → Answer) (s : FState) (p : Nat),
    FReach srv (FState.init (some ⟨1, 5, 5⟩) false [[.always, .askForUpdate]]) s ∧
    s.entry = some p ∧ s.promises[p]? = some (some (.content 1)) ∧ s.contacts = 0 ∧
    s.log.head? = some (.returned 0 (.content 1)) ∧ s.threads = [⟨.idle, []⟩] :=
  ⟨fun _ => .ok 2 none none 9, _, 0, freach_schedule _ _ _ .start [0, 0, 0, 0, 0], by decide, by decide, by decide, by decide,
    by decide⟩

/-- C32: an info file that cannot be read (see `cache_torn_info_violated`) makes every fetch fail, without any contact
with the server. -/
theorem fetch_broken_violated : ∃ (srv : Nat → Answer) (s : FState),
    FReach srv (FState.init (some ⟨1, 5, 5⟩) true [[.always, .never]]) s ∧ s.contacts = 0 ∧
    s.log = [.returned 0 .error, .began 0, .returned 0 .error, .began 0] :=
  ⟨fun _ => .ok 2 none none 9, _, freach_schedule _ _ _ .start [0, 0, 0, 0, 0], by decide, by decide⟩

/-- C32: the answer 304 of a server gives the files as they are stored, also for a resource that is not stored. -/
theorem fetch_not_modified_violated : ∃ (srv : Nat → Answer) (s : FState),
    FReach srv (FState.init none false [[.askForUpdate]]) s ∧ s.log.head? = some (.returned 0 .noFiles) :=
  ⟨fun _ => .notModified, _, freach_schedule _ _ _ .start [0, 0, 0, 0, 0], by decide⟩

/-- C32: if the headers give no time after now, a resource that counts as retrieved after `t` was. -/
theorem retrieved_after_sound (s s' : FState) (c : Nat) (lm date : Option Nat) (now t : Nat) (r : FRes) (x : Stored)
    (hlm : ∀ m ∈ lm, m ≤ now) (hd : ∀ m ∈ date, m ≤ now) (h : s.answer (.ok c lm date now) = (s', r))
    (hx : s'.stored = some x) (hv : (Directive.retrievedAfter t).valid x = true) : t ≤ x.retrieved := by
  simp only [FState.answer, Prod.mk.injEq] at h
  obtain ⟨h1, _⟩ := h
  subst h1
  simp only [Option.some.injEq] at hx
  subst hx
  simp only [Directive.valid, decide_eq_true_eq] at hv
  cases lm with
  | some m => have := hlm m rfl; simp at hv ⊢; omega
  | none =>
    cases date with
    | some m => have := hd m rfl; simp at hv ⊢; omega
    | none => simp at hv ⊢; omega

/-- C32: a resource that was retrieved after `t` does not count as such if it was last modified before. -/
theorem retrieved_after_violated : ∃ (s : FState) (x : Stored) (t : Nat),
    (s.answer (.ok 1 (some 3) none 10)).1.stored = some x ∧ t ≤ x.retrieved ∧ (Directive.retrievedAfter t).valid x = false :=
  ⟨FState.init none false [], ⟨1, 3, 10⟩, 7, rfl, by decide, by decide⟩

/-- Two threads share a download; a later fetch makes a second one. -/
example : ((FState.init none false [[.askForUpdate, .never], [.never]]).runSchedule (fun k => .ok k none none 9)
      [0, 0, 1, 0, 1, 0, 0, 1, 0, 0, 0, 0, 0]).log.reverse =
    [.began 0, .contact 0, .began 1, .finished (.content 0), .returned 0 (.content 0), .returned 1 (.content 0), .began 0,
      .contact 0, .finished (.content 1), .returned 0 (.content 1)] := by decide

end Pkm
