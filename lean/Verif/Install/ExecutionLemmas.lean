import Verif.Install.Execution
set_option linter.unusedVariables false
set_option linter.unusedSimpArgs false
/-
Specification and invariants of the execution of a plan.
-/
namespace Pkm
open PlanRun

variable {I E : Type}

namespace Spec

/-- A state that some schedule leads to. -/
inductive PlanReached (env : Env I E) (before : Text → Option I) : State I E → Prop
  | start : PlanReached env before (init env before)
  | step {s s' : State I E} (a : Actor) : PlanReached env before s → step env s a = some s' → PlanReached env before s'

/-- What an operation makes of its package. -/
def opAfter : Op I → Option I → Option I
  | .install new, _ => some new
  | .replace new, _ => some new
  | .mark f, cur => cur.map f
  | .remove, _ => none

/-- The number of phases of an operation. -/
def opParts : Op I → Nat
  | .replace _ => 2
  | _ => 1

/-- No two operations of a plan are on one package. -/
def PlanApart (env : Env I E) : Prop := (env.jobs.map Job.key).Nodup

/-- The operation does not raise. -/
def OpSucceeds (j : Job I E) : Prop := ∀ k, k < opParts j.op → j.raises k = none

/-- The operation raises. -/
def OpFails (j : Job I E) (e : E) : Prop := ∃ k, k < opParts j.op ∧ j.raises k = some e ∧ ∀ k' < k, j.raises k' = none

end Spec
open Spec

namespace PlanRun

/-- A package after some phases. -/
def partly (op : Op I) (k : Nat) (cur : Option I) : Option I := ((phases op).take k).foldl (fun c f => f c) cur

theorem phases_length (op : Op I) : (phases op).length = opParts op := by cases op <;> rfl

theorem partly_all (op : Op I) (cur : Option I) : partly op (opParts op) cur = opAfter op cur := by cases op <;> rfl

theorem partly_zero (op : Op I) (cur : Option I) : partly op 0 cur = cur := by simp [partly]

theorem partly_succ (op : Op I) (k : Nat) (f : Option I → Option I) (h : (phases op)[k]? = some f) (cur : Option I) :
    partly op (k + 1) cur = f (partly op k cur) := by
  unfold partly
  rw [List.take_add_one, h]
  simp [List.foldl_append]

/-- What is true of an operation with some status. -/
def JobOk (before site : Text → Option I) (j : Job I E) : Status E → Prop
  | .waiting => site j.key = before j.key
  | .queued => site j.key = before j.key
  | .cancelled => site j.key = before j.key
  | .running k => k ≤ opParts j.op ∧ site j.key = partly j.op k (before j.key) ∧ ∀ k' < k, j.raises k' = none
  | .finished none => site j.key = opAfter j.op (before j.key) ∧ OpSucceeds j
  | .finished (some e) => ∃ k, k < opParts j.op ∧ j.raises k = some e ∧ (∀ k' < k, j.raises k' = none) ∧
      site j.key = partly j.op k (before j.key)

/-- What is true of the caller. -/
def MainOk (env : Env I E) (st : List (Status E)) : Main E → Prop
  | .submit i => i ≤ env.jobs.length ∧ (∀ i', i ≤ i' → i' < env.jobs.length → st[i']? = some .waiting) ∧
      (∀ i' < i, st[i']? ≠ some .waiting ∧ st[i']? ≠ some .cancelled)
  | .await i => (∀ i' < i, st[i']? = some (.finished none)) ∧ (∀ i' : Nat, st[i']? ≠ some .waiting ∧ st[i']? ≠ some .cancelled)
  | .cancel e i left => env.isExc e = true ∧ (∃ f : Nat, st[f]? = some (.finished (some e)) ∧ ∀ i' < f, st[i']? = some (.finished none)) ∧
      (∀ i' : Nat, st[i']? ≠ some .waiting) ∧ (∀ i' ∈ left, st[i']? ≠ some .cancelled ∧ st[i']? ≠ some .queued ∧ i' < env.jobs.length) ∧
      (∀ i' < i, ∀ j, env.jobs[i']? = some j → place env.mode env.jobs j ≠ .process → st[i']? = some .cancelled ∨ i' ∈ left)
  | .settle e left => env.isExc e = true ∧ (∃ f : Nat, st[f]? = some (.finished (some e)) ∧ ∀ i' < f, st[i']? = some (.finished none)) ∧
      (∀ i' : Nat, st[i']? ≠ some .waiting) ∧ (∀ i' ∈ left, st[i']? ≠ some .cancelled ∧ st[i']? ≠ some .queued ∧ i' < env.jobs.length) ∧
      (∀ i' : Nat, ∀ j, env.jobs[i']? = some j → place env.mode env.jobs j ≠ .process → st[i']? = some .cancelled ∨ i' ∈ left ∨
        ∃ r, st[i']? = some (.finished r))
  | .raised e => (∃ f : Nat, st[f]? = some (.finished (some e)) ∧ ∀ i' < f, st[i']? = some (.finished none)) ∧ (∀ i' : Nat, st[i']? ≠ some .waiting) ∧
      (env.isExc e = true → ∀ i' : Nat, ∀ j, env.jobs[i']? = some j → place env.mode env.jobs j ≠ .process → st[i']? = some .cancelled ∨
        ∃ r, st[i']? = some (.finished r))
  | .returned => ∀ i' < env.jobs.length, st[i']? = some (.finished none)

structure Inv (env : Env I E) (before : Text → Option I) (s : State I E) : Prop where
  len : s.status.length = env.jobs.length
  others : ∀ k, k ∉ env.jobs.map Job.key → s.site k = before k
  jobs : ∀ (i : Nat) j st, env.jobs[i]? = some j → s.status[i]? = some st → JobOk before s.site j st
  main : MainOk env s.status s.main
  /-- an operation of the caller is never queued or running -/
  caller : ∀ (i : Nat) j, env.jobs[i]? = some j → place env.mode env.jobs j = .caller → s.status[i]? = some .waiting ∨ ∃ r, s.status[i]? = some (.finished r)

theorem Inv.upd {env : Env I E} {before : Text → Option I} {s : State I E} (h : Inv env before s) (ha : PlanApart env) {i : Nat} {j : Job I E}
    (hj : env.jobs[i]? = some j) {site' : Text → Option I} {view' : Option (Text → Option I)} {st' : Status E} {main' : Main E}
    (hoff : ∀ k, k ≠ j.key → site' k = s.site k) (hok : JobOk before site' j st')
    (hc : place env.mode env.jobs j = .caller → st' = .waiting ∨ ∃ r, st' = .finished r)
    (hm : MainOk env (s.status.set i st') main') : Inv env before ⟨site', view', s.status.set i st', main'⟩ := by
  have hi : i < env.jobs.length := (List.getElem?_eq_some_iff.1 hj).1
  have hi' : i < s.status.length := by rw [h.len]; exact hi
  have hother : ∀ (i' : Nat) j', i' ≠ i → env.jobs[i']? = some j' → j'.key ≠ j.key := by
    intro i' j' hne hj' he
    have hn : (env.jobs.map Job.key).Nodup := ha
    obtain ⟨h1, h2⟩ := List.getElem?_eq_some_iff.1 hj
    obtain ⟨h3, h4⟩ := List.getElem?_eq_some_iff.1 hj'
    have hp := List.pairwise_iff_getElem.1 hn
    rcases Nat.lt_or_gt_of_ne hne with hlt | hlt
    · exact hp i' i (by simpa using h3) (by simpa using h1) hlt (by simp [h2, h4, he])
    · exact hp i i' (by simpa using h1) (by simpa using h3) hlt (by simp [h2, h4, he])
  refine ⟨?_, ?_, ?_, hm, ?_⟩
  · simpa using h.len
  · intro k hk
    have : k ≠ j.key := fun he => hk (he ▸ List.mem_map_of_mem (List.mem_of_getElem? hj))
    exact (hoff k this).trans (h.others k hk)
  · intro i' j' st hj' hst
    by_cases hii : i' = i
    · subst hii
      rw [hj] at hj'
      cases hj'
      rw [List.getElem?_set_self hi'] at hst
      cases hst
      exact hok
    · rw [List.getElem?_set_ne (fun h => hii h.symm)] at hst
      have hk := h.jobs i' j' st hj' hst
      have he := hoff _ (hother i' j' hii hj')
      revert hk
      cases st with
      | finished r => cases r <;> simp only [JobOk, he] <;> exact id
      | _ => simp only [JobOk, he]; exact id
  · intro i' j' hj' hp
    by_cases hii : i' = i
    · subst hii
      rw [hj] at hj'
      cases hj'
      rw [List.getElem?_set_self hi']
      rcases hc hp with h1 | ⟨r, h1⟩
      · exact Or.inl (by rw [h1])
      · exact Or.inr ⟨r, by rw [h1]⟩
    · rw [List.getElem?_set_ne (fun h => hii h.symm)]
      exact h.caller i' j' hj' hp

/-- The caller does not notice the steps of workers, except for those that end. -/
theorem MainOk.worker {env : Env I E} {st : List (Status E)} {m : Main E} (h : MainOk env st m) {i : Nat} {old new : Status E}
    (ho : st[i]? = some old) (hold : old = .queued ∨ ∃ k, old = .running k) (hnew : (∃ k, new = .running k) ∨ ∃ r, new = .finished r) :
    MainOk env (st.set i new) m := by
  have hi : i < st.length := (List.getElem?_eq_some_iff.1 ho).1
  have hf : ∀ (i' : Nat) r, st[i']? = some (.finished r) → (st.set i new)[i']? = some (.finished r) := by
    intro i' r h
    by_cases hii : i' = i
    · subst hii
      rw [ho] at h
      rcases hold with rfl | ⟨k, rfl⟩ <;> cases h
    · rwa [List.getElem?_set_ne (fun h => hii h.symm)]
  have hc : ∀ i' : Nat, st[i']? = some .cancelled → (st.set i new)[i']? = some .cancelled := by
    intro i' h
    by_cases hii : i' = i
    · subst hii
      rw [ho] at h
      rcases hold with rfl | ⟨k, rfl⟩ <;> cases h
    · rwa [List.getElem?_set_ne (fun h => hii h.symm)]
  have hw : ∀ (i' : Nat) x, x = .waiting ∨ x = .cancelled ∨ x = .queued → st[i']? ≠ some x → (st.set i new)[i']? ≠ some x := by
    intro i' x hx h
    by_cases hii : i' = i
    · subst hii
      rw [List.getElem?_set_self hi]
      rcases hnew with ⟨k, rfl⟩ | ⟨r, rfl⟩ <;> rcases hx with rfl | rfl | rfl <;> simp
    · rwa [List.getElem?_set_ne (fun h => hii h.symm)]
  cases m with
  | submit n =>
    obtain ⟨h1, h2, h3⟩ := h
    refine ⟨h1, ?_, fun i' hi' => ⟨hw i' _ (.inl rfl) (h3 i' hi').1, hw i' _ (.inr (.inl rfl)) (h3 i' hi').2⟩⟩
    intro i' hn hl
    have h4 := h2 i' hn hl
    have hii : i' ≠ i := by
      rintro rfl
      rw [ho] at h4
      rcases hold with rfl | ⟨k, rfl⟩ <;> cases h4
    rwa [List.getElem?_set_ne (fun h => hii h.symm)]
  | await n =>
    obtain ⟨h1, h2⟩ := h
    exact ⟨fun i' hi' => hf i' _ (h1 i' hi'), fun i' => ⟨hw i' _ (.inl rfl) (h2 i').1, hw i' _ (.inr (.inl rfl)) (h2 i').2⟩⟩
  | cancel e n left =>
    obtain ⟨h0, ⟨f, h1, h2⟩, h3, h4, h5⟩ := h
    refine ⟨h0, ⟨f, hf f _ h1, fun i' hi' => hf i' _ (h2 i' hi')⟩, fun i' => hw i' _ (.inl rfl) (h3 i'),
      fun i' hi' => ⟨hw i' _ (.inr (.inl rfl)) (h4 i' hi').1, hw i' _ (.inr (.inr rfl)) (h4 i' hi').2.1, (h4 i' hi').2.2⟩, ?_⟩
    intro i' hi' j hj hp
    exact (h5 i' hi' j hj hp).imp (hc i') id
  | settle e left =>
    obtain ⟨h0, ⟨f, h1, h2⟩, h3, h4, h5⟩ := h
    refine ⟨h0, ⟨f, hf f _ h1, fun i' hi' => hf i' _ (h2 i' hi')⟩, fun i' => hw i' _ (.inl rfl) (h3 i'),
      fun i' hi' => ⟨hw i' _ (.inr (.inl rfl)) (h4 i' hi').1, hw i' _ (.inr (.inr rfl)) (h4 i' hi').2.1, (h4 i' hi').2.2⟩, ?_⟩
    intro i' j hj hp
    rcases h5 i' j hj hp with h | h | ⟨r, h⟩
    · exact .inl (hc i' h)
    · exact .inr (.inl h)
    · exact .inr (.inr ⟨r, hf i' _ h⟩)
  | raised e =>
    obtain ⟨⟨f, h1, h2⟩, h3, h5⟩ := h
    refine ⟨⟨f, hf f _ h1, fun i' hi' => hf i' _ (h2 i' hi')⟩, fun i' => hw i' _ (.inl rfl) (h3 i'), ?_⟩
    intro he i' j hj hp
    rcases h5 he i' j hj hp with h | ⟨r, h⟩
    · exact .inl (hc i' h)
    · exact .inr ⟨r, hf i' _ h⟩
  | returned => exact fun i' hi' => hf i' _ (h i' hi')

theorem runAll_spec (j : Job I E) (before : Text → Option I) : ∀ (fs : List (Option I → Option I)) (k : Nat) (site : Text → Option I)
    (view : Option (Text → Option I)), k + fs.length = opParts j.op → (phases j.op).drop k = fs → site j.key = partly j.op k (before j.key) →
    (∀ k' < k, j.raises k' = none) →
    (∀ k', k' ≠ j.key → (runAll j k fs site view).1 k' = site k') ∧ JobOk before (runAll j k fs site view).1 j (.finished (runAll j k fs site view).2.2)
  | [], k, site, view, hl, hd, hs, hr => by
    have hk : k = opParts j.op := by simpa using hl
    subst hk
    refine ⟨fun _ _ => rfl, ?_⟩
    simp only [runAll, JobOk]
    exact ⟨by rw [hs, partly_all], hr⟩
  | f :: fs, k, site, view, hl, hd, hs, hr => by
    have hk : k < opParts j.op := by simp at hl; omega
    have hf : (phases j.op)[k]? = some f := by
      have : ((phases j.op).drop k)[0]? = some f := by rw [hd]; rfl
      simpa using this
    have hd' : (phases j.op).drop (k + 1) = fs := by rw [← List.tail_drop, hd]; rfl
    unfold runAll
    cases he : j.raises k with
    | some e => exact ⟨fun _ _ => rfl, k, hk, he, hr, hs⟩
    | none =>
      have hi := runAll_spec j before fs (k + 1) (setSite site j.key (f (site j.key))) (viewAfter .caller (f (site j.key)) view)
        (by simp at hl; omega) hd' (by rw [partly_succ j.op k f hf, hs]; simp [setSite])
        (fun k' hk' => by
          by_cases h : k' = k
          · rw [h, he]
          · exact hr k' (by omega))
      refine ⟨fun k' hk' => (hi.1 k' hk').trans ?_, hi.2⟩
      simp [setSite, hk']

theorem Inv.worker {env : Env I E} {before : Text → Option I} {s s' : State I E} (h : Inv env before s) (ha : PlanApart env) (i : Nat)
    (hs : stepWorker env s i = some s') : Inv env before s' := by
  unfold stepWorker at hs
  split at hs
  · rename_i j hj hst
    simp only at hs
    split at hs
    · rename_i hb
      cases hs
      refine h.upd ha hj (fun _ _ => rfl) ?_ ?_ (h.main.worker hst (.inl rfl) (.inl ⟨0, rfl⟩))
      · have := h.jobs i j _ hj hst
        exact ⟨Nat.zero_le _, by rw [partly_zero]; exact this, fun k' hk' => absurd hk' (Nat.not_lt_zero _)⟩
      · intro hp
        rw [hp] at hb
        exact absurd hb.2 (Nat.not_lt_zero _)
    · cases hs
  · rename_i j k hj hst
    obtain ⟨h1, h2, h3⟩ := h.jobs i j _ hj hst
    have hcall : place env.mode env.jobs j ≠ .caller := by
      intro hp
      rcases h.caller i j hj hp with h | ⟨r, h⟩ <;> rw [hst] at h <;> cases h
    split at hs
    · rename_i hf
      cases hs
      have hk : k = opParts j.op := by
        have := List.getElem?_eq_none_iff.1 hf
        rw [phases_length] at this
        omega
      refine h.upd ha hj (fun _ _ => rfl) ⟨?_, ?_⟩ (fun _ => .inr ⟨_, rfl⟩) (h.main.worker hst (.inr ⟨k, rfl⟩) (.inr ⟨_, rfl⟩))
      · rw [h2, hk, partly_all]
      · subst hk
        exact h3
    · rename_i f hf
      have hk : k < opParts j.op := by
        have := (List.getElem?_eq_some_iff.1 hf).1
        rwa [phases_length] at this
      split at hs
      · rename_i e he
        cases hs
        exact h.upd ha hj (fun _ _ => rfl) ⟨k, hk, he, h3, h2⟩ (fun _ => .inr ⟨_, rfl⟩) (h.main.worker hst (.inr ⟨k, rfl⟩) (.inr ⟨_, rfl⟩))
      · rename_i he
        cases hs
        refine h.upd ha hj (fun k' hk' => by simp [setSite, hk']) ⟨hk, ?_, ?_⟩ (fun hp => absurd hp hcall)
          (h.main.worker hst (.inr ⟨k, rfl⟩) (.inl ⟨_, rfl⟩))
        · rw [partly_succ j.op k f hf, ← h2]
          simp [setSite]
        · intro k' hk'
          by_cases h : k' = k
          · rw [h, he]
          · exact h3 k' (by omega)
  · cases hs

theorem Inv.same {env : Env I E} {before : Text → Option I} {s : State I E} (h : Inv env before s) {view' : Option (Text → Option I)} {m : Main E}
    (hm : MainOk env s.status m) : Inv env before ⟨s.site, view', s.status, m⟩ :=
  ⟨h.len, h.others, h.jobs, hm, h.caller⟩

theorem Inv.caller_step {env : Env I E} {before : Text → Option I} {s s' : State I E} (h : Inv env before s) (ha : PlanApart env)
    (hs : stepMain env s = some s') : Inv env before s' := by
  have hm := h.main
  have hlen := h.len
  unfold stepMain at hs
  split at hs
  · -- submit
    rename_i i hmain
    rw [hmain] at hm
    obtain ⟨h1, h2, h3⟩ := hm
    split at hs
    · rename_i hn
      cases hs
      have hi : env.jobs.length ≤ i := List.getElem?_eq_none_iff.1 hn
      refine h.same ⟨fun i' hi' => absurd hi' (Nat.not_lt_zero _), fun i' => ?_⟩
      by_cases hi' : i' < i
      · exact h3 i' hi'
      · rw [List.getElem?_eq_none_iff.2 (by omega)]
        exact ⟨by simp, by simp⟩
    · rename_i j hj
      have hi : i < env.jobs.length := (List.getElem?_eq_some_iff.1 hj).1
      have hw := h2 i (Nat.le_refl _) hi
      have hnew : ∀ new : Status E, new ≠ .waiting → new ≠ .cancelled → MainOk env (s.status.set i new) (.submit (i + 1)) := by
        intro new hn1 hn2
        refine ⟨hi, ?_, ?_⟩
        · intro i' hn hl
          rw [List.getElem?_set_ne (by omega)]
          exact h2 i' (by omega) hl
        · intro i' hi'
          by_cases hii : i' = i
          · subst hii
            rw [List.getElem?_set_self (by omega)]
            exact ⟨by simpa using hn1, by simpa using hn2⟩
          · rw [List.getElem?_set_ne (fun h => hii h.symm)]
            exact h3 i' (by omega)
      split at hs
      · cases hs
        have hr := runAll_spec j before (phases j.op) 0 s.site s.view (by rw [phases_length]; omega) rfl
          (by rw [partly_zero]; exact h.jobs i j _ hj hw) (fun k' hk' => absurd hk' (Nat.not_lt_zero _))
        exact h.upd ha hj hr.1 hr.2 (fun _ => .inr ⟨_, rfl⟩) (hnew _ (by simp) (by simp))
      · rename_i hp
        cases hs
        exact h.upd ha hj (fun _ _ => rfl) (show s.site j.key = before j.key from h.jobs i j .waiting hj hw) (fun hc => absurd hc hp) (hnew _ (by simp) (by simp))
  · -- await
    rename_i i hmain
    rw [hmain] at hm
    obtain ⟨h1, h2⟩ := hm
    split at hs
    · rename_i hn
      cases hs
      have hi : s.status.length ≤ i := List.getElem?_eq_none_iff.1 hn
      exact h.same (fun i' hi' => h1 i' (by omega))
    · rename_i hst
      cases hs
      refine h.same ⟨fun i' hi' => ?_, h2⟩
      by_cases hii : i' = i
      · rw [hii, hst]
      · exact h1 i' (by omega)
    · rename_i e hst
      cases hs
      by_cases he : env.isExc e = true
      · rw [if_pos he]
        exact h.same ⟨he, ⟨i, hst, h1⟩, fun i' => (h2 i').1, fun i' hi' => absurd hi' (by simp), fun i' hi' => absurd hi' (Nat.not_lt_zero _)⟩
      · rw [if_neg he]
        exact h.same ⟨⟨i, hst, h1⟩, fun i' => (h2 i').1, fun h => absurd h he⟩
    · cases hs
  · -- cancel
    rename_i e i left hmain
    rw [hmain] at hm
    obtain ⟨h0, hx, h3, h4, h5⟩ := hm
    split at hs
    · rename_i j st hj hst
      have hi : i < env.jobs.length := (List.getElem?_eq_some_iff.1 hj).1
      have hleft : st ≠ .cancelled → st ≠ .queued → MainOk env s.status (.cancel e (i + 1) (left ++ [i])) := by
        intro hn1 hn2
        refine ⟨h0, hx, h3, ?_, ?_⟩
        · intro i' hi'
          rcases List.mem_append.1 hi' with hi' | hi'
          · exact h4 i' hi'
          · rw [List.mem_singleton.1 hi', hst]
            exact ⟨by simpa using hn1, by simpa using hn2, hi⟩
        · intro i' hi' j' hj' hp'
          by_cases hii : i' = i
          · exact .inr (by simp [hii])
          · exact (h5 i' (by omega) j' hj' hp').imp id (fun h => List.mem_append_left _ h)
      split at hs
      · rename_i hp
        cases hs
        refine h.same ⟨h0, hx, h3, h4, fun i' hi' j' hj' hp' => ?_⟩
        by_cases hii : i' = i
        · subst hii
          rw [hj] at hj'
          cases hj'
          exact absurd hp hp'
        · exact h5 i' (by omega) j' hj' hp'
      · rename_i hp
        cases hs
        rcases h.caller i j hj hp with hw | ⟨r, hw⟩
        · exact absurd hw (h3 i)
        · rw [hst] at hw
          cases hw
          exact h.same (hleft (by simp) (by simp))
      · rename_i hp
        split at hs
        · cases hs
          refine h.upd ha hj (fun _ _ => rfl) (show s.site j.key = before j.key from h.jobs i j .queued hj hst) (fun hc => by rw [hp] at hc; cases hc) ?_
          have hne : ∀ (i' : Nat) x, s.status[i']? = some x → x ≠ .queued → (s.status.set i .cancelled)[i']? = some x := by
            intro i' x h1 h2
            have hii : i' ≠ i := by
              rintro rfl
              rw [hst] at h1
              cases h1
              exact h2 rfl
            rwa [List.getElem?_set_ne (fun h => hii h.symm)]
          obtain ⟨f, hf1, hf2⟩ := hx
          refine ⟨h0, ⟨f, hne f _ hf1 (by simp), fun i' hi' => hne i' _ (hf2 i' hi') (by simp)⟩, ?_, ?_, ?_⟩
          · intro i'
            by_cases hii : i' = i
            · subst hii
              rw [List.getElem?_set_self (by omega)]
              simp
            · rw [List.getElem?_set_ne (fun h => hii h.symm)]
              exact h3 i'
          · intro i' hi'
            have hii : i' ≠ i := by
              rintro rfl
              exact (h4 i' hi').2.1 hst
            rw [List.getElem?_set_ne (fun h => hii h.symm)]
            exact h4 i' hi'
          · intro i' hi' j' hj' hp'
            by_cases hii : i' = i
            · subst hii
              exact .inl (List.getElem?_set_self (by omega))
            · exact (h5 i' (by omega) j' hj' hp').imp (fun h => hne i' _ h (by simp)) id
        · cases hs
          refine h.same ⟨h0, hx, h3, h4, fun i' hi' j' hj' hp' => ?_⟩
          by_cases hii : i' = i
          · exact .inl (by rw [hii, hst])
          · exact h5 i' (by omega) j' hj' hp'
        · rename_i hn1 hn2
          cases hs
          exact h.same (hleft hn2 hn1)
    · rename_i hno
      cases hs
      refine h.same ⟨h0, hx, h3, h4, fun i' j hj hp => ?_⟩
      have hi' : i' < env.jobs.length := (List.getElem?_eq_some_iff.1 hj).1
      have hi : env.jobs.length ≤ i := by
        rcases Nat.lt_or_ge i env.jobs.length with hlt | hge
        · exact absurd (List.getElem?_eq_getElem (by omega : i < s.status.length)) (hno _ _ (List.getElem?_eq_getElem hlt))
        · exact hge
      exact (h5 i' (by omega) j hj hp).imp id Or.inl
  · -- settle
    rename_i e left hmain
    rw [hmain] at hm
    obtain ⟨h0, hx, h3, h4, h5⟩ := hm
    split at hs
    · cases hs
      refine h.same ⟨hx, h3, fun _ i' j hj hp => ?_⟩
      rcases h5 i' j hj hp with h | h | h
      · exact .inl h
      · exact absurd h (by simp)
      · exact .inr h
    · rename_i i left
      split at hs
      · rename_i r hst
        cases hs
        refine h.same ⟨h0, hx, h3, fun i' hi' => h4 i' (List.mem_cons_of_mem _ hi'), fun i' j hj hp => ?_⟩
        rcases h5 i' j hj hp with h | h | h
        · exact .inl h
        · rcases List.mem_cons.1 h with h | h
          · exact .inr (.inr ⟨r, by rw [h, hst]⟩)
          · exact .inr (.inl h)
        · exact .inr (.inr h)
      · cases hs
  · cases hs
  · cases hs

theorem Inv.start (env : Env I E) (before : Text → Option I) : Inv env before (init env before) := by
  refine ⟨by simp [init], fun _ _ => rfl, ?_, ?_, ?_⟩
  · intro i j st hj hst
    simp only [init, List.getElem?_map, hj, Option.map_some, Option.some.injEq] at hst
    subst hst
    rfl
  · refine ⟨Nat.zero_le _, fun i' _ hl => ?_, fun i' hi' => absurd hi' (Nat.not_lt_zero _)⟩
    simp [init, List.getElem?_eq_getElem hl]
  · intro i j hj _
    exact .inl (by simp [init, hj])

theorem Inv.reached {env : Env I E} {before : Text → Option I} (ha : PlanApart env) {s : State I E} (h : PlanReached env before s) :
    Inv env before s := by
  induction h with
  | start => exact Inv.start env before
  | step a hr hs ih =>
    cases a with
    | main => exact ih.caller_step ha hs
    | worker i => exact ih.worker ha i hs

end PlanRun
end Pkm
