import Verif.Concurrency.Cached
set_option linter.unusedVariables false
set_option linter.unusedSimpArgs false
set_option linter.unusedSectionVars false
/-
The invariants of `cached_property`.
-/
namespace Pkm
namespace Conc

variable {V E : Type}

/-- The lock a thread has taken from the dictionary and still uses. -/
def CPC.lock? : CPC V → Option Nat
  | .acquire lk _ | .inside lk _ | .computing lk _ _ | .setting lk _ _ | .releasing lk _ => some lk
  | _ => none

/-- The lock a thread holds. -/
def CPC.holds : CPC V → Option Nat
  | .inside lk _ | .computing lk _ _ | .setting lk _ _ | .releasing lk _ => some lk
  | _ => none

/-- The lock a thread will remove from the dictionary. -/
def CPC.owns : CPC V → Option Nat
  | .acquire lk true | .inside lk true | .computing lk true _ | .setting lk true _ | .releasing lk true => some lk
  | .cleanup lk => some lk
  | _ => none

def CPC.isDel : CPC V → Bool
  | .delCheck | .delAttr => true
  | _ => false

/-- Calls the function or has its result. -/
def CPC.computes : CPC V → Bool
  | .computing .. | .setting .. => true
  | _ => false

def CPC.after : CPC V → Bool
  | .releasing .. | .cleanup _ => true
  | _ => false

def CPC.value? : CPC V → Option V
  | .setting _ _ v => some v
  | _ => none

structure CState.OkA (s : CState V E) (j : Nat) (th : CThread V) : Prop where
  bound : ∀ lk, th.pc.lock? = some lk → lk < s.locks.length
  holds : ∀ lk, th.pc.holds = some lk ↔ s.locks[lk]? = some (some j)
  owns : ∀ lk, th.pc.owns = some lk → s.entry = some lk

structure CState.InvA (s : CState V E) : Prop where
  threads : ∀ j th, s.threads[j]? = some th → s.OkA j th
  holder : ∀ lk j : Nat, s.locks[lk]? = some (some j) → j < s.threads.length
  entry : ∀ lk, s.entry = some lk → lk < s.locks.length
  uniq : ∀ (j : Nat) (th : CThread V) (j' : Nat) (th' : CThread V), s.threads[j]? = some th → s.threads[j']? = some th' →
    th.pc.owns.isSome = true → th'.pc.owns.isSome = true → j = j'
  noKeyError : ∀ i, .keyError i ∉ s.log

theorem InvA.init (progs : List (List COp)) : (CState.init progs : CState V E).InvA := by
  refine ⟨?_, ?_, ?_, ?_, ?_⟩
  · intro j th h
    simp [CState.init] at h
    obtain ⟨p, _, rfl⟩ := h
    refine ⟨?_, ?_, ?_⟩ <;> simp [CPC.lock?, CPC.holds, CPC.owns, CState.init]
  · simp [CState.init]
  · simp [CState.init]
  · intro j th j' th' h h' e
    simp [CState.init] at h
    obtain ⟨p, _, rfl⟩ := h
    simp [CPC.owns] at e
  · simp [CState.init]

theorem start_facts (op : COp) : (CState.start op : CPC V).lock? = none ∧ (CState.start op : CPC V).holds = none ∧
    (CState.start op : CPC V).owns = none ∧ (CState.start op : CPC V).computes = false ∧
    (CState.start op : CPC V).after = false ∧ (CState.start op : CPC V).value? = none := by
  cases op <;> simp [CState.start, CPC.lock?, CPC.holds, CPC.owns, CPC.computes, CPC.after, CPC.value?]

/-- A general step: the thread `i` changes, the locks, the entry and the log change as allowed. -/
theorem CState.InvA.upd {s s' : CState V E} (h : s.InvA) (i : Nat) (th x : CThread V) (hth : s.threads[i]? = some th)
    (ht : s'.threads = s.threads.set i x) (hown : s'.OkA i x)
    (hlen : s.locks.length ≤ s'.locks.length)
    (hlocks : ∀ lk j : Nat, j ≠ i → (s'.locks[lk]? = some (some j) ↔ s.locks[lk]? = some (some j)))
    (hent : ∀ lk, s'.entry = some lk → lk < s'.locks.length)
    (hothers : ∀ (j : Nat) (y : CThread V) (lk : Nat), j ≠ i → s.threads[j]? = some y → y.pc.owns = some lk → s'.entry = some lk)
    (huniq : x.pc.owns.isSome = true → ∀ (j : Nat) (y : CThread V), j ≠ i → s.threads[j]? = some y → y.pc.owns.isSome = false)
    (hlog : ∀ k, .keyError k ∉ s'.log) : s'.InvA := by
  refine ⟨?_, ?_, hent, ?_, hlog⟩
  · rw [ht]
    refine forall_set hth _ hown ?_
    intro j y hj hy
    have ok := h.threads j y hy
    refine ⟨fun lk e => Nat.lt_of_lt_of_le (ok.bound lk e) hlen, fun lk => ?_, fun lk e => hothers j y lk hj hy e⟩
    rw [hlocks lk j hj]; exact ok.holds lk
  · intro lk j hj
    rw [ht, List.length_set]
    by_cases e : j = i
    · subst e; exact lt_of_get hth
    · exact h.holder lk j ((hlocks lk j e).mp hj)
  · intro j y j' y' hj hj' oy oy'
    rw [ht, get_set _ _ _ _ _ hth] at hj hj'
    by_cases e : i = j
    · by_cases e' : i = j'
      · omega
      · rw [if_pos e] at hj; rw [if_neg e'] at hj'
        simp at hj; subst hj
        have := huniq oy j' y' (fun hh => e' hh.symm) hj'
        rw [oy'] at this; cases this
    · by_cases e' : i = j'
      · rw [if_neg e] at hj; rw [if_pos e'] at hj'
        simp at hj'; subst hj'
        have := huniq oy' j y (fun hh => e hh.symm) hj
        rw [oy] at this; cases this
      · rw [if_neg e] at hj; rw [if_neg e'] at hj'
        exact h.uniq j y j' y' hj hj' oy oy'

/-- A step that changes neither the locks nor the entry. -/
theorem CState.InvA.simple {s s' : CState V E} (h : s.InvA) (i : Nat) (th x : CThread V) (hth : s.threads[i]? = some th)
    (ht : s'.threads = s.threads.set i x) (h1 : s'.locks = s.locks) (h2 : s'.entry = s.entry)
    (k1 : ∀ lk, x.pc.lock? = some lk → th.pc.lock? = some lk ∨ s.entry = some lk) (k2 : x.pc.holds = th.pc.holds)
    (k3 : ∀ lk, x.pc.owns = some lk → th.pc.owns = some lk) (hlog : ∀ k, .keyError k ∉ s'.log) : s'.InvA := by
  have ok := h.threads i th hth
  refine h.upd i th x hth ht ⟨?_, ?_, ?_⟩ (by rw [h1]; exact Nat.le_refl _) (by intro lk j _; rw [h1]) ?_ ?_ ?_ hlog
  · intro lk e
    rw [h1]
    rcases k1 lk e with e | e
    · exact ok.bound lk e
    · exact h.entry lk e
  · intro lk; rw [k2, h1]; exact ok.holds lk
  · intro lk e; rw [h2]; exact ok.owns lk (k3 lk e)
  · intro lk e; rw [h1]; rw [h2] at e; exact h.entry lk e
  · intro j y lk _ hy e; rw [h2]; exact (h.threads j y hy).owns lk e
  · intro hx j y hj hy
    cases hy' : y.pc.owns.isSome with
    | false => rfl
    | true =>
      obtain ⟨lk, hlk⟩ := Option.isSome_iff_exists.mp hx
      exact absurd (h.uniq j y i th hy hth hy' (by rw [k3 lk hlk]; rfl)) hj

theorem InvA.step (func : Nat → Except E V) (s s' : CState V E) (i : Nat) (h : s.InvA)
    (hs : s.step func i = some s') : s'.InvA := by
  unfold CState.step at hs
  cases hth : s.threads[i]? with
  | none => rw [hth] at hs; simp at hs
  | some th =>
    rw [hth] at hs
    simp only at hs
    have ok := h.threads i th hth
    have hlg := h.noKeyError
    cases hp : th.pc with
    | run =>
      rw [hp] at hs
      simp only at hs
      cases hprog : th.prog with
      | nil => rw [hprog] at hs; simp at hs
      | cons op rest =>
        rw [hprog] at hs
        simp only [Option.some.injEq] at hs
        subst hs
        obtain ⟨f1, f2, f3, _⟩ := start_facts (V := V) op
        exact h.simple i th ⟨_, rest⟩ hth rfl rfl rfl (by simp [f1]) (by simp only [f2, hp]; rfl) (by simp [f3]) hlg
    | read =>
      rw [hp] at hs
      simp only at hs
      split at hs <;> simp only [Option.some.injEq] at hs <;> subst hs
      all_goals
        refine h.simple i th _ hth rfl rfl rfl (by simp [CPC.lock?]) (by simp [hp, CPC.holds]) (by simp [CPC.owns]) ?_
        simp [CState.say, CState.setPC]
        exact hlg
    | enter =>
      rw [hp] at hs
      simp only at hs
      cases he : s.entry with
      | some lk =>
        rw [he] at hs
        simp only [Option.some.injEq] at hs; subst hs
        refine h.simple i th _ hth rfl rfl rfl (by simp [CPC.lock?, he]) (by simp [hp, CPC.holds]) (by simp [CPC.owns]) hlg
      | none =>
        rw [he] at hs
        simp only [Option.some.injEq] at hs; subst hs
        refine h.upd i th _ hth rfl ⟨?_, ?_, ?_⟩ ?_ ?_ ?_ ?_ ?_ hlg
        · simp [CPC.lock?, CState.setPC]
        · intro lk
          have := ok.holds lk
          rw [hp] at this
          simp [CPC.holds] at this
          simp [CPC.holds, CState.setPC, List.getElem?_append]
          split
          · simpa using this
          · rw [List.getElem?_eq_none (by omega)] at this
            cases hq : ([none] : List (Option Nat))[lk - s.locks.length]? with
            | none => simp
            | some q =>
              have := List.mem_of_getElem? hq
              simp at this; subst this; simp
        · simp [CPC.owns, CState.setPC]
        · simp [CState.setPC]
        · intro lk j _
          simp [CState.setPC, List.getElem?_append]
          split
          · rfl
          · rename_i hge
            have hnn : s.locks[lk]? = none := List.getElem?_eq_none (by omega)
            rw [hnn]
            cases hq : ([none] : List (Option Nat))[lk - s.locks.length]? with
            | none => simp
            | some q =>
              have := List.mem_of_getElem? hq
              simp at this; subst this; simp
        · simp [CState.setPC]
        · intro j y lk _ hy e
          have := (h.threads j y hy).owns lk e
          rw [he] at this; cases this
        · intro _ j y _ hy
          cases hy' : y.pc.owns with
          | none => rfl
          | some lk =>
            have := (h.threads j y hy).owns lk hy'
            rw [he] at this; cases this
    | acquire lk own =>
      rw [hp] at hs
      simp only at hs
      cases hl : s.locks[lk]? with
      | none => rw [hl] at hs; simp at hs
      | some o =>
        rw [hl] at hs
        cases o with
        | some k => simp at hs
        | none =>
          simp only [Option.some.injEq] at hs; subst hs
          have hb := lt_of_get hl
          refine h.upd i th _ hth rfl ⟨?_, ?_, ?_⟩ ?_ ?_ ?_ ?_ ?_ hlg
          · simp [CPC.lock?, CState.setPC, hb]
          · intro lk'
            have := ok.holds lk'
            rw [hp] at this
            simp [CPC.holds] at this
            simp [CPC.holds, CState.setPC]
            rw [get_set _ _ _ _ _ hl]
            by_cases e : lk = lk'
            · simp [e]
            · simp [e, this]
          · intro lk' e
            have := ok.owns lk'
            rw [hp] at this
            cases own <;> simp [CPC.owns] at this e
            simp [CState.setPC]; subst e; exact this rfl
          · simp [CState.setPC]
          · intro lk' j hj
            simp [CState.setPC]
            rw [get_set _ _ _ _ _ hl]
            by_cases e : lk = lk'
            · subst e; simp [hl]; exact fun e => hj e.symm
            · simp [e]
          · intro lk' e
            simp [CState.setPC] at e ⊢
            exact h.entry lk' e
          · intro j y lk' _ hy e
            exact (h.threads j y hy).owns lk' e
          · intro hx j y hj hy
            cases hy' : y.pc.owns.isSome with
            | false => rfl
            | true =>
              refine absurd (h.uniq j y i th hy hth hy' ?_) hj
              rw [hp]; cases own <;> simp [CPC.owns] at hx ⊢
    | inside lk own =>
      rw [hp] at hs
      simp only at hs
      split at hs <;> simp only [Option.some.injEq] at hs <;> subst hs
      all_goals
        refine h.simple i th _ hth rfl rfl rfl (by simp [CPC.lock?, hp]) (by simp [hp, CPC.holds])
          (by rw [hp]; cases own <;> simp [CPC.owns]) ?_
        simp [CState.say, CState.setPC]
        exact hlg
    | computing lk own k =>
      rw [hp] at hs
      simp only at hs
      cases hf : func k with
      | ok v =>
        rw [hf] at hs
        simp only [Option.some.injEq] at hs; subst hs
        refine h.simple i th _ hth rfl rfl rfl (by simp [CPC.lock?, hp]) (by simp [hp, CPC.holds])
          (by rw [hp]; cases own <;> simp [CPC.owns]) ?_
        simp [CState.say, CState.setPC]
        exact hlg
      | error e =>
        rw [hf] at hs
        simp only [Option.some.injEq] at hs; subst hs
        have hheld : s.locks[lk]? = some (some i) := (ok.holds lk).mp (by rw [hp]; rfl)
        refine h.upd i th _ hth rfl ⟨?_, ?_, ?_⟩ ?_ ?_ ?_ ?_ ?_ ?_
        · simp [CPC.lock?]
        · intro lk'
          have := ok.holds lk'
          rw [hp] at this
          simp [CPC.holds] at this
          simp [CPC.holds, CState.setPC, CState.say, CState.unlock]
          rw [get_set _ _ _ _ _ hheld]
          by_cases e : lk = lk'
          · simp [e]
          · simp [e]; exact fun hh => e (this.mpr hh)
        · simp [CPC.owns]
        · simp [CState.setPC, CState.say, CState.unlock]
        · intro lk' j hj
          simp [CState.setPC, CState.say, CState.unlock]
          rw [get_set _ _ _ _ _ hheld]
          by_cases e : lk = lk'
          · subst e; simp [hheld]; exact fun e => hj e.symm
          · simp [e]
        · intro lk' e
          simp [CState.setPC, CState.say, CState.unlock] at e ⊢
          exact h.entry lk' e
        · intro j y lk' _ hy e
          exact (h.threads j y hy).owns lk' e
        · simp [CPC.owns]
        · simp [CState.say, CState.setPC, CState.unlock]
          exact hlg
    | setting lk own v =>
      rw [hp] at hs
      simp only [Option.some.injEq] at hs; subst hs
      exact h.simple i th _ hth rfl rfl rfl (by simp [CPC.lock?, hp]) (by simp [hp, CPC.holds])
          (by rw [hp]; cases own <;> simp [CPC.owns]) hlg
    | releasing lk own =>
      rw [hp] at hs
      simp only [Option.some.injEq] at hs; subst hs
      have hheld : s.locks[lk]? = some (some i) := (ok.holds lk).mp (by rw [hp]; rfl)
      have e1 : (if own then CPC.cleanup lk else CPC.read : CPC V).holds = none := by cases own <;> rfl
      have e2 : (if own then CPC.cleanup lk else CPC.read : CPC V).lock? = none := by cases own <;> rfl
      have e3 : (if own then CPC.cleanup lk else CPC.read : CPC V).owns = th.pc.owns := by rw [hp]; cases own <;> rfl
      refine h.upd i th _ hth rfl ⟨?_, ?_, ?_⟩ ?_ ?_ ?_ ?_ ?_ ?_
      · simp [e2]
      · intro lk'
        have := ok.holds lk'
        rw [hp] at this
        simp [CPC.holds] at this
        simp [e1, CState.setPC, CState.say, CState.unlock]
        rw [get_set _ _ _ _ _ hheld]
        by_cases e : lk = lk'
        · simp [e]
        · simp [e]; exact fun hh => e (this.mpr hh)
      · simp only [e3]; exact ok.owns
      · simp [CState.setPC, CState.say, CState.unlock]
      · intro lk' j hj
        simp [CState.setPC, CState.say, CState.unlock]
        rw [get_set _ _ _ _ _ hheld]
        by_cases e : lk = lk'
        · subst e; simp [hheld]; exact fun e => hj e.symm
        · simp [e]
      · intro lk' e
        simp [CState.setPC, CState.say, CState.unlock] at e ⊢
        exact h.entry lk' e
      · intro j y lk' _ hy e
        exact (h.threads j y hy).owns lk' e
      · simp only [e3]
        intro hx j y hj hy
        cases hy' : y.pc.owns.isSome with
        | false => rfl
        | true => exact absurd (h.uniq j y i th hy hth hy' hx) hj
      · exact hlg
    | cleanup lk =>
      rw [hp] at hs
      simp only at hs
      have hent : s.entry = some lk := ok.owns lk (by rw [hp]; rfl)
      rw [hent] at hs
      simp only [Option.some.injEq] at hs; subst hs
      refine h.upd i th _ hth rfl ⟨?_, ?_, ?_⟩ ?_ ?_ ?_ ?_ ?_ ?_
      · simp [CPC.lock?]
      · intro lk'
        have := ok.holds lk'
        rw [hp] at this
        simpa [CPC.holds, CState.setPC] using this
      · simp [CPC.owns]
      · simp [CState.setPC]
      · intro lk' j hj; simp [CState.setPC]
      · intro lk' e; simp [CState.setPC] at e
      · intro j y lk' hj hy e
        exact absurd (h.uniq j y i th hy hth (by rw [e]; rfl) (by rw [hp]; rfl)) hj
      · simp [CPC.owns]
      · exact hlg
    | delCheck =>
      rw [hp] at hs
      simp only at hs
      split at hs <;> simp only [Option.some.injEq] at hs <;> subst hs
      all_goals
        exact h.simple i th _ hth rfl rfl rfl (by simp [CPC.lock?]) (by simp [hp, CPC.holds]) (by simp [CPC.owns]) hlg
    | delAttr =>
      rw [hp] at hs
      simp only at hs
      split at hs <;> simp only [Option.some.injEq] at hs <;> subst hs
      all_goals
        refine h.simple i th _ hth rfl rfl rfl (by simp [CPC.lock?]) (by simp [hp, CPC.holds]) (by simp [CPC.owns]) ?_
        simp [CState.say, CState.setPC]
        exact hlg

theorem InvA.reach {func : Nat → Except E V} {progs : List (List COp)} {s : CState V E}
    (h : CReach func (CState.init progs) s) : s.InvA := by
  induction h with
  | start => exact InvA.init progs
  | next i _ hs ih => exact InvA.step func _ _ i ih hs

end Conc
end Pkm
