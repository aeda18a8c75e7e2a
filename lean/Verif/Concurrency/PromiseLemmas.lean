import Verif.Concurrency.Promise
set_option linter.unusedVariables false
set_option linter.unusedSimpArgs false
set_option linter.unusedSectionVars false
/-
The invariant of `_SimplePromise`.
-/
namespace Pkm
namespace Conc

variable {V E L : Type}

/-- Inside of a critical section. -/
def PC.inLock : PC V E L → Bool
  | .check _ | .write _ | .setDone _ | .notifyAll | .take | .listenIn _ | .resultIn _ => true
  | _ => false

/-- Where the holder of the lock is. -/
def PState.cur (s : PState V E L) : Option (PC V E L) := s.lock.bind (fun i => s.threads[i]?.map (·.pc))

/-- The fields say `o`. -/
def PState.matchesOut (s : PState V E L) : Outcome V E → Prop
  | .value v => s.result = some v ∧ s.err = none
  | .error e => s.err = some e ∧ s.result = none

def Ev.isCompleted : Ev V E L → Bool
  | .completed _ => true
  | _ => false

def Ev.needsDone : Ev V E L → Bool
  | .completed _ | .called _ | .got _ _ | .gotNone _ | .rejected _ => true
  | _ => false

/-- What holds for a thread. -/
def PState.threadOk (s : PState V E L) (j : Nat) (th : Thread V E L) : Prop :=
  (th.pc.inLock = true ↔ s.lock = some j) ∧
  match th.pc with
  | .write _ => s.done = false ∧ s.result = none ∧ s.err = none
  | .setDone o => s.done = false ∧ s.matchesOut o
  | .notifyAll => s.done = true ∧ s.listeners.isSome = true
  | .take => s.done = true ∧ s.listeners.isSome = true
  | .call _ => s.done = true
  | .waiting => s.done = false ∨ s.cur = some .notifyAll
  | _ => True

structure PState.Inv (truthy : E → Bool) (s : PState V E L) : Prop where
  threads : ∀ j th, s.threads[j]? = some th → s.threadOk j th
  holder : ∀ i, s.lock = some i → i < s.threads.length
  open_ : s.done = false → s.listeners.isSome = true ∧ (∀ e ∈ s.log, e.needsDone = false) ∧
    ((s.result = none ∧ s.err = none) ∨ ∃ o, s.cur = some (.setDone o))
  closed : s.done = true → (s.listeners = none ∨ s.cur = some .notifyAll ∨ s.cur = some .take) ∧
    ∃ o, s.matchesOut o ∧ s.log.filter Ev.isCompleted = [.completed o]
  order : ∀ a b l, s.log = a ++ .called l :: b → ∃ o, .completed o ∈ b
  got : ∀ i o, .got i o ∈ s.log → s.done = true ∧ s.outcome truthy = some o
  gotNone : ∀ i, .gotNone i ∈ s.log → s.done = true ∧ s.outcome truthy = none
  noCrash : ∀ i, .crash i ∉ s.log

theorem get_set {A : Type} (l : List A) (i j : Nat) (x a : A) (h : l[i]? = some a) :
    (l.set i x)[j]? = if i = j then some x else l[j]? := by
  rw [List.getElem?_set]
  by_cases e : i = j
  · subst e
    have : i < l.length := by
      rw [List.getElem?_eq_some_iff] at h; exact h.1
    simp [this]
  · simp [e]

theorem lt_of_get {A : Type} {l : List A} {i : Nat} {a : A} (h : l[i]? = some a) : i < l.length := by
  rw [List.getElem?_eq_some_iff] at h; exact h.1

theorem Inv.init (truthy : E → Bool) (progs : List (List (POp V E L))) : (PState.init progs).Inv truthy := by
  refine ⟨?_, ?_, ?_, ?_, ?_, ?_, ?_, ?_⟩
  · intro j th h
    simp [PState.init] at h
    obtain ⟨p, _, rfl⟩ := h
    simp [PState.threadOk, PC.inLock, PState.init]
  · simp [PState.init]
  · intro _; simp [PState.init]
  · simp [PState.init]
  · simp [PState.init]
  · simp [PState.init]
  · simp [PState.init]
  · simp [PState.init]

/-- The part of the invariant about events, for a new event that needs nothing. -/
theorem order_cons {log : List (Ev V E L)} {e : Ev V E L} (h : ∀ a b l, log = a ++ .called l :: b → ∃ o, .completed o ∈ b)
    (he : ∀ l, e = .called l → ∃ o, .completed o ∈ log) :
    ∀ a b l, e :: log = a ++ .called l :: b → ∃ o, .completed o ∈ b := by
  intro a b l hab
  cases a with
  | nil =>
    simp at hab
    obtain ⟨h1, rfl⟩ := hab
    exact he l h1
  | cons x a =>
    simp at hab
    exact h a b l hab.2


theorem threadOk_carry {s s' : PState V E L} {j : Nat} {th : Thread V E L} (h : s.threadOk j th)
    (hn : th.pc.inLock = false) (hd : s.done = true → s'.done = true)
    (hw : (s.done = false ∨ s.cur = some .notifyAll) → (s'.done = false ∨ s'.cur = some .notifyAll))
    (hl : s'.lock ≠ some j) : s'.threadOk j th := by
  obtain ⟨_, h2⟩ := h
  refine ⟨?_, ?_⟩
  · rw [hn]; simp [hl]
  · cases hpc : th.pc <;> rw [hpc] at h2 hn <;> simp [PC.inLock] at hn <;> simp only at h2 ⊢
    · exact hd h2
    · exact hw h2

theorem threadOk_same {s s' : PState V E L} {j : Nat} {th : Thread V E L} (h : s.threadOk j th)
    (h1 : s'.lock = s.lock) (h2 : s'.done = s.done) (h3 : s'.result = s.result) (h4 : s'.err = s.err)
    (h5 : s'.listeners = s.listeners) (h6 : s'.cur = s.cur) : s'.threadOk j th := by
  obtain ⟨a, b⟩ := h
  refine ⟨by rw [h1]; exact a, ?_⟩
  cases hpc : th.pc <;> rw [hpc] at b <;> simp only [h2, h3, h4, h5, h6] at b ⊢ <;> try exact b
  case setDone o =>
    refine ⟨b.1, ?_⟩
    cases o <;> simp only [PState.matchesOut, h3, h4] at b ⊢ <;> exact b.2

/-- The threads after an update of one of them. -/
theorem forall_set {A : Type} {l : List A} {i : Nat} {x a : A} (h : l[i]? = some a) (P : Nat → A → Prop)
    (h1 : P i x) (h2 : ∀ j y, j ≠ i → l[j]? = some y → P j y) :
    ∀ j y, (l.set i x)[j]? = some y → P j y := by
  intro j y hy
  rw [get_set _ _ _ _ _ h] at hy
  by_cases e : i = j
  · subst e; simp at hy; subst hy; exact h1
  · rw [if_neg e] at hy
    exact h2 j y (fun hh => e hh.symm) hy

theorem notIn_of_free {s : PState V E L} {j : Nat} {th : Thread V E L} (h : s.threadOk j th) (hl : s.lock ≠ some j) :
    th.pc.inLock = false := by
  cases hh : th.pc.inLock with
  | false => rfl
  | true => exact absurd (h.1.mp hh) hl

/-- Steps that only take the lock. -/
theorem PState.Inv.acquire {truthy : E → Bool} {s : PState V E L} {i : Nat} (h : s.Inv truthy) (x th : Thread V E L)
    (hth : s.threads[i]? = some th) (hfree : s.lock = none) (hx : x.pc.inLock = true)
    (hx2 : match x.pc with | .check _ | .listenIn _ | .resultIn _ => True | _ => False) :
    PState.Inv truthy { s with lock := some i, threads := s.threads.set i x } := by
  have hc0 : s.cur = none := by simp [PState.cur, hfree]
  have hcn : PState.cur { s with lock := some i, threads := s.threads.set i x } = some x.pc := by
    simp only [PState.cur, Option.bind_some]
    rw [get_set _ _ _ _ _ hth]; simp
  refine ⟨?_, ?_, ?_, ?_, h.order, h.got, h.gotNone, h.noCrash⟩
  · refine forall_set hth _ ?_ ?_
    · refine ⟨by simp [hx], ?_⟩
      revert hx2
      cases x.pc <;> simp
    · intro j y hj hy
      have ok := h.threads j y hy
      refine threadOk_carry ok (notIn_of_free ok (by simp [hfree])) id ?_ ?_
      · intro hw
        rcases hw with hw | hw
        · exact Or.inl hw
        · rw [hc0] at hw; cases hw
      · simp; exact fun e => hj e.symm
  · intro k hk
    simp at hk ⊢
    subst hk
    exact lt_of_get hth
  · intro hd
    obtain ⟨a, b, c⟩ := h.open_ hd
    refine ⟨a, b, ?_⟩
    rcases c with c | ⟨o, c⟩
    · exact Or.inl c
    · rw [hc0] at c; cases c
  · intro hd
    obtain ⟨a, b⟩ := h.closed hd
    refine ⟨?_, b⟩
    rw [hc0] at a
    rcases a with a | a | a
    · exact Or.inl a
    · cases a
    · cases a

/-- Leaving a critical section other than the completing ones, with the log extended by harmless events. -/
theorem PState.Inv.release {truthy : E → Bool} {s : PState V E L} {i : Nat} (h : s.Inv truthy) (th : Thread V E L)
    (hth : s.threads[i]? = some th) (hheld : s.lock = some i) (pc : PC V E L)
    (hpc : match th.pc with | .check _ | .listenIn _ | .resultIn _ => True | _ => False)
    (hn : match pc with | .run => True | .call _ => s.done = true | .waiting => s.done = false | _ => False)
    (ls : Option (List L)) (hls : s.done = true → ls = s.listeners) (hls2 : s.done = false → ls.isSome = true) (evs : List (Ev V E L))
    (hev : ∀ e ∈ evs, match e with
      | .notYet _ => True
      | .rejected _ => s.done = true
      | .got _ o => s.done = true ∧ s.outcome truthy = some o
      | .gotNone _ => s.done = true ∧ s.outcome truthy = none
      | _ => False) :
    PState.Inv truthy { s with lock := none, listeners := ls, threads := s.threads.set i { th with pc := pc }, log := evs ++ s.log } := by
  have hc0 : s.cur = some th.pc := by simp [PState.cur, hheld, hth]
  have hcn : PState.cur { s with lock := none, listeners := ls, threads := s.threads.set i { th with pc := pc }, log := evs ++ s.log } = none := rfl
  have hne1 : s.cur ≠ some .notifyAll := by
    rw [hc0]; intro e; simp at e; rw [e] at hpc; exact hpc
  have hne2 : s.cur ≠ some .take := by
    rw [hc0]; intro e; simp at e; rw [e] at hpc; exact hpc
  have hne3 : ∀ o, s.cur ≠ some (.setDone o) := by
    intro o; rw [hc0]; intro e; simp at e; rw [e] at hpc; exact hpc
  refine ⟨?_, ?_, ?_, ?_, ?_, ?_, ?_, ?_⟩
  · refine forall_set hth _ ?_ ?_
    · refine ⟨?_, ?_⟩
      · revert hn; cases pc <;> simp [PC.inLock]
      · revert hn; cases pc <;> simp
        · intro hd; exact Or.inl hd
    · intro j y hj hy
      have ok := h.threads j y hy
      refine threadOk_carry ok (notIn_of_free ok ?_) id ?_ (by simp)
      · rw [hheld]; simp; exact fun e => hj e.symm
      · intro hw
        rcases hw with hw | hw
        · exact Or.inl hw
        · exact absurd hw hne1
  · intro k hk; simp at hk
  · intro hd
    obtain ⟨a, b, c⟩ := h.open_ hd
    refine ⟨hls2 hd, ?_, ?_⟩
    · intro e he
      simp at he
      rcases he with he | he
      · have := hev e he
        have hd' : s.done = false := hd
        revert this
        cases e <;> simp [Ev.needsDone, hd']
      · exact b e he
    · rcases c with c | ⟨o, c⟩
      · exact Or.inl c
      · exact absurd c (hne3 o)
  · intro hd
    obtain ⟨a, o, b1, b2⟩ := h.closed hd
    refine ⟨?_, o, ?_, ?_⟩
    · left
      rcases a with a | a | a
      · simp only; rw [hls hd]; exact a
      · exact absurd a hne1
      · exact absurd a hne2
    · cases o <;> exact b1
    · simp only [List.filter_append, b2]
      have : evs.filter Ev.isCompleted = [] := by
        rw [List.filter_eq_nil_iff]
        intro e he
        have := hev e he
        revert this
        cases e <;> simp [Ev.isCompleted]
      simp [this]
  · have : ∀ evs : List (Ev V E L), (∀ e ∈ evs, ∀ l, e ≠ .called l) →
        ∀ a b l, evs ++ s.log = a ++ .called l :: b → ∃ o, .completed o ∈ b := by
      intro evs
      induction evs with
      | nil => intro _; exact h.order
      | cons e evs ih =>
        intro hh
        refine order_cons (ih (fun e he => hh e (List.mem_cons_of_mem _ he))) ?_
        intro l el
        exact absurd el (hh e List.mem_cons_self l)
    refine this evs ?_
    intro e he l el
    have := hev e he
    rw [el] at this
    exact this
  · intro k o hk
    simp at hk
    rcases hk with hk | hk
    · have := hev _ hk
      exact this
    · exact h.got k o hk
  · intro k hk
    simp at hk
    rcases hk with hk | hk
    · have := hev _ hk
      exact this
    · exact h.gotNone k hk
  · intro k hk
    simp at hk
    rcases hk with hk | hk
    · exact hev _ hk
    · exact h.noCrash k hk

theorem Inv.step (truthy : E → Bool) (s s' : PState V E L) (i : Nat) (h : s.Inv truthy)
    (hs : s.step truthy i = some s') : s'.Inv truthy := by
  unfold PState.step at hs
  cases hth : s.threads[i]? with
  | none => rw [hth] at hs; simp at hs
  | some th =>
    rw [hth] at hs
    simp only at hs
    have hlt := lt_of_get hth
    obtain ⟨hlk, hpc⟩ := h.threads i th hth
    have hcur : th.pc.inLock = true → s.cur = some th.pc := by
      intro hl
      rw [hlk] at hl
      simp [PState.cur, hl, hth]
    have hself : ∀ (x : Thread V E L), ((some i).bind (fun k => (s.threads.set i x)[k]?.map (·.pc))) = some x.pc := by
      intro x
      simp only [Option.bind_some]
      rw [get_set _ _ _ _ _ hth]; simp
    cases hp : th.pc with
    | run =>
      rw [hp] at hs
      simp only at hs
      cases hprog : th.prog with
      | nil => rw [hprog] at hs; simp at hs
      | cons op rest =>
        rw [hprog] at hs
        simp only at hs
        cases hl : s.lock with
        | some k => rw [hl] at hs; simp at hs
        | none =>
          rw [hl] at hs
          simp at hs
          subst hs
          refine h.acquire _ th hth hl ?_ ?_
          · cases op <;> rfl
          · cases op <;> trivial
    | check o =>
      rw [hp] at hs hlk hpc hcur
      have hheld := hlk.mp rfl
      simp only at hs
      cases hd : s.done with
      | true =>
        rw [hd] at hs
        simp at hs
        subst hs
        have := h.release th hth hheld .run (by rw [hp]; trivial) trivial s.listeners (fun _ => rfl)
          (fun e => by rw [hd] at e; cases e) [.rejected i] (by simp [hd])
        exact this
      | false =>
        rw [hd] at hs
        simp at hs
        subst hs
        obtain ⟨a, b, c⟩ := h.open_ hd
        have hclean : s.result = none ∧ s.err = none := by
          rcases c with c | ⟨o', c⟩
          · exact c
          · rw [hcur rfl] at c; cases c
        refine ⟨?_, ?_, ?_, ?_, h.order, h.got, h.gotNone, h.noCrash⟩
        · refine forall_set hth _ ?_ ?_
          · refine ⟨by simp [PC.inLock, PState.setPC, hheld], hd, hclean⟩
          · intro j y hj hy
            have ok := h.threads j y hy
            have hne : s.lock ≠ some j := by rw [hheld]; simp; exact fun e => hj e.symm
            exact threadOk_carry ok (notIn_of_free ok hne) id (fun _ => Or.inl hd) hne
        · intro k hk
          simp [PState.setPC]
          exact h.holder k hk
        · intro _
          exact ⟨a, b, Or.inl hclean⟩
        · intro hd'
          exact absurd hd' (by simp [PState.setPC, hd])
    | write o =>
      rw [hp] at hs hlk hpc hcur
      have hheld := hlk.mp rfl
      obtain ⟨hd, hr, he⟩ := hpc
      obtain ⟨a, b, c⟩ := h.open_ hd
      have key : ∀ s1 : PState V E L, s1.lock = some i → s1.done = false → s1.matchesOut o →
          s1.threads = s.threads.set i { th with pc := .setDone o } → s1.log = s.log → s1.listeners = s.listeners →
          s1.Inv truthy := by
        intro s1 k1 k2 k3 k4 k5 k6
        have hc1 : s1.cur = some (.setDone o) := by
          unfold PState.cur; rw [k1, k4]; exact hself _
        refine ⟨?_, ?_, ?_, ?_, ?_, ?_, ?_, ?_⟩
        · rw [k4]
          refine forall_set hth _ ?_ ?_
          · exact ⟨by simp [PC.inLock, k1], k2, k3⟩
          · intro j y hj hy
            have ok := h.threads j y hy
            have hne : s.lock ≠ some j := by rw [hheld]; simp; exact fun e => hj e.symm
            exact threadOk_carry ok (notIn_of_free ok hne) (fun e => by rw [hd] at e; cases e)
              (fun _ => Or.inl k2) (by rw [k1, ← hheld]; exact hne)
        · intro k hk
          rw [k4]; simp
          rw [k1, ← hheld] at hk
          exact h.holder k hk
        · intro _
          refine ⟨by rw [k6]; exact a, by rw [k5]; exact b, Or.inr ⟨o, hc1⟩⟩
        · intro e; rw [k2] at e; cases e
        · rw [k5]; exact h.order
        · intro k o' hk
          rw [k5] at hk
          have := h.got k o' hk
          rw [hd] at this; cases this.1
        · intro k hk
          rw [k5] at hk
          have := h.gotNone k hk
          rw [hd] at this; cases this.1
        · rw [k5]; exact h.noCrash
      cases o with
      | value v =>
        simp only [Option.some.injEq] at hs; subst hs
        exact key _ hheld hd ⟨rfl, he⟩ rfl rfl rfl
      | error e =>
        simp only [Option.some.injEq] at hs; subst hs
        exact key _ hheld hd ⟨rfl, hr⟩ rfl rfl rfl
    | setDone o =>
      rw [hp] at hs hlk hpc hcur
      have hheld := hlk.mp rfl
      obtain ⟨hd, hm⟩ := hpc
      obtain ⟨a, b, c⟩ := h.open_ hd
      simp only [Option.some.injEq] at hs; subst hs
      have hc1 : PState.cur ((({ s with done := true }).setPC i th .notifyAll).say (.completed o)) = some .notifyAll := by
        unfold PState.cur PState.say PState.setPC; simp only [hheld]; exact hself _
      have hnc : s.log.filter Ev.isCompleted = [] := by
        rw [List.filter_eq_nil_iff]
        intro e he
        have := b e he
        revert this
        cases e <;> simp [Ev.isCompleted, Ev.needsDone]
      refine ⟨?_, ?_, ?_, ?_, ?_, ?_, ?_, ?_⟩
      · refine forall_set hth _ ?_ ?_
        · exact ⟨by simp [PC.inLock, PState.say, PState.setPC, hheld], rfl, a⟩
        · intro j y hj hy
          have ok := h.threads j y hy
          have hne : s.lock ≠ some j := by rw [hheld]; simp; exact fun e => hj e.symm
          exact threadOk_carry ok (notIn_of_free ok hne) (fun e => rfl) (fun _ => Or.inr hc1) hne
      · intro k hk
        simp [PState.setPC, PState.say]
        exact h.holder k hk
      · intro e; cases e
      · intro _
        refine ⟨Or.inr (Or.inl hc1), o, ?_, ?_⟩
        · cases o <;> exact hm
        · simp [PState.say, PState.setPC, Ev.isCompleted, List.filter_cons]
          intro e he
          have := b e he
          revert this
          cases e <;> simp [Ev.needsDone]
      · refine order_cons h.order ?_
        intro l e; cases e
      · intro k o' hk
        simp [PState.say, PState.setPC] at hk
        have := h.got k o' hk
        rw [hd] at this; cases this.1
      · intro k hk
        simp [PState.say, PState.setPC] at hk
        have := h.gotNone k hk
        rw [hd] at this; cases this.1
      · intro k hk
        simp [PState.say, PState.setPC] at hk
        exact h.noCrash k hk
    | notifyAll =>
      rw [hp] at hs hlk hpc hcur
      have hheld := hlk.mp rfl
      obtain ⟨hd, hsome⟩ := hpc
      simp only [Option.some.injEq] at hs; subst hs
      have hth2 : (s.threads.map PState.wake)[i]? = some (PState.wake th) := by simp [hth]
      have hc1 : PState.cur (({ s with threads := s.threads.map PState.wake }).setPC i th .take) = some .take := by
        unfold PState.cur PState.setPC
        simp only [hheld, Option.bind_some]
        rw [get_set _ _ _ _ _ hth2]; simp
      refine ⟨?_, ?_, ?_, ?_, h.order, h.got, h.gotNone, h.noCrash⟩
      · refine forall_set hth2 _ ?_ ?_
        · exact ⟨by simp [PC.inLock, PState.setPC, hheld], hd, hsome⟩
        · intro j y hj hy
          simp at hy
          obtain ⟨y0, hy0, rfl⟩ := hy
          have ok := h.threads j y0 hy0
          have hne : s.lock ≠ some j := by rw [hheld]; simp; exact fun e => hj e.symm
          have hn := notIn_of_free ok hne
          unfold PState.wake
          cases hpy : y0.pc with
          | waiting =>
            refine ⟨?_, trivial⟩
            simp [PC.inLock, PState.setPC, hheld]
            exact fun e => hj e.symm
          | _ =>
            rw [hpy] at hn
            first
              | (exfalso; simp [PC.inLock] at hn; done)
              | (obtain ⟨o1, o2⟩ := ok
                 refine ⟨o1, ?_⟩
                 rw [hpy] at o2 ⊢
                 exact o2)
      · intro k hk
        simp [PState.setPC]
        exact h.holder k hk
      · intro e
        exact absurd e (by simp [PState.setPC, hd])
      · intro _
        obtain ⟨_, o, b1, b2⟩ := h.closed hd
        refine ⟨Or.inr (Or.inr hc1), o, ?_, b2⟩
        cases o <;> exact b1
    | take =>
      rw [hp] at hs hlk hpc hcur
      have hheld := hlk.mp rfl
      obtain ⟨hd, hsome⟩ := hpc
      simp only at hs
      cases hls : s.listeners with
      | none => rw [hls] at hsome; cases hsome
      | some ls =>
        rw [hls] at hs
        simp only [Option.some.injEq] at hs; subst hs
        refine ⟨?_, ?_, ?_, ?_, h.order, h.got, h.gotNone, h.noCrash⟩
        · refine forall_set hth _ ?_ ?_
          · exact ⟨by simp [PC.inLock, PState.leave], hd⟩
          · intro j y hj hy
            have ok := h.threads j y hy
            have hne : s.lock ≠ some j := by rw [hheld]; simp; exact fun e => hj e.symm
            refine threadOk_carry ok (notIn_of_free ok hne) (fun e => e) ?_ (by simp [PState.leave])
            intro hw
            rw [hd, hcur rfl] at hw
            simp at hw
        · intro k hk; simp [PState.leave] at hk
        · intro e
          exact absurd e (by simp [PState.leave, hd])
        · intro _
          obtain ⟨_, o, b1, b2⟩ := h.closed hd
          refine ⟨Or.inl rfl, o, ?_, b2⟩
          cases o <;> exact b1
    | call ls =>
      rw [hp] at hs hlk hpc hcur
      have hne : s.lock ≠ some i := by
        intro e; have := hlk.mpr e; cases this
      have hd : s.done = true := hpc
      obtain ⟨c1, o, b1, b2⟩ := h.closed hd
      have key : ∀ pc : PC V E L, (pc = .run ∨ ∃ ls, pc = .call ls) → (s.setPC i th pc).Inv truthy := by
        intro pc hpc'
        have hc1 : (s.setPC i th pc).cur = s.cur := by
          unfold PState.cur PState.setPC
          cases hk : s.lock with
          | none => rfl
          | some k =>
            simp only [Option.bind_some]
            rw [get_set _ _ _ _ _ hth, if_neg]
            rintro rfl; exact hne hk
        refine ⟨?_, ?_, ?_, ?_, h.order, h.got, h.gotNone, h.noCrash⟩
        · refine forall_set hth _ ?_ ?_
          · rcases hpc' with rfl | ⟨ls', rfl⟩
            · exact ⟨by simp [PC.inLock, PState.setPC, hne], trivial⟩
            · exact ⟨by simp [PC.inLock, PState.setPC, hne], hd⟩
          · intro j y hj hy
            exact threadOk_same (h.threads j y hy) rfl rfl rfl rfl rfl hc1
        · intro k hk
          simp [PState.setPC]
          exact h.holder k hk
        · intro e
          exact absurd e (by simp [PState.setPC, hd])
        · intro _
          rw [hc1]
          refine ⟨c1, o, ?_, b2⟩
          cases o <;> exact b1
      cases ls with
      | nil =>
        simp only [Option.some.injEq] at hs; subst hs
        exact key .run (Or.inl rfl)
      | cons l ls =>
        simp only [Option.some.injEq] at hs; subst hs
        have h1 := key (.call ls) (Or.inr ⟨ls, rfl⟩)
        have hmem : Ev.completed o ∈ s.log := by
          have : Ev.completed o ∈ s.log.filter Ev.isCompleted := by rw [b2]; simp
          exact (List.mem_filter.mp this).1
        refine ⟨?_, h1.holder, ?_, ?_, ?_, ?_, ?_, ?_⟩
        · intro j y hy
          exact threadOk_same (h1.threads j y hy) rfl rfl rfl rfl rfl rfl
        · intro e
          exact absurd e (by simp [PState.say, PState.setPC, hd])
        · intro hd'
          obtain ⟨d1, o', d2, d3⟩ := h1.closed hd'
          refine ⟨d1, o', ?_, ?_⟩
          · cases o' <;> exact d2
          · simp [PState.say, Ev.isCompleted, List.filter_cons] at d3 ⊢
            exact d3
        · refine order_cons h1.order ?_
          intro l' _
          exact ⟨o, hmem⟩
        · intro k o' hk
          simp [PState.say, PState.setPC] at hk
          exact h.got k o' hk
        · intro k hk
          simp [PState.say, PState.setPC] at hk
          exact h.gotNone k hk
        · intro k hk
          simp [PState.say, PState.setPC] at hk
          exact h.noCrash k hk
    | listenIn l =>
      rw [hp] at hs hlk hpc hcur
      have hheld := hlk.mp rfl
      simp only at hs
      cases hd : s.done with
      | true =>
        rw [hd] at hs
        simp at hs
        subst hs
        have := h.release th hth hheld (.call [l]) (by rw [hp]; trivial) hd s.listeners (fun _ => rfl)
          (fun e => by rw [hd] at e; cases e) [] (by simp)
        exact this
      | false =>
        rw [hd] at hs
        simp only [Bool.false_eq_true, if_false] at hs
        obtain ⟨a, b, c⟩ := h.open_ hd
        cases hls : s.listeners with
        | none => rw [hls] at a; cases a
        | some ls =>
          rw [hls] at hs
          simp only [Option.some.injEq] at hs; subst hs
          have := h.release th hth hheld .run (by rw [hp]; trivial) trivial (some (ls ++ [l]))
            (fun e => by rw [hd] at e; cases e) (fun _ => rfl) [] (by simp)
          rw [hd] at this
          exact this
    | resultIn w =>
      rw [hp] at hs hlk hpc hcur
      have hheld := hlk.mp rfl
      simp only at hs
      cases hd : s.done with
      | true =>
        rw [hd] at hs
        simp only [if_true] at hs
        cases ho : s.outcome truthy with
        | some o =>
          rw [ho] at hs
          simp only [Option.some.injEq] at hs; subst hs
          have := h.release th hth hheld .run (by rw [hp]; trivial) trivial s.listeners (fun _ => rfl)
            (fun e => by rw [hd] at e; cases e) [.got i o] (by simp [hd, ho])
          exact this
        | none =>
          rw [ho] at hs
          simp only [Option.some.injEq] at hs; subst hs
          have := h.release th hth hheld .run (by rw [hp]; trivial) trivial s.listeners (fun _ => rfl)
            (fun e => by rw [hd] at e; cases e) [.gotNone i] (by simp [hd, ho])
          exact this
      | false =>
        rw [hd] at hs
        simp only [Bool.false_eq_true, if_false] at hs
        obtain ⟨a, b, c⟩ := h.open_ hd
        cases w with
        | true =>
          simp only [if_true, Option.some.injEq] at hs; subst hs
          have := h.release th hth hheld .waiting (by rw [hp]; trivial) hd s.listeners
            (fun _ => rfl) (fun _ => a) [] (by simp)
          exact this
        | false =>
          simp only [Bool.false_eq_true, if_false, Option.some.injEq] at hs; subst hs
          have := h.release th hth hheld .run (by rw [hp]; trivial) trivial s.listeners
            (fun _ => rfl) (fun _ => a) [.notYet i] (by simp)
          exact this
    | waiting => rw [hp] at hs; simp at hs
    | retry =>
      rw [hp] at hs
      simp only at hs
      cases hl : s.lock with
      | some k => rw [hl] at hs; simp at hs
      | none =>
        rw [hl] at hs
        simp at hs
        subst hs
        exact h.acquire _ th hth hl rfl trivial

theorem Inv.reach {truthy : E → Bool} {progs : List (List (POp V E L))} {s : PState V E L}
    (h : Reach truthy (PState.init progs) s) : s.Inv truthy := by
  induction h with
  | start => exact Inv.init truthy progs
  | next i _ hs ih => exact Inv.step truthy _ _ i ih hs

end Conc
end Pkm
