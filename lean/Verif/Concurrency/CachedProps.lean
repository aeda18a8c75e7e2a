import Verif.Concurrency.CachedLemmas
set_option linter.unusedVariables false
set_option linter.unusedSimpArgs false
set_option linter.unusedSectionVars false
/-
C30: concurrent first reads of a cached property compute it once and see the same value.
-/
namespace Pkm
open Conc

variable {V E : Type}

namespace Spec

/-- The values the function returned so far, the latest first. -/
def computedValues : List (CEv V E) → List V
  | [] => []
  | .computed _ v :: log => v :: computedValues log
  | _ :: log => computedValues log

/-- The thread is in a call of the function. -/
def InCall (s : CState V E) (i : Nat) : Prop := ∃ th lk own k, s.threads[i]? = some th ∧ th.pc = .computing lk own k

/-- No thread deletes the property. -/
def OnlyReads (progs : List (List COp)) : Prop := ∀ p ∈ progs, COp.clear ∉ p

def CStuck (func : Nat → Except E V) (s : CState V E) : Prop := ∀ i, s.step func i = none

end Spec

namespace Conc

structure CState.OkB (s : CState V E) (th : CThread V) : Prop where
  ent : s.attr = none → ∀ lk, th.pc.lock? = some lk → s.entry = some lk
  comp : th.pc.computes = true → s.attr = none
  after : th.pc.after = true → s.attr.isSome = true
  nodel : th.pc.isDel = false ∧ COp.clear ∉ th.prog

structure CState.InvB (s : CState V E) : Prop where
  threads : ∀ (j : Nat) (th : CThread V), s.threads[j]? = some th → s.OkB th
  attr : ∀ v, s.attr = some v → Spec.computedValues s.log = [v]
  val : ∀ (j : Nat) (th : CThread V) v, s.threads[j]? = some th → th.pc.value? = some v → Spec.computedValues s.log = [v]
  none : s.attr = none → (∀ (j : Nat) (th : CThread V), s.threads[j]? = some th → th.pc.value? = Option.none) →
    Spec.computedValues s.log = []
  ret : ∀ i v, .returned i v ∈ s.log → s.attr = some v
  order : ∀ a b i, s.log = a ++ .call i :: b → Spec.computedValues b = []

theorem InvB.init (progs : List (List COp)) (hp : Spec.OnlyReads progs) : (CState.init progs : CState V E).InvB := by
  refine ⟨?_, ?_, ?_, ?_, ?_, ?_⟩
  · intro j th h
    simp [CState.init] at h
    obtain ⟨p, hpj, rfl⟩ := h
    refine ⟨?_, ?_, ?_, ?_⟩ <;> simp [CPC.lock?, CPC.computes, CPC.after, CPC.isDel, CState.init]
    exact hp p (List.mem_of_getElem? hpj)
  · simp [CState.init]
  · intro j th v h e
    simp [CState.init] at h
    obtain ⟨p, _, rfl⟩ := h
    cases e
  · simp [CState.init, Spec.computedValues]
  · simp [CState.init]
  · simp [CState.init]

theorem holds_of_computes {pc : CPC V} (h : pc.computes = true) : ∃ lk, pc.lock? = some lk ∧ pc.holds = some lk := by
  cases pc <;> simp [CPC.computes] at h <;> simp [CPC.lock?, CPC.holds]

/-- Two threads that compute are one. -/
theorem compute_unique {s : CState V E} (a : s.InvA) (b : s.InvB) {i j : Nat} {x y : CThread V}
    (hi : s.threads[i]? = some x) (hj : s.threads[j]? = some y) (cx : x.pc.computes = true)
    (hy : ∃ lk, y.pc.lock? = some lk ∧ y.pc.holds = some lk) : i = j := by
  obtain ⟨l1, a1, b1⟩ := holds_of_computes cx
  obtain ⟨l2, a2, b2⟩ := hy
  have ha := (b.threads i x hi).comp cx
  have e1 := (b.threads i x hi).ent ha l1 a1
  have e2 := (b.threads j y hj).ent ha l2 a2
  rw [e1] at e2
  simp at e2
  subst e2
  have h1 := ((a.threads i x hi).holds l1).mp b1
  have h2 := ((a.threads j y hj).holds l1).mp b2
  rw [h1] at h2
  simpa using h2

/-- A step that changes neither the attribute nor the value in flight. -/
theorem CState.InvB.simple {s s' : CState V E} (h : s.InvB) (i : Nat) (th x : CThread V) (hth : s.threads[i]? = some th)
    (ht : s'.threads = s.threads.set i x) (h1 : s'.attr = s.attr)
    (h2 : s.attr = Option.none → ∀ (j : Nat) (y : CThread V) lk, j ≠ i → s.threads[j]? = some y → y.pc.lock? = some lk → s'.entry = s.entry)
    (hx : s'.OkB x) (hv : x.pc.value? = th.pc.value?)
    (hl : Spec.computedValues s'.log = Spec.computedValues s.log)
    (hret : ∀ i v, .returned i v ∈ s'.log → .returned i v ∈ s.log ∨ s.attr = some v)
    (hord : ∀ a b i, s'.log = a ++ .call i :: b → Spec.computedValues b = []) : s'.InvB := by
  refine ⟨?_, ?_, ?_, ?_, ?_, hord⟩
  · rw [ht]
    refine forall_set hth _ hx ?_
    intro j y hj hy
    have ok := h.threads j y hy
    refine ⟨fun e lk hlk => ?_, fun e => by rw [h1]; exact ok.comp e, fun e => by rw [h1]; exact ok.after e, ok.nodel⟩
    rw [h1] at e
    rw [h2 e j y lk hj hy hlk]
    exact ok.ent e lk hlk
  · intro v e; rw [hl]; rw [h1] at e; exact h.attr v e
  · rw [ht, hl]
    refine fun j y v hy => forall_set hth (fun j y => y.pc.value? = some v → Spec.computedValues s.log = [v]) ?_ ?_ j y hy
    · intro e; rw [hv] at e; exact h.val i th v hth e
    · intro j y _ hy e; exact h.val j y v hy e
  · intro e hn
    rw [hl]
    refine h.none (by rw [← h1]; exact e) ?_
    intro j y hy
    by_cases ej : i = j
    · subst ej
      rw [hth] at hy; cases hy
      rw [← hv]
      exact hn i x (by rw [ht, get_set _ _ _ _ _ hth]; simp)
    · exact hn j y (by rw [ht, get_set _ _ _ _ _ hth, if_neg ej]; exact hy)
  · intro k v hk
    rw [h1]
    rcases hret k v hk with hk | hk
    · exact h.ret k v hk
    · exact hk

theorem order_cons' {log : List (CEv V E)} {e : CEv V E}
    (h : ∀ a b i, log = a ++ .call i :: b → Spec.computedValues b = [])
    (he : ∀ i, e = .call i → Spec.computedValues log = []) :
    ∀ a b i, e :: log = a ++ .call i :: b → Spec.computedValues b = [] := by
  intro a b i hab
  cases a with
  | nil =>
    simp at hab
    obtain ⟨h1, rfl⟩ := hab
    exact he i h1
  | cons x a =>
    simp at hab
    exact h a b i hab.2

theorem InvB.step (func : Nat → Except E V) (s s' : CState V E) (i : Nat) (a : s.InvA) (h : s.InvB)
    (hs : s.step func i = some s') : s'.InvB := by
  unfold CState.step at hs
  cases hth : s.threads[i]? with
  | none => rw [hth] at hs; simp at hs
  | some th =>
    rw [hth] at hs
    simp only at hs
    have okA := a.threads i th hth
    have ok := h.threads i th hth
    have nd := ok.nodel
    cases hp : th.pc with
    | run =>
      rw [hp] at hs
      simp only at hs
      cases hprog : th.prog with
      | nil => rw [hprog] at hs; simp at hs
      | cons op rest =>
        rw [hprog] at hs nd
        simp only [Option.some.injEq] at hs
        subst hs
        have hop : op = .read := by
          cases op with
          | read => rfl
          | clear => exact absurd List.mem_cons_self nd.2
        subst hop
        refine h.simple i th ⟨.read, rest⟩ hth rfl rfl (by intros; rfl) ⟨?_, ?_, ?_, ?_⟩ (by rw [hp]; rfl) rfl
          (fun _ _ e => Or.inl e) h.order
        · simp [CPC.lock?]
        · simp [CPC.computes]
        · simp [CPC.after]
        · exact ⟨rfl, fun e => nd.2 (List.mem_cons_of_mem _ e)⟩
    | read =>
      rw [hp] at hs
      simp only at hs
      cases hat : s.attr with
      | some v =>
        rw [hat] at hs
        simp only [Option.some.injEq] at hs; subst hs
        refine h.simple i th _ hth rfl rfl (by intros; rfl) ⟨?_, ?_, ?_, ?_⟩ (by rw [hp]; rfl) rfl
          ?_ (order_cons' h.order (by simp))
        · simp [CPC.lock?]
        · simp [CPC.computes]
        · simp [CPC.after]
        · exact ⟨rfl, nd.2⟩
        · intro k w hk
          simp [CState.say, CState.setPC] at hk
          rcases hk with ⟨_, rfl⟩ | hk
          · exact Or.inr hat
          · exact Or.inl hk
      | none =>
        rw [hat] at hs
        simp only [Option.some.injEq] at hs; subst hs
        refine h.simple i th _ hth rfl rfl (by intros; rfl) ⟨?_, ?_, ?_, ?_⟩ (by rw [hp]; rfl) rfl
          (fun _ _ e => Or.inl e) h.order
        · simp [CPC.lock?]
        · simp [CPC.computes]
        · simp [CPC.after]
        · exact ⟨rfl, nd.2⟩
    | enter =>
      rw [hp] at hs
      simp only at hs
      cases he : s.entry with
      | some lk =>
        rw [he] at hs
        simp only [Option.some.injEq] at hs; subst hs
        refine h.simple i th _ hth rfl rfl (by intros; rfl) ⟨?_, ?_, ?_, ?_⟩ (by rw [hp]; rfl) rfl
          (fun _ _ e => Or.inl e) h.order
        · simp [CPC.lock?, CState.setPC, he]
        · simp [CPC.computes]
        · simp [CPC.after]
        · exact ⟨rfl, nd.2⟩
      | none =>
        rw [he] at hs
        simp only [Option.some.injEq] at hs; subst hs
        refine h.simple i th _ hth rfl rfl ?_ ⟨?_, ?_, ?_, ?_⟩ (by rw [hp]; rfl) rfl
          (fun _ _ e => Or.inl e) h.order
        · intro hn j y lk _ hy hlk
          have := (h.threads j y hy).ent hn lk hlk
          rw [he] at this; cases this
        · simp [CPC.lock?, CState.setPC]
        · simp [CPC.computes]
        · simp [CPC.after]
        · exact ⟨rfl, nd.2⟩
    | acquire lk own =>
      rw [hp] at hs
      have hent := ok.ent
      rw [hp] at hent
      simp only at hs
      split at hs
      · simp only [Option.some.injEq] at hs; subst hs
        refine h.simple i th _ hth rfl rfl (by intros; rfl) ⟨?_, ?_, ?_, ?_⟩ (by rw [hp]; rfl) rfl
          (fun _ _ e => Or.inl e) h.order
        · exact hent
        · simp [CPC.computes]
        · simp [CPC.after]
        · exact ⟨rfl, nd.2⟩
      · cases hs
    | inside lk own =>
      rw [hp] at hs
      have hent := ok.ent
      rw [hp] at hent
      simp only at hs
      cases hat : s.attr with
      | some v =>
        rw [hat] at hs
        simp only [Option.some.injEq] at hs; subst hs
        refine h.simple i th _ hth rfl rfl (by intros; rfl) ⟨?_, ?_, ?_, ?_⟩ (by rw [hp]; rfl) rfl
          (fun _ _ e => Or.inl e) h.order
        · exact hent
        · simp [CPC.computes]
        · simp [CPC.after, CState.setPC, hat]
        · exact ⟨rfl, nd.2⟩
      | none =>
        rw [hat] at hs
        simp only [Option.some.injEq] at hs; subst hs
        refine h.simple i th _ hth rfl (by rw [hat]; rfl) (by intros; rfl) ⟨?_, ?_, ?_, ?_⟩ (by rw [hp]; rfl) rfl
          ?_ (order_cons' h.order ?_)
        · intro _; exact hent hat
        · intro _; rfl
        · simp [CPC.after]
        · exact ⟨rfl, nd.2⟩
        · intro k w hk
          simp [CState.say, CState.setPC] at hk
          exact Or.inl hk
        · intro _ _
          refine h.none hat ?_
          intro j y hy
          cases hv : y.pc.value? with
          | none => rfl
          | some v =>
            have hc : y.pc.computes = true := by
              cases hpy : y.pc <;> rw [hpy] at hv <;> simp [CPC.value?] at hv <;> rfl
            have := compute_unique a h hy hth hc ⟨lk, by rw [hp]; exact ⟨rfl, rfl⟩⟩
            subst this
            rw [hth] at hy; cases hy
            rw [hp] at hc; cases hc
    | computing lk own k =>
      rw [hp] at hs
      have hent := ok.ent
      have hcomp := ok.comp (by rw [hp]; rfl)
      rw [hp] at hent
      simp only at hs
      have honly : ∀ (j : Nat) (y : CThread V), j ≠ i → s.threads[j]? = some y → y.pc.value? = none ∧ y.pc.computes = false := by
        intro j y hj hy
        have hc : y.pc.computes = false := by
          cases hc : y.pc.computes with
          | false => rfl
          | true => exact absurd (compute_unique a h hy hth hc ⟨lk, by rw [hp]; exact ⟨rfl, rfl⟩⟩) hj
        refine ⟨?_, hc⟩
        cases hpy : y.pc <;> rw [hpy] at hc <;> simp [CPC.computes] at hc <;> rfl
      have hempty : Spec.computedValues s.log = [] := by
        refine h.none hcomp ?_
        intro j y hy
        by_cases hj : j = i
        · subst hj; rw [hth] at hy; cases hy; rw [hp]; rfl
        · exact (honly j y hj hy).1
      cases hf : func k with
      | ok v =>
        rw [hf] at hs
        simp only [Option.some.injEq] at hs; subst hs
        refine ⟨?_, ?_, ?_, ?_, ?_, ?_⟩
        · refine forall_set hth _ ⟨?_, ?_, ?_, ?_⟩ ?_
          · exact hent
          · intro _; exact hcomp
          · simp [CPC.after]
          · exact ⟨rfl, nd.2⟩
          · intro j y _ hy
            have o := h.threads j y hy
            exact ⟨o.ent, o.comp, o.after, o.nodel⟩
        · intro w e
          have : s.attr = some w := e
          rw [hcomp] at this; cases this
        · refine fun j y w hy => forall_set hth
            (fun j y => y.pc.value? = some w → Spec.computedValues (CEv.computed i v :: s.log) = [w]) ?_ ?_ j y hy
          · intro e; simp [CPC.value?] at e; subst e; simp [Spec.computedValues, hempty]
          · intro j y hj hy e
            rw [(honly j y hj hy).1] at e; cases e
        · intro _ hn
          have := hn i _ (by
            show (s.threads.set i { th with pc := .setting lk own v })[i]? = _
            rw [get_set _ _ _ _ _ hth]; simp; rfl)
          simp [CPC.value?] at this
        · intro j w hj
          simp [CState.say, CState.setPC] at hj
          exact h.ret j w hj
        · exact order_cons' h.order (by simp)
      | error e =>
        rw [hf] at hs
        simp only [Option.some.injEq] at hs; subst hs
        refine h.simple i th _ hth rfl rfl (by intros; rfl) ⟨?_, ?_, ?_, ?_⟩ (by rw [hp]; rfl) rfl
          ?_ (order_cons' h.order (by simp))
        · simp [CPC.lock?]
        · simp [CPC.computes]
        · simp [CPC.after]
        · exact ⟨rfl, nd.2⟩
        · intro k w hk
          simp [CState.say, CState.setPC, CState.unlock] at hk
          exact Or.inl hk
    | setting lk own v =>
      rw [hp] at hs
      have hcomp := ok.comp (by rw [hp]; rfl)
      have hval := h.val i th v hth (by rw [hp]; rfl)
      simp only [Option.some.injEq] at hs; subst hs
      have honly : ∀ (j : Nat) (y : CThread V), j ≠ i → s.threads[j]? = some y → y.pc.value? = none ∧ y.pc.computes = false := by
        intro j y hj hy
        have hc : y.pc.computes = false := by
          cases hc : y.pc.computes with
          | false => rfl
          | true => exact absurd (compute_unique a h hy hth hc ⟨lk, by rw [hp]; exact ⟨rfl, rfl⟩⟩) hj
        refine ⟨?_, hc⟩
        cases hpy : y.pc <;> rw [hpy] at hc <;> simp [CPC.computes] at hc <;> rfl
      refine ⟨?_, ?_, ?_, ?_, ?_, h.order⟩
      · refine forall_set hth _ ⟨?_, ?_, ?_, ?_⟩ ?_
        · intro e; cases e
        · intro e; cases e
        · intro _; rfl
        · exact ⟨rfl, nd.2⟩
        · intro j y hj hy
          have o := h.threads j y hy
          refine ⟨(fun e => by cases e), (fun e => ?_), (fun _ => rfl), o.nodel⟩
          rw [(honly j y hj hy).2] at e; cases e
      · intro w e
        simp [CState.setPC] at e; subst e; exact hval
      · refine fun j y w hy => forall_set hth
          (fun j y => y.pc.value? = some w → Spec.computedValues s.log = [w]) ?_ ?_ j y hy
        · intro e; simp [CPC.value?] at e
        · intro j y hj hy e
          rw [(honly j y hj hy).1] at e; cases e
      · intro e; cases e
      · intro j w hj
        have := h.ret j w hj
        rw [hcomp] at this; cases this
    | releasing lk own =>
      rw [hp] at hs
      have haft := ok.after (by rw [hp]; rfl)
      simp only [Option.some.injEq] at hs; subst hs
      refine h.simple i th _ hth rfl rfl (by intros; rfl) ⟨?_, ?_, ?_, ?_⟩ (by rw [hp]; cases own <;> rfl) rfl
        (fun _ _ e => Or.inl e) h.order
      · cases own <;> simp [CPC.lock?]
      · cases own <;> simp [CPC.computes]
      · intro _; exact haft
      · exact ⟨by cases own <;> rfl, nd.2⟩
    | cleanup lk =>
      rw [hp] at hs
      have haft := ok.after (by rw [hp]; rfl)
      have hent : s.entry = some lk := okA.owns lk (by rw [hp]; rfl)
      simp only at hs
      rw [hent] at hs
      simp only [Option.some.injEq] at hs; subst hs
      refine h.simple i th _ hth rfl rfl ?_ ⟨?_, ?_, ?_, ?_⟩ (by rw [hp]; rfl) rfl
        (fun _ _ e => Or.inl e) h.order
      · intro e; rw [e] at haft; cases haft
      · simp [CPC.lock?]
      · simp [CPC.computes]
      · simp [CPC.after]
      · exact ⟨rfl, nd.2⟩
    | delCheck => rw [hp] at nd; cases nd.1
    | delAttr => rw [hp] at nd; cases nd.1

theorem InvB.reach {func : Nat → Except E V} {progs : List (List COp)} (hp : Spec.OnlyReads progs) {s : CState V E}
    (h : CReach func (CState.init progs) s) : s.InvB := by
  induction h with
  | start => exact InvB.init progs hp
  | next i hr hs ih => exact InvB.step func _ _ i (InvA.reach hr) ih hs

def CPC.rank (filled : Bool) : CPC V → Nat
  | .run => 0
  | .read => if filled then 1 else 10
  | .enter => 9
  | .acquire .. => 8
  | .inside .. => 7
  | .computing .. => 6
  | .setting .. => 5
  | .releasing .. => 4
  | .cleanup _ => 3
  | .delCheck => 2
  | .delAttr => 1

def CThread.rank (f : Bool) (th : CThread V) : Nat := th.pc.rank f + 11 * th.prog.length

def CState.rank (s : CState V E) : Nat := (s.threads.map (CThread.rank s.attr.isSome)).sum

theorem sum_set' {A : Type} (f : A → Nat) (l : List A) (i : Nat) (x a : A) (h : l[i]? = some a) :
    ((l.set i x).map f).sum + f a = (l.map f).sum + f x := by
  induction l generalizing i with
  | nil => simp at h
  | cons b l ih =>
    cases i with
    | zero => simp at h; subst h; simp; omega
    | succ i => simp at h; have := ih i h; simp only [List.set_cons_succ, List.map_cons, List.sum_cons]; omega

theorem filled_rank (ts : List (CThread V)) :
    (ts.map (CThread.rank true)).sum ≤ (ts.map (CThread.rank false)).sum := by
  induction ts with
  | nil => simp
  | cons t ts ih =>
    have : t.rank true ≤ t.rank false := by
      unfold CThread.rank
      cases t.pc <;> simp [CPC.rank]
    simp at ih ⊢; omega

theorem rank_stepC (func : Nat → Except E V) (s s' : CState V E) (i : Nat) (a : s.InvA) (h : s.InvB)
    (hs : s.step func i = some s') : s'.rank < s.rank := by
  unfold CState.step at hs
  cases hth : s.threads[i]? with
  | none => rw [hth] at hs; simp at hs
  | some th =>
    rw [hth] at hs
    simp only at hs
    have ok := h.threads i th hth
    have hset0 := fun x => sum_set' (CThread.rank s.attr.isSome) s.threads i x th hth
    have hset : ∀ pc : CPC V, ((s.threads.set i { th with pc := pc }).map (CThread.rank s.attr.isSome)).sum +
        (th.pc.rank s.attr.isSome + 11 * th.prog.length) =
        (s.threads.map (CThread.rank s.attr.isSome)).sum + (pc.rank s.attr.isSome + 11 * th.prog.length) :=
      fun pc => hset0 { th with pc := pc }
    cases hp : th.pc with
    | run =>
      rw [hp] at hs
      simp only at hs
      cases hprog : th.prog with
      | nil => rw [hprog] at hs; simp at hs
      | cons op rest =>
        rw [hprog] at hs
        simp only [Option.some.injEq] at hs
        subst hs
        have := hset0 ⟨CState.start op, rest⟩
        have e1 : th.rank s.attr.isSome = 11 * (rest.length + 1) := by
          simp [CThread.rank, hp, hprog, CPC.rank]
        have e2 : CThread.rank (V := V) s.attr.isSome ⟨CState.start op, rest⟩ ≤ 10 + 11 * rest.length := by
          cases op <;> simp [CThread.rank, CState.start, CPC.rank]
          split <;> omega
        simp only [CState.rank]
        omega
    | read =>
      rw [hp] at hs hset
      simp only at hs
      cases hat : s.attr with
      | some v =>
        rw [hat] at hs hset
        simp only [Option.some.injEq] at hs; subst hs
        have := hset .run
        simp only [CState.rank, CState.say, CState.setPC, hat]
        simp [CPC.rank] at this ⊢
        omega
      | none =>
        rw [hat] at hs hset
        simp only [Option.some.injEq] at hs; subst hs
        have := hset .enter
        simp only [CState.rank, CState.say, CState.setPC, hat]
        simp [CPC.rank] at this ⊢
        omega
    | enter =>
      rw [hp] at hs hset
      simp only at hs
      split at hs <;> simp only [Option.some.injEq] at hs <;> subst hs
      · have := hset (.acquire ‹_› false)
        simp only [CState.rank, CState.say, CState.setPC]
        simp [CPC.rank] at this ⊢
        omega
      · have := hset (.acquire s.locks.length true)
        simp only [CState.rank, CState.say, CState.setPC]
        simp [CPC.rank] at this ⊢
        omega
    | acquire lk own =>
      rw [hp] at hs hset
      simp only at hs
      split at hs
      · simp only [Option.some.injEq] at hs; subst hs
        have := hset (.inside lk own)
        simp only [CState.rank, CState.say, CState.setPC]
        simp [CPC.rank] at this ⊢
        omega
      · cases hs
    | inside lk own =>
      rw [hp] at hs hset
      simp only at hs
      split at hs <;> simp only [Option.some.injEq] at hs <;> subst hs
      · have := hset (.releasing lk own)
        simp only [CState.rank, CState.say, CState.setPC]
        simp [CPC.rank] at this ⊢
        omega
      · have := hset (.computing lk own s.calls)
        simp only [CState.rank, CState.say, CState.setPC]
        simp [CPC.rank] at this ⊢
        omega
    | computing lk own k =>
      rw [hp] at hs hset
      simp only at hs
      split at hs <;> simp only [Option.some.injEq] at hs <;> subst hs
      · have := hset (.setting lk own ‹_›)
        simp only [CState.rank, CState.say, CState.setPC]
        simp [CPC.rank] at this ⊢
        omega
      · have := hset .run
        simp only [CState.rank, CState.say, CState.setPC, CState.unlock]
        simp [CPC.rank] at this ⊢
        omega
    | setting lk own v =>
      have hcomp := ok.comp (by rw [hp]; rfl)
      rw [hp, hcomp] at hset
      rw [hp] at hs
      simp only [Option.some.injEq] at hs; subst hs
      have := hset (.releasing lk own)
      have h2 := filled_rank (s.threads.set i { th with pc := .releasing lk own })
      simp only [CState.rank, CState.say, CState.setPC, CState.unlock, hcomp]
      simp only [CPC.rank, Option.isSome_none, Option.isSome_some] at this ⊢
      omega
    | releasing lk own =>
      have haft := ok.after (by rw [hp]; rfl)
      rw [hp, haft] at hset
      rw [hp] at hs
      simp only [Option.some.injEq] at hs; subst hs
      simp only [CState.rank, CState.say, CState.setPC, CState.unlock, haft]
      cases own with
      | true =>
        have := hset (.cleanup lk)
        simp [CPC.rank] at this ⊢
        omega
      | false =>
        have := hset .read
        simp [CPC.rank] at this ⊢
        omega
    | cleanup lk =>
      have haft := ok.after (by rw [hp]; rfl)
      rw [hp, haft] at hset
      rw [hp] at hs
      simp only at hs
      split at hs <;> simp only [Option.some.injEq] at hs <;> subst hs
      · simp only [CState.rank, CState.say, CState.setPC, CState.unlock, haft]
        have := hset .read
        simp [CPC.rank] at this ⊢
        omega
      · simp only [CState.rank, CState.say, CState.setPC, CState.unlock, haft]
        have := hset .run
        simp [CPC.rank] at this ⊢
        omega
    | delCheck => have nd := ok.nodel.1; rw [hp] at nd; cases nd
    | delAttr => have nd := ok.nodel.1; rw [hp] at nd; cases nd

end Conc

/-- C30: for any number of threads that read the property in any interleaving, at most one call of the
function returns a value, no call starts after that, and no two calls are in progress at the same time. -/
theorem cached_computed_once (func : Nat → Except E V) (progs : List (List COp)) (hp : Spec.OnlyReads progs)
    (s : CState V E) (h : CReach func (CState.init progs) s) :
    (Spec.computedValues s.log).length ≤ 1 ∧
    (∀ later earlier i, s.log = later ++ .call i :: earlier → Spec.computedValues earlier = []) ∧
    (∀ i j, Spec.InCall s i → Spec.InCall s j → i = j) := by
  have a := InvA.reach h
  have b := InvB.reach hp h
  refine ⟨?_, b.order, ?_⟩
  · cases hat : s.attr with
    | some v => rw [b.attr v hat]; simp
    | none =>
      by_cases hv : ∀ (j : Nat) (th : CThread V), s.threads[j]? = some th → th.pc.value? = Option.none
      · rw [b.none hat hv]; simp
      · have : ∃ (j : Nat) (th : CThread V), s.threads[j]? = some th ∧ th.pc.value? ≠ Option.none := by
          apply Classical.byContradiction
          intro hc
          apply hv
          intro j th hj
          cases hq : th.pc.value? with
          | none => rfl
          | some v => exact absurd ⟨j, th, hj, by rw [hq]; simp⟩ hc
        obtain ⟨j, th, hj, hne⟩ := this
        cases hq : th.pc.value? with
        | none => exact absurd hq hne
        | some v => rw [b.val j th v hj hq]; simp
  · intro i j ⟨x, l1, o1, k1, hx, px⟩ ⟨y, l2, o2, k2, hy, py⟩
    refine compute_unique a b hx hy (by rw [px]; rfl) ⟨l2, ?_⟩
    rw [py]; exact ⟨rfl, rfl⟩

/-- C30: every read that returns, in whatever thread, returns the one value that the function computed. -/
theorem cached_same_value (func : Nat → Except E V) (progs : List (List COp)) (hp : Spec.OnlyReads progs)
    (s : CState V E) (h : CReach func (CState.init progs) s) (i : Nat) (v : V)
    (hr : CEv.returned i v ∈ s.log) : Spec.computedValues s.log = [v] :=
  (InvB.reach hp h).attr v ((InvB.reach hp h).ret i v hr)

/-- C30: when no thread can do another step, all have finished: no deadlock, whichever calls of the function
fail and whether or not properties are deleted meanwhile. -/
theorem cached_no_deadlock (func : Nat → Except E V) (progs : List (List COp)) (s : CState V E)
    (h : CReach func (CState.init progs) s) (hs : Spec.CStuck func s) :
    ∀ th ∈ s.threads, th.pc = .run ∧ th.prog = [] := by
  have a := InvA.reach h
  -- a holder of a lock can always go on
  have hno : ∀ (j : Nat) (th : CThread V), s.threads[j]? = some th → th.pc.holds = none := by
    intro j th hj
    cases hh : th.pc.holds with
    | none => rfl
    | some lk =>
      exfalso
      have := hs j
      unfold CState.step at this
      rw [hj] at this
      simp only at this
      cases hp : th.pc <;> rw [hp] at hh this <;> simp [CPC.holds] at hh <;> simp only at this
      all_goals repeat' split at this
      all_goals cases this
  intro th hth
  obtain ⟨i, hi, rfl⟩ := List.mem_iff_getElem.mp hth
  have hg : s.threads[i]? = some s.threads[i] := List.getElem?_eq_getElem hi
  have hst := hs i
  unfold CState.step at hst
  rw [hg] at hst
  simp only at hst
  cases hp : s.threads[i].pc <;> rw [hp] at hst <;> simp only at hst
  case run =>
    refine ⟨rfl, ?_⟩
    cases hprog : s.threads[i].prog with
    | nil => rfl
    | cons op rest => rw [hprog] at hst; cases hst
  case acquire lk own =>
    exfalso
    have hb := (a.threads i _ hg).bound lk (by rw [hp]; rfl)
    have hgl : s.locks[lk]? = some s.locks[lk] := List.getElem?_eq_getElem hb
    rw [hgl] at hst
    cases ho : s.locks[lk] with
    | none => rw [ho] at hst; cases hst
    | some j =>
      rw [ho] at hgl
      have hj := a.holder lk j hgl
      have hgj : s.threads[j]? = some s.threads[j] := List.getElem?_eq_getElem hj
      have := ((a.threads j _ hgj).holds lk).mpr hgl
      rw [hno j _ hgj] at this; cases this
  all_goals
    exfalso
    repeat' split at hst
    all_goals cases hst

/-- C30: every execution ends, so every read returns or raises what the function raised. -/
theorem cached_terminates (func : Nat → Except E V) (progs : List (List COp)) (hp : Spec.OnlyReads progs) :
    ∃ bound, ∀ n (s : CState V E), CSteps func (CState.init progs) n s → n ≤ bound := by
  refine ⟨(CState.init progs : CState V E).rank, ?_⟩
  have key : ∀ n s, CSteps func (CState.init progs) n s →
      CReach func (CState.init progs) s ∧ n + s.rank ≤ (CState.init progs : CState V E).rank := by
    intro n s h
    induction h with
    | zero => exact ⟨.start, by omega⟩
    | succ i h1 h2 ih =>
      obtain ⟨a, b⟩ := ih
      refine ⟨.next i a h2, ?_⟩
      have := rank_stepC func _ _ i (InvA.reach a) (InvB.reach hp a) h2
      omega
  intro n s h
  have := (key n s h).2
  omega

/-- C30: the bookkeeping of the instance locks never fails, also with deletions. -/
theorem cached_no_key_error (func : Nat → Except E V) (progs : List (List COp)) (s : CState V E)
    (h : CReach func (CState.init progs) s) (i : Nat) : CEv.keyError i ∉ s.log :=
  (InvA.reach h).noKeyError i

theorem reach_schedule (func : Nat → Except E V) (is : List Nat) (s0 s : CState V E) (h : CReach func s0 s) :
    CReach func s0 (CState.runSchedule func is s) := by
  induction is generalizing s with
  | nil => exact h
  | cons i is ih =>
    simp only [CState.runSchedule]
    cases hs : s.step func i with
    | none => exact ih s h
    | some s' => exact ih s' (.next i h hs)

/-- C30: with a deletion of the property while threads read it (`clear_cached_properties`), two calls of the
function can be in progress at the same time: the threads use different instance locks. -/
theorem cached_clear_violated :
    ∃ s : CState Nat Nat, CReach (fun k => .ok k)
      (CState.init [[.read], [.read], [.clear], [.read]]) s ∧ Spec.InCall s 1 ∧ Spec.InCall s 3 := by
  refine ⟨CState.runSchedule (fun k => .ok k)
    ([1, 1, 0, 0, 0, 1] ++ List.replicate 7 0 ++ [2, 2, 2] ++ List.replicate 5 3 ++ [1, 1])
    (CState.init [[.read], [.read], [.clear], [.read]]), reach_schedule _ _ _ _ .start, ?_, ?_⟩
  · exact ⟨_, _, _, _, rfl, rfl⟩
  · exact ⟨_, _, _, _, rfl, rfl⟩

/-- C30: two deletions at the same time: the second one fails with `AttributeError`. -/
theorem cached_clear_race_violated :
    ∃ s : CState Nat Nat, CReach (fun k => .ok k) (CState.init [[.read, .clear], [.clear]]) s ∧
      CEv.attributeError 1 ∈ s.log := by
  refine ⟨CState.runSchedule (fun k => .ok k)
    (List.replicate 10 0 ++ [0, 0, 1, 1, 0, 1])
    (CState.init [[.read, .clear], [.clear]]), reach_schedule _ _ _ _ .start, by decide⟩

/-- Three threads read; the first call of the function fails, the second one returns 8. -/
example : (CState.runSchedule (fun k => if k = 0 then .error 1 else .ok (k + 7))
    ([0, 0, 1, 1, 2, 2, 0, 1, 2, 0, 1, 0, 1, 0, 1, 2, 1, 1, 2, 1, 1, 2, 2, 2, 1, 1, 1, 2, 2, 2, 2])
    (CState.init [[.read], [.read], [.read]] : CState Nat Nat)).log.reverse =
    [.call 0, .raised 0 1, .call 1, .computed 1 8, .returned 1 8, .returned 2 8] := by rfl

end Pkm
