import Verif.Monitors.Model
import Mathlib.Data.List.Induction
set_option linter.unusedVariables false
set_option linter.unusedSimpArgs false
/-
C95: listeners hear what happens and do not change it.
-/
namespace Pkm
open Mon

namespace Spec

/-- What a program does when nothing listens: its actions and its exception. -/
def bare : Prog → List Nat × Option Nat
  | .skip => ([], none)
  | .act a => ([a], none)
  | .raise e => ([], some e)
  | .seq p q =>
    match bare p with
    | (i, some e) => (i, some e)
    | (i, none) => (i ++ (bare q).1, (bare q).2)
  | .event _ => ([], none)
  | .op _ p => bare p

/-- The events of the operation that the program is in, until an exception; those of inner operations are
not among them. -/
def eventsOfOp : Prog → List Nat
  | .seq p q => eventsOfOp p ++ (if (bare p).2 = none then eventsOfOp q else [])
  | .event v => [v]
  | _ => []

/-- The actions among what happens. -/
def actsOf (l : List Item) : List Nat := l.filterMap (fun i => match i with | .act a => some a | _ => none)

/-- Listeners of events that can be called. -/
def Callable (cur : Nat → Option (Option Nat)) : Prop := ∀ v, cur v ≠ some none

/-- Listeners that raise nothing, and generators that let exceptions pass and whose listeners can be called. -/
structure Polite (c : Cfg) : Prop where
  raises : ∀ h, c.raises h = none
  gens : ∀ t g, c.ops t = some (.gen g) → g.onThrow ≠ .swallow ∧ Callable g.events

/-- Starts and ends of generators are nested like brackets; every start has one end. -/
inductive Nested : List Item → Prop where
  | nil : Nested []
  | act (a : Nat) : Nested [.act a]
  | heard (h v : Nat) : Nested [.heard h v]
  | called (h : Nat) : Nested [.called h]
  | append {a b : List Item} : Nested a → Nested b → Nested (a ++ b)
  | finish (t : Nat) {a : List Item} : Nested a → Nested (.begin t :: a ++ [.finish t])
  | cleanup (t : Nat) (e : Exc) {a : List Item} : Nested a → Nested (.begin t :: a ++ [.cleanup t e])

end Spec
open Spec

namespace Mon

theorem actsOf_append (a b : List Item) : actsOf (a ++ b) = actsOf a ++ actsOf b := by
  unfold actsOf; rw [List.filterMap_append]

theorem call_polite {c : Cfg} (h : Polite c) (o : Option Nat) : (call c o).2 = none ∧ actsOf (call c o).1 = [] := by
  cases o with
  | none => exact ⟨rfl, rfl⟩
  | some x => exact ⟨h.raises x, rfl⟩

/-- The events that a listener hears. -/
def heardBy (n : Nat) (l : List Item) : List Nat :=
  l.filterMap (fun i => match i with | .heard x v => if x = n then some v else none | _ => none)

theorem heardBy_append (n : Nat) (a b : List Item) : heardBy n (a ++ b) = heardBy n a ++ heardBy n b := by
  unfold heardBy; rw [List.filterMap_append]

theorem call_heard (c : Cfg) (o : Option Nat) (n : Nat) : heardBy n (call c o).1 = [] := by
  cases o <;> rfl

theorem plainExit_heard (c : Cfg) (l f : Option Nat) (r : Option Exc) (n : Nat) : heardBy n (plainExit c l f r).1 = [] := by
  have hL := call_heard c l n
  have hF := call_heard c f n
  unfold plainExit
  split
  · exact hL
  · split
    · rename_i e1; rw [e1] at hF; exact hF
    · rename_i e1
      rw [e1] at hF
      split
      · rename_i e2; rw [e2] at hL; simp only at hF hL; rw [heardBy_append, hF, hL]; rfl
      · rename_i e2; rw [e2] at hL; simp only at hF hL; rw [heardBy_append, hF, hL]; rfl

theorem genExit_heard (t : Nat) (g : Gen) (r : Option Exc) (n : Nat) : heardBy n (genExit t g r).1 = [] := by
  unfold genExit
  split
  · rfl
  · split <;> rfl

theorem call_nested (c : Cfg) (o : Option Nat) : Nested (call c o).1 := by
  cases o with
  | none => exact .nil
  | some x => exact .called x

end Mon

/-- C95: a program does the same actions in the same order and ends in the same way, whoever listens. -/
theorem monitor_transparent (c : Cfg) (h : Polite c) (p : Prog) (cur : Nat → Option (Option Nat)) (hcur : Callable cur) :
    actsOf (exec c cur p).1 = (bare p).1 ∧ (exec c cur p).2 = (bare p).2.map .app := by
  have hnone : Callable (fun _ => none) := fun v => by simp
  induction p generalizing cur with
  | skip => exact ⟨rfl, rfl⟩
  | act a => exact ⟨rfl, rfl⟩
  | raise e => exact ⟨rfl, rfl⟩
  | event v =>
    simp only [exec, notify, bare]
    cases e : cur v with
    | none => exact ⟨rfl, rfl⟩
    | some o =>
      cases o with
      | none => exact absurd e (hcur v)
      | some x => exact ⟨rfl, h.raises x⟩
  | seq p q ihp ihq =>
    obtain ⟨p1, p2⟩ := ihp cur hcur
    obtain ⟨q1, q2⟩ := ihq cur hcur
    simp only [exec, bare]
    cases e : exec c cur p with
    | mk i r =>
      rw [e] at p1 p2
      cases eb : bare p with
      | mk j s =>
        rw [eb] at p1 p2
        simp only at p1 p2
        subst p2
        cases s with
        | none => simp only [Option.map]; exact ⟨by rw [actsOf_append, p1, q1], q2⟩
        | some x => simp only [Option.map]; exact ⟨p1, trivial⟩
  | op t body ih =>
    simp only [exec, bare]
    cases ho : c.ops t with
    | none => exact ih _ hnone
    | some cb =>
      cases cb with
      | plain enter leave fail =>
        obtain ⟨b1, b2⟩ := ih _ hnone
        obtain ⟨e1, e2⟩ := call_polite h enter
        obtain ⟨l1, l2⟩ := call_polite h leave
        obtain ⟨f1, f2⟩ := call_polite h fail
        simp only
        cases ee : call c enter with
        | mk i x =>
        rw [ee] at e1 e2
        simp only at e1 e2
        subst e1
        simp only [actsOf_append, e2, b1, b2, plainExit, List.nil_append]
        cases hb : (bare body).2 with
        | none => simp only [Option.map]; exact ⟨by simp [l2], l1⟩
        | some x =>
          simp only [Option.map]
          cases ef : call c fail with
          | mk i1 x1 =>
          cases el : call c leave with
          | mk i2 x2 =>
          rw [ef] at f1 f2
          rw [el] at l1 l2
          simp only at f1 f2 l1 l2
          subst f1
          subst l1
          simp only [actsOf_append, f2, l2]
          simp
      | gen g =>
        simp only
        by_cases hg : g.ends = true
        · rw [if_pos hg]; exact ih _ hnone
        · rw [if_neg hg]
          obtain ⟨hs, hc⟩ := h.gens t g ho
          obtain ⟨b1, b2⟩ := ih _ hc
          simp only [b2, genExit]
          have hact : ∀ l, actsOf (Item.begin t :: l) = actsOf l := fun _ => rfl
          cases hb : (bare body).2 with
          | none => simp only [Option.map, List.cons_append, hact, actsOf_append, b1]; exact ⟨by simp [actsOf], trivial⟩
          | some x =>
            simp only [Option.map]
            cases ht : g.onThrow with
            | swallow => exact absurd ht hs
            | reraise => simp only [List.cons_append, hact, actsOf_append, b1]; exact ⟨by simp [actsOf], trivial⟩
            | again => simp only [List.cons_append, hact, actsOf_append, b1]; exact ⟨by simp [actsOf], trivial⟩

/-- C95: generators start and end like brackets, whatever raises: each that has started is ended once, by
the end of its operation. -/
theorem monitor_nested (c : Cfg) (p : Prog) (cur : Nat → Option (Option Nat)) : Nested (exec c cur p).1 := by
  induction p generalizing cur with
  | skip => exact .nil
  | act a => exact .act a
  | raise e => exact .nil
  | event v =>
    simp only [exec, notify]
    split
    · exact .nil
    · exact .nil
    · exact .heard _ _
  | seq p q ihp ihq =>
    have h1 := ihp cur
    have h2 := ihq cur
    simp only [exec]
    cases e : exec c cur p with
    | mk i r =>
      rw [e] at h1
      cases r with
      | none => exact .append h1 h2
      | some x => exact h1
  | op t body ih =>
    simp only [exec]
    split
    · exact ih _
    · rename_i enter leave fail _
      have hE := call_nested c enter
      have hL := call_nested c leave
      have hF := call_nested c fail
      cases ee : call c enter with
      | mk i x =>
      rw [ee] at hE
      cases x with
      | some x => exact hE
      | none =>
        refine .append (.append hE (ih _)) ?_
        unfold plainExit
        split
        · exact hL
        · split
          · rename_i e1; rw [e1] at hF; exact hF
          · rename_i e1
            rw [e1] at hF
            split
            · rename_i e2; rw [e2] at hL; exact .append hF hL
            · rename_i e2; rw [e2] at hL; exact .append hF hL
    · rename_i g _
      split
      · exact ih _
      · unfold genExit
        split
        · exact .finish t (ih _)
        · split
          · exact .cleanup t _ (ih _)
          · exact .cleanup t _ (ih _)
          · exact .cleanup t _ (ih _)

/-- C95: the generator of an operation is told how the operation ended: it is resumed if nothing was raised,
and gets the exception otherwise; this is the last that happens. -/
theorem monitor_told (c : Cfg) (t : Nat) (g : Gen) (body : Prog) (cur : Nat → Option (Option Nat))
    (ho : c.ops t = some (.gen g)) (hg : g.ends = false) :
    ∃ mid r, exec c g.events body = (mid, r) ∧
      (exec c cur (.op t body)).1 = .begin t :: mid ++ [match r with | none => .finish t | some e => .cleanup t e] := by
  refine ⟨_, _, rfl, ?_⟩
  simp only [exec, ho, hg]
  cases h : (exec c g.events body).2 with
  | none => simp [genExit]
  | some e =>
    simp only [genExit]
    cases g.onThrow <;> simp

/-- C95: a listener of the events of an operation hears all events of the operation, in their order, and no
others: inner operations have their own listeners. -/
theorem monitor_events (c : Cfg) (h : Polite c) (p : Prog) (cur : Nat → Option (Option Nat)) (hcur : Callable cur) (n : Nat)
    (hn : ∀ t g v, c.ops t = some (.gen g) → g.events v ≠ some (some n)) :
    (exec c cur p).1.filterMap (fun i => match i with | .heard x v => if x = n then some v else none | _ => none) =
      (eventsOfOp p).filter (fun v => cur v == some (some n)) := by
  change heardBy n _ = _
  have hnone : Callable (fun _ => none) := fun v => by simp
  have hnil : ∀ (q : Prog), (eventsOfOp q).filter (fun v => (none : Option (Option Nat)) == some (some n)) = [] := by
    intro q; rw [List.filter_eq_nil_iff]; intro v _; simp
  induction p generalizing cur with
  | skip => rfl
  | act a => rfl
  | raise e => rfl
  | event v =>
    simp only [exec, notify, eventsOfOp]
    cases e : cur v with
    | none => simp [heardBy, e]
    | some o =>
      cases o with
      | none => exact absurd e (hcur v)
      | some x =>
        by_cases hx : x = n
        · subst hx; simp [heardBy, e]
        · simp [heardBy, e, hx]
  | seq p q ihp ihq =>
    have h1 := ihp cur hcur
    have h2 := ihq cur hcur
    have ht := (monitor_transparent c h p cur hcur).2
    simp only [exec, eventsOfOp]
    cases e : exec c cur p with
    | mk i r =>
      rw [e] at h1 ht
      simp only at h1 ht
      subst ht
      cases hb : (bare p).2 with
      | none => simp only [Option.map, heardBy_append, h1, h2, if_true, List.filter_append]
      | some x => simp [h1]
  | op t body ih =>
    simp only [exec, eventsOfOp, List.filter_nil]
    have hq : heardBy n (exec c (fun _ => none) body).1 = [] := by rw [ih _ hnone, hnil]
    cases ho : c.ops t with
    | none => exact hq
    | some cb =>
      cases cb with
      | plain enter leave fail =>
        simp only
        have hE := call_heard c enter n
        cases ee : call c enter with
        | mk i x =>
        rw [ee] at hE
        cases x with
        | some x => exact hE
        | none =>
          simp only at hE ⊢
          rw [heardBy_append, heardBy_append, hE, hq, plainExit_heard]
          rfl
      | gen g =>
        simp only
        split
        · exact hq
        · have hg : heardBy n (exec c g.events body).1 = [] := by
            rw [ih _ (h.gens t g ho).2, List.filter_eq_nil_iff]
            intro v _
            simpa using hn t g v ho
          change heardBy n ([Item.begin t] ++ (exec c g.events body).1 ++ (genExit t g (exec c g.events body).2).1) = []
          rw [heardBy_append, heardBy_append, hg, genExit_heard]
          rfl

/-- The listeners of a command line: a generator for builds that listens to their steps. -/
def exCfg : Cfg where
  ops := fun t => if t = 1 then some (.gen ⟨false, fun v => if v = 7 then some (some 70) else none, .reraise⟩)
    else if t = 2 then some (.plain (some 20) (some 21) none) else none
  raises := fun _ => none

/-- A build with a step, an inner fetch, a step, and a failure. -/
def exProg : Prog :=
  .op 1 (.seq (.event 7) (.seq (.op 2 (.seq (.event 7) (.act 5))) (.seq (.event 7) (.seq (.raise 3) (.act 6)))))

example : Polite exCfg := by
  refine ⟨fun _ => rfl, ?_⟩
  intro t g hg
  unfold exCfg at hg
  simp only at hg
  split at hg
  · simp only [Option.some.injEq, Callback.gen.injEq] at hg
    subst hg
    refine ⟨by decide, ?_⟩
    intro v
    simp only
    split <;> simp
  · split at hg
    · cases hg
    · cases hg

example : exec exCfg (fun _ => none) exProg =
    ([.begin 1, .heard 70 7, .called 20, .act 5, .called 21, .heard 70 7, .cleanup 1 (.app 3)], some (.app 3)) := by rfl

/-- C95, what fails: a generator that handles the exception of its operation and ends makes the operation
end with `StopIteration`, and the exception is lost. -/
theorem monitor_swallow_violated (c : Cfg) (t : Nat) (g : Gen) (body : Prog) (cur : Nat → Option (Option Nat))
    (ho : c.ops t = some (.gen g)) (hg : g.ends = false) (hs : g.onThrow = .swallow) (e : Exc)
    (hb : (exec c g.events body).2 = some e) : (exec c cur (.op t body)).2 = some .stop := by
  simp only [exec, ho, hg, hb, genExit, hs]
  simp

example : (exec ⟨fun _ => some (.gen ⟨false, fun _ => none, .swallow⟩), fun _ => none⟩ (fun _ => none) (.op 1 (.raise 3))).2 =
    some .stop := by rfl

/-- C95, what fails: an exception of the listener for the beginning of an operation leaves the statement: the operation
is not done, and nobody is told of its end. -/
theorem monitor_enter_violated (c : Cfg) (t h : Nat) (leave fail : Option Nat) (body : Prog) (cur : Nat → Option (Option Nat)) (x : Exc)
    (ho : c.ops t = some (.plain (some h) leave fail)) (hr : c.raises h = some x) :
    exec c cur (.op t body) = ([.called h], some x) := by
  simp only [exec, ho, call, hr]

example : exec ⟨fun _ => some (.plain (some 1) (some 2) (some 3)), fun h => if h = 1 then some (.app 0) else none⟩ (fun _ => none) (.op 1 (.act 5)) =
    ([.called 1], some (.app 0)) := by rfl

/-- C95, what fails: a type of events for which there is only a `leave_` or `failed_` listener makes every
such event raise `TypeError` in the program. -/
theorem monitor_notify_violated (c : Cfg) (cur : Nat → Option (Option Nat)) (v : Nat) (h : cur v = some none) (q : Prog) :
    exec c cur (.seq (.event v) q) = ([], some .typeError) := by
  simp only [exec, notify, h]

example : exec exCfg (fun _ => some none) (.seq (.event 1) (.act 1)) = ([], some .typeError) := by rfl

/-- C95: an operation that follows a promise tells its listeners of the end once, and the outcome of the
promise is kept: with the exception to the one for failures, then to the one for the end. -/
theorem async_once (c : Cfg) (h : Polite c) (leave fail : Option Nat) (r : Option Exc) :
    asyncExit c leave fail r =
      ((if r = none then [] else fail.toList.map .called) ++ leave.toList.map .called, r) := by
  have hc : ∀ o, call c o = (o.toList.map .called, none) := by
    intro o
    cases o with
    | none => rfl
    | some x => simp [call, h.raises x]
  cases r with
  | none => simp [asyncExit, plainExit, hc]
  | some e => simp [asyncExit, plainExit, hc]

example : asyncExit exCfg (some 21) (some 22) (some (.app 1)) = ([.called 22, .called 21], some (.app 1)) := by rfl

/-- C95, what fails: if the listener for the end of a successful operation raises, the operation is reported
as failed as well and its end a second time. -/
theorem async_twice_violated (c : Cfg) (l f : Nat) (x : Exc) (hl : c.raises l = some x) (hf : c.raises f = none) :
    (asyncExit c (some l) (some f) none).1 = [.called l, .called f, .called l] := by
  simp [asyncExit, plainExit, call, hl, hf]

example : (asyncExit ⟨fun _ => none, fun h => if h = 1 then some (.app 0) else none⟩ (some 1) (some 2) none).1 =
    [.called 1, .called 2, .called 1] := by rfl

/-! ### The registry -/

namespace Mon

/-- The last listener of a kind for a type. -/
def lastOf (ls : List (Nat × Mode × Nat)) (t : Nat) (m : Mode) : Option Nat :=
  ((ls.filter (fun l => l.1 == t && l.2.1 == m)).getLast?).map (·.2.2)

theorem lastOf_snoc (ls : List (Nat × Mode × Nat)) (l : Nat × Mode × Nat) (t : Nat) (m : Mode) :
    lastOf (ls ++ [l]) t m = if l.1 = t ∧ l.2.1 = m then some l.2.2 else lastOf ls t m := by
  unfold lastOf
  rw [List.filter_append]
  by_cases h : l.1 = t ∧ l.2.1 = m
  · simp [h.1, h.2]
  · rw [if_neg h]
    have : (l.1 == t && l.2.1 == m) = false := by
      simp only [Bool.and_eq_false_iff, beq_eq_false_iff_ne, ne_eq]
      by_cases h1 : l.1 = t
      · exact .inr (fun h2 => h ⟨h1, h2⟩)
      · exact .inl h1
    simp [this]

theorem create_get (old : Dict Nat Cb) (ls : List (Nat × Mode × Nat)) (t : Nat) :
    Dict.get (create old ls) t = if t ∈ ls.map (·.1) then
      some (.mk (look old t) (lastOf ls t .enter) (lastOf ls t .leave) (lastOf ls t .failed)) else none := by
  unfold create
  induction ls using List.reverseRecOn with
  | nil => rfl
  | append_singleton ls l ih =>
    rw [List.foldl_append, List.foldl_cons, List.foldl_nil]
    generalize ls.foldl (addOne old) [] = m at ih ⊢
    unfold addOne
    simp only
    rw [Dict.get_put]
    by_cases ht : l.1 = t
    · subst ht
      rw [if_pos rfl, ih]
      have : l.1 ∈ (ls ++ [l]).map (·.1) := by simp
      rw [if_pos this]
      by_cases hm : l.1 ∈ ls.map (·.1)
      · rw [if_pos hm]
        simp only [lastOf_snoc, true_and]
        cases h2 : l.2.1 <;> simp
      · rw [if_neg hm]
        have hno : ∀ m, lastOf ls l.1 m = none := by
          intro m
          unfold lastOf
          have : ls.filter (fun x => x.1 == l.1 && x.2.1 == m) = [] := by
            rw [List.filter_eq_nil_iff]
            intro x hx
            have : x.1 ≠ l.1 := fun e => hm (e ▸ List.mem_map_of_mem hx)
            simp [this]
          rw [this]; rfl
        simp only [lastOf_snoc, true_and, hno]
        cases h2 : l.2.1 <;> simp
    · rw [if_neg ht, ih]
      have : (t ∈ (ls ++ [l]).map (·.1)) ↔ t ∈ ls.map (·.1) := by
        simp [fun e : t = l.1 => ht e.symm]
        intro e; exact absurd e.symm ht
      simp only [this, lastOf_snoc]
      have hne : ∀ m : Mode, ¬ (l.1 = t ∧ l.2.1 = m) := fun m h => ht h.1
      simp only [if_neg (hne _)]

theorem create_wf (old : Dict Nat Cb) (ls : List (Nat × Mode × Nat)) : Dict.Wf (create old ls) := by
  unfold create
  induction ls using List.reverseRecOn with
  | nil => exact List.nodup_nil
  | append_singleton ls l ih =>
    rw [List.foldl_append, List.foldl_cons, List.foldl_nil]
    exact Dict.wf_put _ _ _ ih

theorem foldl_put (f : Cb → Cb) : ∀ (es : Dict Nat Cb) (m : Dict Nat Cb) (t : Nat), Dict.Wf es →
    Dict.get (es.foldl (fun m e => Dict.put m e.1 (f e.2)) m) t = match Dict.get es t with
      | some c => some (f c)
      | none => Dict.get m t
  | [], m, t, _ => rfl
  | e :: es, m, t, h => by
    have hk := h
    unfold Dict.Wf Dict.keys at hk
    rw [List.map_cons, List.nodup_cons] at hk
    rw [List.foldl_cons, foldl_put f es _ t hk.2, Dict.get_put]
    by_cases ht : e.1 = t
    · subst ht
      have hn : Dict.get es e.1 = none := (Dict.get_none_iff es e.1).2 hk.1
      rw [hn, if_pos rfl]
      have : Dict.get (e :: es) e.1 = some e.2 := by
        cases e; simp [Dict.get]
      rw [this]
    · rw [if_neg ht]
      have : Dict.get (e :: es) t = Dict.get es t := by
        cases e; simp only [Dict.get]; rw [if_neg ht]
      rw [this]

theorem look_install (old : Dict Nat Cb) (ls : List (Nat × Mode × Nat)) (t : Nat) :
    look (install old ls) t = if t ∈ ls.map (·.1) then
      .mk (look old t) (lastOf ls t .enter) (lastOf ls t .leave) (lastOf ls t .failed) else look old t := by
  unfold install look
  have hf := foldl_put id (create old ls) old t (create_wf old ls)
  simp only [id] at hf
  rw [hf, create_get]
  split
  · rename_i h
    split at h
    · rename_i hm
      simp only [Option.some.injEq] at h
      rw [if_pos hm, ← h]; rfl
    · cases h
  · rename_i h
    split at h
    · cases h
    · rename_i hm
      rw [if_neg hm]

theorem look_listen (old : Dict Nat Cb) (ls : List (Nat × Mode × Nat)) (body : Dict Nat Cb → Dict Nat Cb) (t : Nat) :
    look (listen ls body old) t = if t ∈ ls.map (·.1) then look old t else look (body (install old ls)) t := by
  unfold listen look
  rw [foldl_put Cb.parent _ _ _ (create_wf old ls), create_get]
  split
  · rename_i h
    split at h
    · rename_i hm
      simp only [Option.some.injEq] at h
      rw [if_pos hm, ← h]; rfl
    · cases h
  · rename_i h
    split at h
    · cases h
    · rename_i hm
      rw [if_neg hm]

end Mon

namespace Spec

/-- The registry says the same of every type. -/
def SameListeners (a b : Dict Nat Cb) : Prop := ∀ t, look a t = look b t

/-- The listeners that are called for a type: when it is entered, left, failed. -/
def called (m : Dict Nat Cb) (t : Nat) : Option Nat × Option Nat × Option Nat :=
  match look m t with
  | .nil => (none, none, none)
  | .mk _ e l f => (e, l, f)

end Spec

/-- C95: while `listen` lasts, its listeners are called for their types, and after it the listeners are
those of before, if its body leaves the registry as it was, for instance with further `listen`s. -/
theorem listen_restores (ls : List (Nat × Mode × Nat)) (body : Dict Nat Cb → Dict Nat Cb) (old : Dict Nat Cb)
    (h : ∀ m, SameListeners (body m) m) :
    SameListeners (listen ls body old) old ∧
    ∀ t h m, (t, m, h) ∈ ls → (∀ h', (t, m, h') ∈ ls → h' = h) →
      (match m with
        | .enter => (Spec.called (install old ls) t).1
        | .leave => (Spec.called (install old ls) t).2.1
        | .failed => (Spec.called (install old ls) t).2.2) = some h := by
  refine ⟨?_, ?_⟩
  · intro t
    rw [look_listen]
    split
    · rfl
    · rename_i hm
      rw [h, look_install, if_neg hm]
  · intro t h m hmem huniq
    have ht : t ∈ ls.map (·.1) := List.mem_map_of_mem (f := (·.1)) hmem
    have hlast : lastOf ls t m = some h := by
      unfold lastOf
      cases e : (ls.filter (fun l => l.1 == t && l.2.1 == m)).getLast? with
      | none =>
        rw [List.getLast?_eq_none_iff, List.filter_eq_nil_iff] at e
        exact absurd (by simp) (e _ hmem)
      | some l =>
        have hl := List.mem_of_getLast? e
        rw [List.mem_filter] at hl
        obtain ⟨hl1, hl2⟩ := hl
        simp only [Bool.and_eq_true, beq_iff_eq] at hl2
        obtain ⟨rfl, rfl⟩ := hl2
        simp only [Option.map]
        rw [huniq l.2.2 hl1]
    unfold Spec.called
    rw [look_install, if_pos ht]
    cases m <;> exact hlast

example : Spec.called (install (install [] [(1, .enter, 10)]) [(1, .enter, 11), (2, .leave, 12)]) 1 = (some 11, none, none) ∧
    Spec.called (listen [(1, .enter, 11), (2, .leave, 12)] (listen [(1, .enter, 13)] id) (install [] [(1, .enter, 10)])) 1 =
      (some 10, none, none) := by decide

/-- C95, what fails: a listener of one kind hides the listeners of all kinds that were registered for the
type before, though each callback remembers what it replaced. -/
theorem listen_hides_violated (old : Dict Nat Cb) (t h h' : Nat) :
    Spec.called (install (install old [(t, .enter, h)]) [(t, .leave, h')]) t = (none, some h', none) := by
  unfold Spec.called
  rw [look_install]
  simp [lastOf]

/-- C95, what fails: a listener that is added for good while `listen` lasts is forgotten at its end. -/
theorem listen_forgets_violated (old : Dict Nat Cb) (t h h' : Nat) :
    SameListeners (listen [(t, .enter, h)] (fun m => install m [(t, .enter, h')]) old) old := by
  intro u
  rw [look_listen]
  split
  · rfl
  · rename_i hu
    have hu' : u ≠ t := by simpa using hu
    rw [look_install, look_install]
    simp [hu']

end Pkm
