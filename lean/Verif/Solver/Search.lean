import Verif.Solver.Model
set_option linter.unusedVariables false
set_option linter.unusedSimpArgs false
set_option linter.unusedSectionVars false
/-
The searches of the solver as sequences of changes of the partial solution, and the invariant of the partial
solution.
-/
namespace Pkm
open Solver

variable {P V S : Type} [DecidableEq P]

namespace Spec

/-- The problem offers this version of the package. -/
def Offers (prob : Problem P V S) (p : P) (v : V) : Prop := v ∈ prob.versions p ∨ prob.hasVersion p v = true

/-- `q` is among the dependencies of version `v` of `p`. -/
def DependsOn (prob : Problem P V S) (p : P) (v : V) (q : P) : Prop :=
  ∃ ds, prob.deps p v = some ds ∧ q ∈ ds.map (·.1)

/-- The partial solutions (assignments by order and by package, required packages, decisions) are the same. -/
def SamePartial (s t : St P V S) : Prop :=
  s.byOrder = t.byOrder ∧ (∀ p, s.asgsOf p = t.asgsOf p) ∧ s.required = t.required ∧ s.decisions = t.decisions

/-- One step of a search: a derived term, a decision for a version that is offered (its dependencies become
required), backtracking, or something that leaves the partial solution as it is. -/
inductive SearchStep (alg : Alg V S) (prob : Problem P V S) : St P V S → St P V S → Prop where
  | derived {s s' : St P V S} (t : Term P S) (cause : Nat) (h : s.derive alg prob.root t cause = .ok s') :
      SearchStep alg prob s s'
  | decided {s : St P V S} (p : P) (v : V) (ds : List (P × S)) (a : Asg P S) (hp : p ∈ s.undecided)
      (ho : Offers prob p v) (hd : prob.deps p v = some ds)
      (ha : s.makeAssignment alg prob.root ⟨p, alg.single v⟩ none = .ok a) :
      SearchStep alg prob s ((s.decide a v).require ((depDict ds).map (·.package)))
  | backtracked {s : St P V S} (level : Nat) (h : level ≤ s.decisionLevel) : SearchStep alg prob s (s.backtrack level)
  | other {s s' : St P V S} (h : SamePartial s s') : SearchStep alg prob s s'

/-- Any number of steps. -/
inductive Search (alg : Alg V S) (prob : Problem P V S) : St P V S → St P V S → Prop where
  | refl (s : St P V S) : Search alg prob s s
  | step {s t u : St P V S} (h : Search alg prob s t) (h' : SearchStep alg prob t u) : Search alg prob s u

end Spec

namespace Solver
open Spec

theorem Search.trans {alg : Alg V S} {prob : Problem P V S} {s t u : St P V S} (h : Search alg prob s t)
    (h' : Search alg prob t u) : Search alg prob s u := by
  induction h' with
  | refl => exact h
  | step _ h2 ih => exact .step ih h2

/-! ### Lists -/

theorem filter_le_range {α : Type} (f : α → Nat) (n L : Nat) : ∀ (l : List α) (s : Nat), l.map f = List.range' s n →
    l.filter (fun x => decide (f x ≤ L)) = l.take (L + 1 - s) := by
  induction n with
  | zero => intro l s h; simp at h; subst h; simp
  | succ n ih =>
    intro l s h
    cases l with
    | nil => simp
    | cons x l =>
      rw [List.range'_succ] at h
      simp only [List.map_cons, List.cons.injEq] at h
      obtain ⟨h1, h2⟩ := h
      rw [List.filter_cons]
      have := ih l (s + 1) h2
      by_cases hx : f x ≤ L
      · have e : L + 1 - s = (L + 1 - (s + 1)) + 1 := by omega
        rw [if_pos (by simpa using hx), e, List.take_succ_cons, this]
      · have e : L + 1 - s = 0 := by omega
        have e' : L + 1 - (s + 1) = 0 := by omega
        rw [if_neg (by simpa using hx), this, e, e']; simp

theorem map_take_range {α : Type} (f : α → Nat) (l : List α) (h : l.map f = List.range l.length) (k : Nat) :
    (l.take k).map f = List.range (l.take k).length := by
  rw [List.map_take, h, List.length_take, List.take_range]

/-- The elements up to a level of a list that is sorted by level are a prefix. -/
theorem filter_le_prefix {α : Type} (f : α → Nat) (L : Nat) : ∀ l : List α, l.Pairwise (fun a b => f a ≤ f b) →
    l.filter (fun x => decide (f x ≤ L)) = l.take (l.filter (fun x => decide (f x ≤ L))).length := by
  intro l
  induction l with
  | nil => simp
  | cons x l ih =>
    intro h
    rw [List.pairwise_cons] at h
    rw [List.filter_cons]
    by_cases hx : f x ≤ L
    · rw [if_pos (by simpa using hx)]
      simp only [List.length_cons, List.take_succ_cons]
      rw [← ih h.2]
    · rw [if_neg (by simpa using hx)]
      have : l.filter (fun x => decide (f x ≤ L)) = [] := by
        rw [List.filter_eq_nil_iff]
        intro y hy
        have := h.1 y hy
        simp; omega
      rw [this]; simp

theorem filter_all {α : Type} (p : α → Bool) (l : List α) (h : ∀ x ∈ l, p x = true) : l.filter p = l :=
  List.filter_eq_self.2 h

/-! ### Dictionaries -/

theorem put_new {K W : Type} [DecidableEq K] : ∀ (d : Dict K W) (k : K) (w : W), k ∉ Dict.keys d →
    d.put k w = d ++ [(k, w)] := by
  intro d k w
  induction d with
  | nil => intro _; rfl
  | cons e d ih =>
    intro h
    obtain ⟨a, b⟩ := e
    simp only [Dict.keys, List.map_cons, List.mem_cons, not_or] at h
    show (if a = k then _ else _) = _
    rw [if_neg (fun e => h.1 e.symm), ih h.2]; rfl

theorem has_iff {K W : Type} [DecidableEq K] (d : Dict K W) (k : K) : d.has k = true ↔ k ∈ Dict.keys d := by
  unfold Dict.has
  have := Dict.get_none_iff d k
  cases h : d.get k with
  | none => simp; exact this.1 h
  | some v =>
    simp
    rw [h] at this
    simp at this
    exact this

theorem get_map_val {K W X : Type} [DecidableEq K] (f : W → X) : ∀ (d : Dict K W) (k : K),
    Dict.get (d.map (fun e => (e.1, f e.2))) k = (d.get k).map f := by
  intro d k
  induction d with
  | nil => rfl
  | cons e d ih =>
    obtain ⟨a, b⟩ := e
    simp only [List.map_cons, Dict.get]
    by_cases h : a = k
    · simp [h]
    · simp [h, ih]

/-! ### The invariant -/

/-- What holds of the partial solution during a search. -/
structure Inv (prob : Problem P V S) (s : St P V S) : Prop where
  levels : s.decisions.map (fun e => e.2.1.level) = List.range s.decisions.length
  wfD : Dict.Wf s.decisions
  wfR : Dict.Wf s.required
  own : ∀ e ∈ s.decisions, e.2.1.term.package = e.1 ∧ e.2.1 ∈ s.byOrder ∧ e.2.1.cause = none
  dec : ∀ p a v, (p, a, v) ∈ s.decisions → Offers prob p v ∧ ∃ ds, prob.deps p v = some ds ∧
    ∀ q ∈ ds.map (·.1), ∃ l, (q, l) ∈ s.required ∧ l ≤ a.level
  req : ∀ q l, (q, l) ∈ s.required → q = prob.root ∨ ∃ p a v, (p, a, v) ∈ s.decisions ∧ a.level = l ∧ DependsOn prob p v q
  decReq : ∀ p a v, (p, a, v) ∈ s.decisions → ∃ l, (p, l) ∈ s.required ∧ (p = prob.root ∨ l < a.level)
  root : (prob.root, 0) ∈ s.required
  first : s.decisions = [] ∨ s.decisions.head?.map (·.1) = some prob.root
  low : s.decisions = [] → ∀ q l, (q, l) ∈ s.required → q = prob.root ∧ l = 0
  reqLe : ∀ q l, (q, l) ∈ s.required → l ≤ s.decisionLevel
  refines : ∀ p, s.asgsOf p = s.byOrder.filter (fun a => a.term.package = p)
  sorted : s.byOrder.Pairwise (fun a b => a.level ≤ b.level)
  le : ∀ a ∈ s.byOrder, a.level ≤ s.decisionLevel
  order : s.byOrder.map (·.order) = List.range s.byOrder.length

theorem Inv.congr {prob : Problem P V S} {s t : St P V S} (h : Inv prob s) (e : SamePartial s t) : Inv prob t := by
  obtain ⟨e1, e2, e3, e4⟩ := e
  have hl : s.decisionLevel = t.decisionLevel := by unfold St.decisionLevel; rw [e4]
  obtain ⟨h1, h2, h3, h4, h5, h6, h7, h8, h9, h10, h11, h12, h13, h14, h15⟩ := h
  constructor
  · rw [← e4]; exact h1
  · rw [← e4]; exact h2
  · rw [← e3]; exact h3
  · rw [← e4, ← e1]; exact h4
  · rw [← e4, ← e3]; exact h5
  · rw [← e4, ← e3]; exact h6
  · rw [← e4, ← e3]; exact h7
  · rw [← e3]; exact h8
  · rw [← e4]; exact h9
  · rw [← e4, ← e3]; exact h10
  · rw [← e3, ← hl]; exact h11
  · intro p; rw [← e2, ← e1]; exact h12 p
  · rw [← e1]; exact h13
  · rw [← e1, ← hl]; exact h14
  · rw [← e1]; exact h15

theorem SamePartial.refl (s : St P V S) : SamePartial s s := ⟨rfl, fun _ => rfl, rfl, rfl⟩

theorem SamePartial.symm {s t : St P V S} (h : SamePartial s t) : SamePartial t s :=
  ⟨h.1.symm, fun p => (h.2.1 p).symm, h.2.2.1.symm, h.2.2.2.symm⟩

theorem SamePartial.trans {s t u : St P V S} (h : SamePartial s t) (h' : SamePartial t u) : SamePartial s u :=
  ⟨h.1.trans h'.1, fun p => (h.2.1 p).trans (h'.2.1 p), h.2.2.1.trans h'.2.2.1, h.2.2.2.trans h'.2.2.2⟩

/-! ### Backtracking -/

theorem asgsOf_backtrack (s : St P V S) (L : Nat) (p : P) :
    (s.backtrack L).asgsOf p = (s.asgsOf p).filter (fun a => decide (a.level ≤ L)) := by
  unfold St.asgsOf
  show ((Dict.get (s.asgs.map _) p).getD []) = _
  rw [get_map_val (fun l : List (Asg P S) => l.filter (fun a => decide (a.level ≤ L)))]
  cases s.asgs.get p <;> simp

theorem Inv.backtrack_decisions {prob : Problem P V S} {s : St P V S} (h : Inv prob s) (L : Nat) :
    (s.backtrack L).decisions = s.decisions.take (L + 1) := by
  show s.decisions.filter _ = _
  have := filter_le_range (fun e : P × Asg P S × V => e.2.1.level) s.decisions.length L s.decisions 0
    (by rw [h.levels, List.range_eq_range'])
  simpa using this

theorem Inv.backtrack_level {prob : Problem P V S} {s : St P V S} (h : Inv prob s) (L : Nat) (hL : L ≤ s.decisionLevel) :
    (s.backtrack L).decisionLevel = L := by
  unfold St.decisionLevel at *
  rw [h.backtrack_decisions L, List.length_take]
  omega

theorem mem_backtrack_decisions {s : St P V S} {L : Nat} {p : P} {a : Asg P S} {v : V} :
    (p, a, v) ∈ (s.backtrack L).decisions ↔ (p, a, v) ∈ s.decisions ∧ a.level ≤ L := by
  show _ ∈ s.decisions.filter _ ↔ _
  simp

theorem mem_backtrack_required {s : St P V S} {L : Nat} {p : P} {l : Nat} :
    (p, l) ∈ (s.backtrack L).required ↔ (p, l) ∈ s.required ∧ l ≤ L := by
  show _ ∈ s.required.filter _ ↔ _
  simp

theorem mem_backtrack_order {s : St P V S} {L : Nat} {a : Asg P S} :
    a ∈ (s.backtrack L).byOrder ↔ a ∈ s.byOrder ∧ a.level ≤ L := by
  show _ ∈ s.byOrder.filter _ ↔ _
  simp

theorem wf_filter {K W : Type} [DecidableEq K] (d : Dict K W) (p : K × W → Bool) (h : Dict.Wf d) : Dict.Wf (d.filter p) := by
  unfold Dict.Wf Dict.keys at *
  exact (List.filter_sublist.map _).nodup h

theorem Inv.backtrack_order {prob : Problem P V S} {s : St P V S} (h : Inv prob s) (L : Nat) :
    (s.backtrack L).byOrder = s.byOrder.take (s.backtrack L).byOrder.length :=
  filter_le_prefix (fun a : Asg P S => a.level) L s.byOrder h.sorted

theorem Inv.backtrack {prob : Problem P V S} {s : St P V S} (h : Inv prob s) (L : Nat) (hL : L ≤ s.decisionLevel) :
    Inv prob (s.backtrack L) := by
  have hd := h.backtrack_decisions L
  have hl := h.backtrack_level L hL
  constructor
  · rw [hd]; exact map_take_range _ _ h.levels _
  · exact wf_filter _ _ h.wfD
  · exact wf_filter _ _ h.wfR
  · rintro ⟨p, a, v⟩ he
    rw [mem_backtrack_decisions] at he
    obtain ⟨a1, a2, a3⟩ := h.own _ he.1
    exact ⟨a1, mem_backtrack_order.2 ⟨a2, he.2⟩, a3⟩
  · intro p a v he
    rw [mem_backtrack_decisions] at he
    obtain ⟨ho, ds, hds, hq⟩ := h.dec _ _ _ he.1
    refine ⟨ho, ds, hds, fun q hq' => ?_⟩
    obtain ⟨l, h1, h2⟩ := hq q hq'
    exact ⟨l, mem_backtrack_required.2 ⟨h1, Nat.le_trans h2 he.2⟩, h2⟩
  · intro q l he
    rw [mem_backtrack_required] at he
    rcases h.req q l he.1 with h1 | ⟨p, a, v, h1, h2, h3⟩
    · exact .inl h1
    · exact .inr ⟨p, a, v, mem_backtrack_decisions.2 ⟨h1, by omega⟩, h2, h3⟩
  · intro p a v he
    rw [mem_backtrack_decisions] at he
    obtain ⟨l, h1, h2⟩ := h.decReq _ _ _ he.1
    by_cases hp : p = prob.root
    · subst hp
      exact ⟨0, mem_backtrack_required.2 ⟨h.root, Nat.zero_le _⟩, .inl rfl⟩
    · rcases h2 with h2 | h2
      · exact absurd h2 hp
      · exact ⟨l, mem_backtrack_required.2 ⟨h1, by omega⟩, .inr h2⟩
  · exact mem_backtrack_required.2 ⟨h.root, Nat.zero_le _⟩
  · rw [hd]
    rcases h.first with h1 | h1
    · left; rw [h1]; rfl
    · right
      cases hs : s.decisions with
      | nil => rw [hs] at h1; simp at h1
      | cons e l => rw [hs] at h1; simpa using h1
  · intro he q l hq
    rw [mem_backtrack_required] at hq
    refine h.low ?_ q l hq.1
    rw [hd] at he
    simpa using he
  · intro q l hq
    rw [mem_backtrack_required] at hq
    rw [hl]; exact hq.2
  · intro p
    rw [asgsOf_backtrack, h.refines]
    show _ = (s.byOrder.filter _).filter _
    rw [List.filter_filter, List.filter_filter]
    congr 1; funext a; rw [Bool.and_comm]
  · exact List.Pairwise.filter _ h.sorted
  · intro a ha
    rw [mem_backtrack_order] at ha
    rw [hl]; exact ha.2
  · rw [h.backtrack_order L]; exact map_take_range _ _ h.order _

/-! ### Derivations -/

theorem asgsOf_push (s : St P V S) (a : Asg P S) (p : P) :
    (s.push a).asgsOf p = if a.term.package = p then s.asgsOf p ++ [a] else s.asgsOf p := by
  unfold St.push St.asgsOf
  simp only [Dict.get_put]
  by_cases h : a.term.package = p
  · subst h; simp
  · simp [h]

theorem makeAssignment_ok {alg : Alg V S} {root : P} {s : St P V S} {t : Term P S} {c : Option Nat} {a : Asg P S}
    (h : s.makeAssignment alg root t c = .ok a) : a.term = t ∧ a.order = s.byOrder.length ∧ a.cause = c ∧
      a.level = (if c = none ∧ t.package ≠ root then s.decisionLevel + 1 else s.decisionLevel) ∧
      s.accumulated alg t = .ok a.acc := by
  unfold St.makeAssignment at h
  simp only [pure, Except.pure, bind, Except.bind] at h
  cases hi : s.accumulated alg t with
  | error e => rw [hi] at h; simp at h
  | ok x =>
    rw [hi] at h
    simp only [Except.ok.injEq] at h
    subst h; exact ⟨rfl, rfl, rfl, rfl, rfl⟩

theorem derive_ok {alg : Alg V S} {root : P} {s s' : St P V S} {t : Term P S} {c : Nat}
    (h : s.derive alg root t c = .ok s') : ∃ a, s.makeAssignment alg root t (some c) = .ok a ∧
      s' = { s.push a with byOrder := s.byOrder ++ [a] } := by
  unfold St.derive at h
  simp only [bind, Except.bind, pure, Except.pure] at h
  cases hm : s.makeAssignment alg root t (some c) with
  | error e => rw [hm] at h; simp at h
  | ok a => rw [hm] at h; simp only [Except.ok.injEq] at h; exact ⟨a, rfl, h.symm⟩

theorem Inv.derived {alg : Alg V S} {prob : Problem P V S} {s s' : St P V S} {t : Term P S} {c : Nat} (h : Inv prob s)
    (hd : s.derive alg prob.root t c = .ok s') : Inv prob s' := by
  obtain ⟨a, ha, rfl⟩ := derive_ok hd
  obtain ⟨m1, m2, m3, m4, m5⟩ := makeAssignment_ok ha
  simp only [reduceCtorEq, false_and, if_false] at m4
  have hl : St.decisionLevel ({ s.push a with byOrder := s.byOrder ++ [a] } : St P V S) = s.decisionLevel := rfl
  refine ⟨h.levels, h.wfD, h.wfR, ?_, h.dec, h.req, h.decReq, h.root, h.first, h.low, h.reqLe, ?_, ?_, ?_, ?_⟩
  · intro e he
    obtain ⟨a1, a2, a3⟩ := h.own e he
    exact ⟨a1, by simp [a2], a3⟩
  · intro p
    show (s.push a).asgsOf p = _
    rw [asgsOf_push, List.filter_append, h.refines p]
    by_cases hp : a.term.package = p
    · simp [hp]
    · simp [hp]
  · rw [List.pairwise_append]
    refine ⟨h.sorted, by simp, ?_⟩
    intro x hx y hy
    simp only [List.mem_singleton] at hy
    subst hy
    rw [m4]; exact h.le x hx
  · intro x hx
    rw [hl]
    simp only [List.mem_append, List.mem_singleton] at hx
    rcases hx with hx | rfl
    · exact h.le x hx
    · omega
  · show (s.byOrder ++ [a]).map _ = _
    rw [List.map_append, h.order, List.length_append, List.length_singleton, List.range_succ]
    simp [m2]

/-! ### Decisions -/

theorem require_fields (s : St P V S) (ps : List P) : (s.require ps).decisions = s.decisions ∧
    (s.require ps).byOrder = s.byOrder ∧ (s.require ps).asgs = s.asgs ∧ (s.require ps).incs = s.incs ∧
    (s.require ps).byPackage = s.byPackage ∧ (s.require ps).deps = s.deps ∧ (s.require ps).unavailable = s.unavailable ∧
    (s.require ps).trouble = s.trouble ∧ (s.require ps).tick = s.tick := by
  induction ps generalizing s with
  | nil => simp [St.require]
  | cons p ps ih =>
    rw [St.require]
    split
    · exact ih s
    · have := ih { s with required := s.required.put p s.decisionLevel }
      simpa using this

theorem require_mem (s : St P V S) (ps : List P) (hw : Dict.Wf s.required) :
    Dict.Wf (s.require ps).required ∧
    (∃ tail : List (P × Nat), (s.require ps).required = s.required ++ tail ∧ ∀ e ∈ tail, e.2 = s.decisionLevel ∧ e.1 ∈ ps) ∧
    ∀ p ∈ ps, ∃ l, (p, l) ∈ (s.require ps).required := by
  induction ps generalizing s with
  | nil => exact ⟨hw, ⟨[], by simp [St.require], by simp⟩, by simp⟩
  | cons p ps ih =>
    rw [St.require]
    by_cases hp : s.required.has p = true
    · rw [if_pos hp]
      obtain ⟨h1, ⟨tail, h2, h3⟩, h4⟩ := ih s hw
      refine ⟨h1, ⟨tail, h2, fun e he => ⟨(h3 e he).1, List.mem_cons_of_mem _ (h3 e he).2⟩⟩, ?_⟩
      intro q hq
      rcases List.mem_cons.1 hq with rfl | hq
      · rw [has_iff] at hp
        unfold Dict.keys at hp
        rw [List.mem_map] at hp
        obtain ⟨⟨x, l⟩, h5, rfl⟩ := hp
        exact ⟨l, by rw [h2]; simp [h5]⟩
      · exact h4 q hq
    · rw [if_neg hp]
      have hn : p ∉ Dict.keys s.required := fun h => hp ((has_iff _ _).2 h)
      obtain ⟨h1, ⟨tail, h2, h3⟩, h4⟩ := ih { s with required := s.required.put p s.decisionLevel } (Dict.wf_put _ _ _ hw)
      have h2 := h2.trans (congrArg (· ++ tail) (put_new _ _ _ hn))
      refine ⟨h1, ⟨(p, s.decisionLevel) :: tail, h2.trans (by simp), ?_⟩, ?_⟩
      · intro e he
        rcases List.mem_cons.1 he with rfl | he
        · exact ⟨rfl, by simp⟩
        · exact ⟨(h3 e he).1, List.mem_cons_of_mem _ (h3 e he).2⟩
      · intro q hq
        rcases List.mem_cons.1 hq with rfl | hq
        · exact ⟨s.decisionLevel, by rw [h2]; simp⟩
        · exact h4 q hq

theorem depDict_packages (ds : List (P × S)) (q : P) : q ∈ (depDict ds).map (·.package) ↔ q ∈ ds.map (·.1) := by
  unfold depDict
  rw [List.map_map]
  have : ∀ d : Dict P S, q ∈ (ds.foldl (fun (d : Dict P S) e => d.put e.1 e.2) d).map (fun e => e.1) ↔
      q ∈ Dict.keys d ∨ q ∈ ds.map (·.1) := by
    induction ds with
    | nil => intro d; simp [Dict.keys]
    | cons e ds ih =>
      intro d
      rw [List.foldl_cons, ih, Dict.keys_put]
      by_cases h : e.1 ∈ Dict.keys d
      · rw [if_pos h]
        simp only [List.map_cons, List.mem_cons]
        constructor
        · rintro (h1 | h1)
          · exact .inl h1
          · exact .inr (.inr h1)
        · rintro (h1 | h1 | h1)
          · exact .inl h1
          · subst h1; exact .inl h
          · exact .inr h1
      · rw [if_neg h]
        simp only [List.mem_append, List.mem_singleton, List.map_cons, List.mem_cons, or_assoc, List.not_mem_nil, false_or]
  have h2 := this []
  simp only [Dict.keys, List.map_nil, List.not_mem_nil, false_or] at h2
  exact h2

theorem mem_undecided {s : St P V S} {p : P} (h : p ∈ s.undecided) :
    (∃ l, (p, l) ∈ s.required) ∧ p ∉ Dict.keys s.decisions := by
  unfold St.undecided at h
  rw [List.mem_filter] at h
  obtain ⟨h1, h2⟩ := h
  refine ⟨?_, ?_⟩
  · unfold Dict.keys at h1
    rw [List.mem_map] at h1
    obtain ⟨⟨x, l⟩, h3, rfl⟩ := h1
    exact ⟨l, h3⟩
  · intro h3
    rw [← has_iff] at h3
    simp [h3] at h2

theorem Inv.decision_level {alg : Alg V S} {prob : Problem P V S} {s : St P V S} {p : P} {v : V} {a : Asg P S}
    (h : Inv prob s) (hp : p ∈ s.undecided) (ha : s.makeAssignment alg prob.root ⟨p, alg.single v⟩ none = .ok a) :
    a.level = s.decisions.length ∧ (p = prob.root ↔ s.decisions = []) := by
  obtain ⟨m1, m2, m3, m4, m5⟩ := makeAssignment_ok ha
  obtain ⟨⟨l, hl⟩, hn⟩ := mem_undecided hp
  have hr : p = prob.root ↔ s.decisions = [] := by
    constructor
    · intro e
      rcases h.first with h1 | h1
      · exact h1
      · exfalso
        apply hn
        subst e
        cases hs : s.decisions with
        | nil => rw [hs] at h1; simp at h1
        | cons x y =>
          rw [hs] at h1
          simp at h1
          simp [Dict.keys, h1]
    · intro e
      exact (h.low e p l hl).1
  refine ⟨?_, hr⟩
  rw [m4]
  by_cases e : p = prob.root
  · rw [if_neg (by simp [e])]
    unfold St.decisionLevel
    rw [hr.1 e]; rfl
  · rw [if_pos ⟨rfl, e⟩]
    unfold St.decisionLevel
    have : s.decisions ≠ [] := fun x => e (hr.2 x)
    have := List.length_pos_iff.2 this
    omega

theorem Inv.decided {alg : Alg V S} {prob : Problem P V S} {s : St P V S} {p : P} {v : V} {ds : List (P × S)} {a : Asg P S}
    (h : Inv prob s) (hp : p ∈ s.undecided) (ho : Offers prob p v) (hd : prob.deps p v = some ds)
    (ha : s.makeAssignment alg prob.root ⟨p, alg.single v⟩ none = .ok a) :
    Inv prob ((s.decide a v).require ((depDict ds).map (·.package))) := by
  obtain ⟨m1, m2, m3, m4, m5⟩ := makeAssignment_ok ha
  obtain ⟨hlev, hroot⟩ := h.decision_level hp ha
  obtain ⟨⟨l, hl⟩, hn⟩ := mem_undecided hp
  have hap : a.term.package = p := by rw [m1]
  have hdec : (s.decide a v).decisions = s.decisions ++ [(p, a, v)] := by
    show s.decisions.put _ _ = _
    rw [hap, put_new _ _ _ hn]
  have hord : (s.decide a v).byOrder = s.byOrder ++ [a] := rfl
  have hlv : (s.decide a v).decisionLevel = s.decisions.length := by
    unfold St.decisionLevel; rw [hdec]; simp
  have hle0 : s.decisionLevel ≤ s.decisions.length := by unfold St.decisionLevel; omega
  obtain ⟨f1, f2, f3, -⟩ := require_fields (s.decide a v) ((depDict ds).map (·.package))
  obtain ⟨r1, ⟨tail, r2, r3⟩, r4⟩ := require_mem (s.decide a v) ((depDict ds).map (·.package)) h.wfR
  have r2' : ((s.decide a v).require ((depDict ds).map (·.package))).required = s.required ++ tail := r2
  have hlv' : ((s.decide a v).require ((depDict ds).map (·.package))).decisionLevel = s.decisions.length := by
    rw [← hlv]; unfold St.decisionLevel; rw [f1]
  have hmem : ∀ p' a' v', (p', a', v') ∈ s.decisions ++ [(p, a, v)] →
      (p', a', v') ∈ s.decisions ∨ (p' = p ∧ a' = a ∧ v' = v) := by
    intro p' a' v' hx
    simpa using hx
  constructor
  · rw [f1, hdec, List.map_append, h.levels, List.length_append, List.length_singleton, List.range_succ]
    simp [hlev]
  · rw [f1]; exact Dict.wf_put _ _ _ h.wfD
  · exact r1
  · rw [f1, f2, hdec, hord]
    rintro ⟨p', a', v'⟩ he
    rcases hmem _ _ _ he with he | ⟨rfl, rfl, rfl⟩
    · obtain ⟨a1, a2, a3⟩ := h.own _ he
      exact ⟨a1, by simp [a2], a3⟩
    · exact ⟨hap, by simp, m3⟩
  · rw [f1, hdec, r2']
    intro p' a' v' he
    rcases hmem _ _ _ he with he | ⟨rfl, rfl, rfl⟩
    · obtain ⟨ho', ds', hds', hq⟩ := h.dec _ _ _ he
      refine ⟨ho', ds', hds', fun q hq' => ?_⟩
      obtain ⟨l', h1, h2⟩ := hq q hq'
      exact ⟨l', by simp [h1], h2⟩
    · refine ⟨ho, ds, hd, fun q hq => ?_⟩
      obtain ⟨l', hl'⟩ := r4 q ((depDict_packages ds q).2 hq)
      rw [r2'] at hl'
      refine ⟨l', hl', ?_⟩
      rw [hlev]
      rcases List.mem_append.1 hl' with h1 | h1
      · exact Nat.le_trans (h.reqLe q l' h1) hle0
      · exact Nat.le_of_eq ((r3 _ h1).1.trans hlv)
  · rw [f1, hdec, r2']
    intro q l' hq
    rcases List.mem_append.1 hq with h1 | h1
    · rcases h.req q l' h1 with h2 | ⟨p', a', v', h2, h3, h4⟩
      · exact .inl h2
      · exact .inr ⟨p', a', v', by simp [h2], h3, h4⟩
    · right
      refine ⟨p, a, v, by simp, ?_, ds, hd, ?_⟩
      · rw [hlev]; exact ((r3 _ h1).1.trans hlv).symm
      · exact (depDict_packages ds q).1 (r3 _ h1).2
  · rw [f1, hdec, r2']
    intro p' a' v' he
    rcases hmem _ _ _ he with he | ⟨rfl, rfl, rfl⟩
    · obtain ⟨l', h1, h2⟩ := h.decReq _ _ _ he
      exact ⟨l', by simp [h1], h2⟩
    · refine ⟨l, by simp [hl], ?_⟩
      by_cases e : p' = prob.root
      · exact .inl e
      · right
        have hne : s.decisions ≠ [] := fun x => e (hroot.2 x)
        have := List.length_pos_iff.2 hne
        have h2 := h.reqLe _ _ hl
        unfold St.decisionLevel at h2
        rw [hlev]; omega
  · rw [r2']; simp [h.root]
  · rw [f1, hdec]
    right
    rcases h.first with h1 | h1
    · rw [h1, hroot.2 h1]; rfl
    · cases hs : s.decisions with
      | nil => rw [hs] at h1; simp at h1
      | cons e l => rw [hs] at h1; simpa using h1
  · rw [f1, hdec]; intro e; simp at e
  · rw [r2', hlv']
    intro q l' hq
    rcases List.mem_append.1 hq with h1 | h1
    · exact Nat.le_trans (h.reqLe q l' h1) hle0
    · exact Nat.le_of_eq ((r3 _ h1).1.trans hlv)
  · intro q
    have e1 : ((s.decide a v).require ((depDict ds).map (·.package))).asgsOf q = (s.push a).asgsOf q := by
      unfold St.asgsOf; rw [f3]; rfl
    rw [e1, f2, hord, asgsOf_push, List.filter_append, h.refines q]
    by_cases hq : a.term.package = q
    · simp [hq]
    · simp [hq]
  · rw [f2, hord, List.pairwise_append]
    refine ⟨h.sorted, by simp, ?_⟩
    intro x hx y hy
    simp only [List.mem_singleton] at hy
    subst hy
    rw [hlev]; exact Nat.le_trans (h.le x hx) hle0
  · rw [f2, hord, hlv']
    intro x hx
    simp only [List.mem_append, List.mem_singleton] at hx
    rcases hx with hx | rfl
    · exact Nat.le_trans (h.le x hx) hle0
    · omega
  · rw [f2, hord, List.map_append, h.order, List.length_append, List.length_singleton, List.range_succ]
    simp [m2]

theorem Inv.step {alg : Alg V S} {prob : Problem P V S} {s t : St P V S} (h : Inv prob s)
    (hs : SearchStep alg prob s t) : Inv prob t := by
  cases hs with
  | derived t c hd => exact h.derived hd
  | decided p v ds a hp ho hd ha => exact h.decided hp ho hd ha
  | backtracked L hL => exact h.backtrack L hL
  | other e => exact h.congr e

theorem Inv.search {alg : Alg V S} {prob : Problem P V S} {s t : St P V S} (h : Inv prob s)
    (hs : Search alg prob s t) : Inv prob t := by
  induction hs with
  | refl => exact h
  | step _ h2 ih => exact ih.step h2

/-- Two backtracks. -/
theorem backtrack_twice (s : St P V S) (K L : Nat) (h : L ≤ K) : SamePartial ((s.backtrack K).backtrack L) (s.backtrack L) := by
  have key : ∀ {α : Type} (f : α → Nat) (l : List α),
      (l.filter (fun x => decide (f x ≤ K))).filter (fun x => decide (f x ≤ L)) = l.filter (fun x => decide (f x ≤ L)) := by
    intro α f l
    rw [List.filter_filter]
    congr 1; funext x
    by_cases hx : f x ≤ L
    · have : f x ≤ K := by omega
      simp [hx, this]
    · simp [hx]
  refine ⟨key (fun a : Asg P S => a.level) s.byOrder, ?_, key (fun e : P × Nat => e.2) s.required,
    key (fun e : P × Asg P S × V => e.2.1.level) s.decisions⟩
  intro p
  rw [asgsOf_backtrack, asgsOf_backtrack, asgsOf_backtrack]
  exact key (fun a : Asg P S => a.level) _

theorem backtrack_congr {s t : St P V S} (h : SamePartial s t) (L : Nat) : SamePartial (s.backtrack L) (t.backtrack L) := by
  obtain ⟨h1, h2, h3, h4⟩ := h
  refine ⟨?_, ?_, ?_, ?_⟩
  · show s.byOrder.filter _ = t.byOrder.filter _; rw [h1]
  · intro p; rw [asgsOf_backtrack, asgsOf_backtrack, h2]
  · show s.required.filter _ = t.required.filter _; rw [h3]
  · show s.decisions.filter _ = t.decisions.filter _; rw [h4]

/-- A derived term goes when the search backtracks below its level. -/
theorem Inv.backtrack_derived {alg : Alg V S} {prob : Problem P V S} {s s' : St P V S} {t : Term P S} {c : Nat} (h : Inv prob s)
    (hd : s.derive alg prob.root t c = .ok s') (L : Nat) (hL : L < s.decisionLevel) :
    SamePartial (s'.backtrack L) (s.backtrack L) := by
  obtain ⟨a, ha, rfl⟩ := derive_ok hd
  obtain ⟨m1, m2, m3, m4, m5⟩ := makeAssignment_ok ha
  simp only [reduceCtorEq, false_and, if_false] at m4
  have hn : ¬ (a.level ≤ L) := by omega
  refine ⟨?_, ?_, rfl, rfl⟩
  · show (s.byOrder ++ [a]).filter _ = s.byOrder.filter _
    rw [List.filter_append]; simp [hn]
  · intro p
    rw [asgsOf_backtrack, asgsOf_backtrack]
    show ((s.push a).asgsOf p).filter _ = _
    rw [asgsOf_push]
    split
    · rw [List.filter_append]; simp [hn]
    · rfl

/-- A decision and what it requires go when the search backtracks below its level. -/
theorem Inv.backtrack_decided {alg : Alg V S} {prob : Problem P V S} {s : St P V S} {p : P} {v : V} {ds : List (P × S)} {a : Asg P S}
    (h : Inv prob s) (hp : p ∈ s.undecided)
    (ha : s.makeAssignment alg prob.root ⟨p, alg.single v⟩ none = .ok a) (L : Nat) (hL : L < s.decisions.length) :
    SamePartial (((s.decide a v).require ((depDict ds).map (·.package))).backtrack L) (s.backtrack L) := by
  obtain ⟨hlev, hroot⟩ := h.decision_level hp ha
  obtain ⟨m1, m2, m3, m4, m5⟩ := makeAssignment_ok ha
  obtain ⟨⟨l, hl⟩, hn⟩ := mem_undecided hp
  have hap : a.term.package = p := by rw [m1]
  have hdec : (s.decide a v).decisions = s.decisions ++ [(p, a, v)] := by
    show s.decisions.put _ _ = _
    rw [hap, put_new _ _ _ hn]
  have hlv : (s.decide a v).decisionLevel = s.decisions.length := by
    unfold St.decisionLevel; rw [hdec]; simp
  obtain ⟨f1, f2, f3, -⟩ := require_fields (s.decide a v) ((depDict ds).map (·.package))
  obtain ⟨r1, ⟨tail, r2, r3⟩, r4⟩ := require_mem (s.decide a v) ((depDict ds).map (·.package)) h.wfR
  have hx : ¬ (a.level ≤ L) := by omega
  refine ⟨?_, ?_, ?_, ?_⟩
  · show ((s.decide a v).require _).byOrder.filter _ = s.byOrder.filter _
    rw [f2]
    show (s.byOrder ++ [a]).filter _ = _
    rw [List.filter_append]; simp [hx]
  · intro q
    rw [asgsOf_backtrack, asgsOf_backtrack]
    have e1 : ((s.decide a v).require ((depDict ds).map (·.package))).asgsOf q = (s.push a).asgsOf q := by
      unfold St.asgsOf; rw [f3]; rfl
    rw [e1, asgsOf_push]
    split
    · rw [List.filter_append]; simp [hx]
    · rfl
  · show ((s.decide a v).require _).required.filter _ = s.required.filter _
    rw [r2]
    show (s.required ++ tail).filter _ = _
    rw [List.filter_append]
    have : tail.filter (fun e => decide (e.2 ≤ L)) = [] := by
      rw [List.filter_eq_nil_iff]
      intro e he
      have := (r3 e he).1
      simp only [decide_eq_true_eq]; omega
    rw [this]; simp
  · show ((s.decide a v).require _).decisions.filter _ = s.decisions.filter _
    rw [f1, hdec, List.filter_append]
    simp [hx]

/-- Backtracking to the current level changes nothing. -/
theorem Inv.backtrack_self {prob : Problem P V S} {s : St P V S} (h : Inv prob s) : SamePartial (s.backtrack s.decisionLevel) s := by
  have hle : ∀ e ∈ s.decisions, e.2.1.level ≤ s.decisionLevel := by
    intro e he
    exact h.le _ (h.own e he).2.1
  refine ⟨?_, ?_, ?_, ?_⟩
  · exact filter_all _ _ (fun a ha => by simpa using h.le a ha)
  · intro p
    rw [asgsOf_backtrack]
    refine filter_all _ _ (fun a ha => ?_)
    rw [h.refines p, List.mem_filter] at ha
    simpa using h.le a ha.1
  · exact filter_all _ _ (fun e he => by simpa using h.reqLe e.1 e.2 he)
  · exact filter_all _ _ (fun e he => by simpa using hle e he)

end Solver
end Pkm
