import Verif.Solver.Run
set_option linter.unusedVariables false
set_option linter.unusedSimpArgs false
set_option linter.unusedSectionVars false
/-
The invariants behind the constraint part of C14: with exact operations on specifiers, every dependency of a
decided version limits the assignments of its package from the propagation after the decision on.
-/
namespace Pkm
open Solver

variable {P V S : Type} [DecidableEq P]

namespace Spec

/-- The operations on specifiers compute what they say, for the versions `V`; `allows_all` of a specifier that
allows nothing is left open, any operation may raise an exception. -/
structure Exact (alg : Alg V S) : Prop where
  inter : ∀ a b r v, alg.inter a b = .ok r → (alg.allows r v = true ↔ alg.allows a v = true ∧ alg.allows b v = true)
  inverse : ∀ a r v, alg.inverse a = .ok r → (alg.allows r v = true ↔ ¬ alg.allows a v = true)
  allowsAny : ∀ a b r, alg.allowsAny a b = .ok r → (r = true ↔ ∃ v, alg.allows a v = true ∧ alg.allows b v = true)
  allowsAll : ∀ a b r v, alg.allowsAll a b = .ok r → alg.allows b v = true →
    (r = true ↔ ∀ w, alg.allows b w = true → alg.allows a w = true)
  same : ∀ a b v, alg.same a b = true → alg.allows a v = alg.allows b v
  isNone : ∀ a v, alg.isNone a = true → ¬ alg.allows a v = true
  all : ∀ v, alg.allows alg.all v = true
  single : ∀ v w, alg.allows (alg.single v) w = true ↔ w = v
  range : ∀ lo hi incl r v, alg.range lo hi incl = .ok r → (alg.allows r v = true ↔
    (∀ l, lo = some l → alg.lt l v = true) ∧ (∀ h, hi = some h → alg.lt v h = true ∨ (incl = true ∧ v = h)))
  nonStandard : ∀ a v, alg.nonStandard a = some v → alg.allows a v = true
  ltIrrefl : ∀ v, alg.lt v v = false
  ltTrans : ∀ u v w, alg.lt u v = true → alg.lt v w = true → alg.lt u w = true
  ltTotal : ∀ u v, alg.lt u v = true ∨ u = v ∨ alg.lt v u = true

/-- Each version is offered once, no version has two dependencies on one package, and neighbouring versions of a
package have different constraints on each of their common dependencies. -/
structure Unshared (alg : Alg V S) (prob : Problem P V S) : Prop where
  nodup : ∀ p, (prob.versions p).Nodup
  once : ∀ p v ds, prob.deps p v = some ds → (ds.map (·.1)).Nodup
  neighbours : ∀ p v w ds es q c d, v ∈ prob.versions p → w ∈ prob.versions p → alg.lt v w = true →
    (∀ u ∈ prob.versions p, ¬ (alg.lt v u = true ∧ alg.lt u w = true)) →
    prob.deps p v = some ds → prob.deps p w = some es → (q, c) ∈ ds → (q, d) ∈ es → alg.same d c = false

end Spec

namespace Solver
open Spec

variable {alg : Alg V S} {prob : Problem P V S} {ch : Choices P S}

/-- Everything `a` allows is allowed by `b`. -/
def Sub (alg : Alg V S) (a b : S) : Prop := ∀ v, alg.allows a v = true → alg.allows b v = true

/-- `a` allows just `v`. -/
def Exactly (alg : Alg V S) (a : S) (v : V) : Prop := ∀ u, alg.allows a u = true ↔ u = v

theorem Sub.trans {a b c : S} (h : Sub alg a b) (h' : Sub alg b c) : Sub alg a c := fun v hv => h' v (h v hv)

/-- The accumulated constraints shrink, and those of a decided package allow its version. -/
structure PInv (alg : Alg V S) (s : St P V S) : Prop where
  decr : ∀ q, (s.asgsOf q).Pairwise (fun a b => Sub alg b.acc a.acc)
  dec : ∀ q a w, (q, a, w) ∈ s.decisions → (∀ x ∈ s.asgsOf q, alg.allows x.acc w = true) ∧
    Exactly alg a.acc w

/-- The incompatibilities are well formed. -/
structure IInv (s : St P V S) : Prop where
  deps : ∀ i d e f, (s.inc i).dep = some (d, e, f) → d ∈ (s.inc i).terms
  valid : ∀ x j, j ∈ s.incsOf x → j < s.incs.length
  una : ∀ x i, s.unavailable.get x = some i → i < s.incs.length ∧ (s.inc i).dep = none

/-- The constraint limits the package from level `l` on. -/
def GoodDep (alg : Alg V S) (s : St P V S) (l : Nat) (q : P) (c : S) : Prop :=
  ∃ a, ((s.asgsOf q).filter (fun a => decide (a.level ≤ l))).getLast? = some a ∧ Sub alg a.acc c

/-- The dependencies of all decisions below a level limit their packages. -/
def GoodBelow (alg : Alg V S) (prob : Problem P V S) (s : St P V S) (L : Nat) : Prop :=
  ∀ p a v ds, (p, a, v) ∈ s.decisions → a.level < L → prob.deps p v = some ds → ∀ q c, (q, c) ∈ ds → GoodDep alg s a.level q c

def AllGood (alg : Alg V S) (prob : Problem P V S) (s : St P V S) : Prop :=
  ∀ p a v ds, (p, a, v) ∈ s.decisions → prob.deps p v = some ds → ∀ q c, (q, c) ∈ ds → GoodDep alg s a.level q c

/-! ### States with the same partial solution -/

theorem SamePartial.lastAcc {s t : St P V S} (h : SamePartial s t) (q : P) : s.lastAcc q = t.lastAcc q := by
  unfold St.lastAcc; rw [h.2.1]

theorem PInv.congr {s t : St P V S} (h : PInv alg s) (e : SamePartial s t) : PInv alg t := by
  constructor
  · intro q; rw [← e.2.1]; exact h.decr q
  · intro q a w hq
    rw [← e.2.1]
    exact h.dec q a w (by rw [e.2.2.2]; exact hq)

theorem GoodDep.congr {s t : St P V S} {l : Nat} {q : P} {c : S} (h : GoodDep alg s l q c) (e : SamePartial s t) :
    GoodDep alg t l q c := by
  unfold GoodDep at *; rw [← e.2.1]; exact h

theorem AllGood.congr {s t : St P V S} (h : AllGood alg prob s) (e : SamePartial s t) : AllGood alg prob t := by
  intro p a v ds hp hd q c hq
  exact (h p a v ds (by rw [e.2.2.2]; exact hp) hd q c hq).congr e

theorem GoodBelow.congr {s t : St P V S} {L : Nat} (h : GoodBelow alg prob s L) (e : SamePartial s t) : GoodBelow alg prob t L := by
  intro p a v ds hp hl hd q c hq
  exact (h p a v ds (by rw [e.2.2.2]; exact hp) hl hd q c hq).congr e

/-! ### Adding an assignment -/

theorem getLast_append_one {α : Type} (l : List α) (a : α) : (l ++ [a]).getLast? = some a := by simp

theorem lastAcc_push (s : St P V S) (a : Asg P S) (q : P) :
    (s.push a).lastAcc q = if a.term.package = q then some a.acc else s.lastAcc q := by
  unfold St.lastAcc
  rw [asgsOf_push]
  split <;> simp

theorem lastAcc_mem {s : St P V S} {q : P} {acc : S} (h : s.lastAcc q = some acc) :
    ∃ a, (s.asgsOf q).getLast? = some a ∧ a.acc = acc := by
  unfold St.lastAcc at h
  cases hl : (s.asgsOf q).getLast? with
  | none => rw [hl] at h; simp at h
  | some a => rw [hl] at h; simp at h; exact ⟨a, rfl, h⟩

theorem pairwise_getLast {α : Type} {R : α → α → Prop} {l : List α} (h : l.Pairwise R) {z : α} (hz : l.getLast? = some z) :
    ∀ x ∈ l, x = z ∨ R x z := by
  intro x hx
  rw [List.getLast?_eq_some_iff] at hz
  obtain ⟨ys, rfl⟩ := hz
  rw [List.pairwise_append] at h
  rcases List.mem_append.1 hx with h1 | h1
  · exact .inr (h.2.2 x h1 z (by simp))
  · simp at h1; exact .inl h1

/-- All assignments of a package include what its last one accumulates. -/
theorem PInv.last_sub {s : St P V S} (h : PInv alg s) {q : P} {acc : S} (hl : s.lastAcc q = some acc) :
    ∀ x ∈ s.asgsOf q, Sub alg acc x.acc := by
  obtain ⟨z, h1, rfl⟩ := lastAcc_mem hl
  intro x hx
  rcases pairwise_getLast (h.decr q) h1 x hx with rfl | h2
  · exact fun v hv => hv
  · exact h2

theorem lastAcc_none {s : St P V S} {q : P} (h : s.lastAcc q = none) : s.asgsOf q = [] := by
  unfold St.lastAcc at h
  rw [Option.map_eq_none_iff] at h
  exact List.getLast?_eq_none_iff.1 h

/-- A further assignment that shrinks keeps a limit. -/
theorem GoodDep.push {s : St P V S} (hi : Inv prob s) {a : Asg P S} (ha : s.decisionLevel ≤ a.level)
    (hs : ∀ acc, s.lastAcc a.term.package = some acc → Sub alg a.acc acc) {l : Nat} {q : P} {c : S}
    (h : GoodDep alg s l q c) : GoodDep alg (s.push a) l q c := by
  unfold GoodDep at *
  rw [asgsOf_push]
  split
  · rename_i e
    rw [List.filter_append]
    obtain ⟨b, h1, h2⟩ := h
    by_cases hl : a.level ≤ l
    · refine ⟨a, by simp [hl], ?_⟩
      have hall : (s.asgsOf q).filter (fun a => decide (a.level ≤ l)) = s.asgsOf q :=
        filter_all _ _ (fun x hx => by
          have := asgsOf_level hi hx
          simp; omega)
      rw [hall] at h1
      have : s.lastAcc a.term.package = some b.acc := by
        unfold St.lastAcc; rw [e, h1]; rfl
      exact (hs _ this).trans h2
    · exact ⟨b, by simp [hl, h1], h2⟩
  · exact h

theorem pinv_push {s : St P V S} (h : PInv alg s) {a : Asg P S} (hs : ∀ acc, s.lastAcc a.term.package = some acc → Sub alg a.acc acc) :
    ∀ q, ((s.push a).asgsOf q).Pairwise (fun a b => Sub alg b.acc a.acc) := by
  intro q
  rw [asgsOf_push]
  split
  · rename_i e
    rw [List.pairwise_append]
    refine ⟨h.decr q, by simp, ?_⟩
    intro x hx y hy
    simp at hy
    subst hy
    cases hl : s.lastAcc q with
    | none => rw [lastAcc_none hl] at hx; simp at hx
    | some acc => exact (hs acc (by rw [e]; exact hl)).trans (h.last_sub hl x hx)
  · exact h.decr q

/-- The accumulated constraint of a new assignment. -/
theorem accumulated_sub (hx : Exact alg) {s : St P V S} {t : Term P S} {r : S} (h : s.accumulated alg t = .ok r) :
    Sub alg r t.constraint ∧ ∀ acc, s.lastAcc t.package = some acc →
      ∀ v, alg.allows r v = true ↔ alg.allows acc v = true ∧ alg.allows t.constraint v = true := by
  unfold St.accumulated at h
  split at h
  · rename_i b hb
    have := fun v => hx.inter b t.constraint r v
    refine ⟨fun v hv => ((this v h).1 hv).2, ?_⟩
    intro acc hacc v
    rw [hb] at hacc
    simp at hacc
    subst hacc
    exact this v h
  · rename_i hb
    rw [← pure_ok h]
    refine ⟨fun v hv => hv, ?_⟩
    intro acc hacc
    rw [hb] at hacc; simp at hacc

/-- A derivation for an undecided package. -/
theorem derive_good (hx : Exact alg) {s s' : St P V S} {t : Term P S} {c : Nat} (hi : Inv prob s) (hp : PInv alg s)
    (hu : ∀ a w, (t.package, a, w) ∉ s.decisions) (h : s.derive alg prob.root t c = .ok s') :
    PInv alg s' ∧ (AllGood alg prob s → AllGood alg prob s') ∧ (∀ L, GoodBelow alg prob s L → GoodBelow alg prob s' L) ∧
    s'.decisions = s.decisions ∧ (∀ q, q ≠ t.package → s'.lastAcc q = s.lastAcc q) ∧
    ∃ acc, s'.lastAcc t.package = some acc ∧ Sub alg acc t.constraint ∧ ∀ old, s.lastAcc t.package = some old → Sub alg acc old := by
  obtain ⟨a, ha, rfl⟩ := derive_ok h
  obtain ⟨m1, m2, m3, m4, m5⟩ := makeAssignment_ok ha
  simp only [reduceCtorEq, false_and, if_false] at m4
  obtain ⟨k1, k2⟩ := accumulated_sub hx m5
  have hs : ∀ acc, s.lastAcc a.term.package = some acc → Sub alg a.acc acc := by
    intro acc hacc v hv
    rw [m1] at hacc
    exact ((k2 acc hacc v).1 hv).1
  have hasg : ∀ q, St.asgsOf ({ s.push a with byOrder := s.byOrder ++ [a] } : St P V S) q = (s.push a).asgsOf q := fun q => rfl
  have hlast : ∀ q, St.lastAcc ({ s.push a with byOrder := s.byOrder ++ [a] } : St P V S) q = (s.push a).lastAcc q := fun q => rfl
  have hgood : ∀ l q c, GoodDep alg s l q c → GoodDep alg ({ s.push a with byOrder := s.byOrder ++ [a] } : St P V S) l q c := by
    intro l q c hg
    have := GoodDep.push hi (by omega) hs hg
    exact this
  refine ⟨⟨pinv_push hp hs, ?_⟩, ?_, ?_, rfl, ?_, ?_⟩
  · intro q b w hq
    have hne : a.term.package ≠ q := by
      intro e
      rw [m1] at e
      subst e
      exact hu b w hq
    rw [hasg, asgsOf_push, if_neg hne]
    exact hp.dec q b w hq
  · intro hg p b v ds h1 h2 q c h3
    exact hgood _ _ _ (hg p b v ds h1 h2 q c h3)
  · intro L hg p b v ds h1 hl h2 q c h3
    exact hgood _ _ _ (hg p b v ds h1 hl h2 q c h3)
  · intro q hq
    rw [hlast, lastAcc_push, if_neg (by rw [m1]; exact fun e => hq e.symm)]
  · refine ⟨a.acc, ?_, k1, ?_⟩
    · rw [hlast, lastAcc_push, if_pos (by rw [m1])]
    · intro old hold
      exact hs old (by rw [m1]; exact hold)

/-! ### Backtracking -/

theorem pinv_backtrack {s : St P V S} (hi : Inv prob s) (h : PInv alg s) (L : Nat) : PInv alg (s.backtrack L) := by
  constructor
  · intro q
    rw [asgsOf_backtrack]
    exact (h.decr q).filter _
  · intro q a w hq
    rw [mem_backtrack_decisions] at hq
    obtain ⟨h1, h2⟩ := h.dec q a w hq.1
    refine ⟨?_, h2⟩
    intro x hx
    rw [asgsOf_backtrack, List.mem_filter] at hx
    exact h1 x hx.1

theorem filter_le_le {α : Type} (f : α → Nat) {l L : Nat} (h : l ≤ L) (xs : List α) :
    (xs.filter (fun x => decide (f x ≤ L))).filter (fun x => decide (f x ≤ l)) = xs.filter (fun x => decide (f x ≤ l)) := by
  rw [List.filter_filter]
  congr 1
  funext x
  by_cases hx : f x ≤ l
  · simp [hx]; omega
  · simp [hx]

theorem GoodDep.backtrack {s : St P V S} {l L : Nat} {q : P} {c : S} (h : GoodDep alg s l q c) (hl : l ≤ L) :
    GoodDep alg (s.backtrack L) l q c := by
  unfold GoodDep at *
  rw [asgsOf_backtrack, filter_le_le (fun a : Asg P S => a.level) hl]
  exact h

theorem AllGood.backtrack {s : St P V S} {K L : Nat} (h : GoodBelow alg prob s K) (hl : L < K) : AllGood alg prob (s.backtrack L) := by
  intro p a v ds hp hd q c hq
  rw [mem_backtrack_decisions] at hp
  exact (h p a v ds hp.1 (by omega) hd q c hq).backtrack hp.2

theorem AllGood.below {s : St P V S} (h : AllGood alg prob s) (K : Nat) : GoodBelow alg prob s K :=
  fun p a v ds hp _ hd q c hq => h p a v ds hp hd q c hq

theorem AllGood.of_below {s : St P V S} (hi : Inv prob s) {K : Nat} (hk : s.decisionLevel < K) (h : GoodBelow alg prob s K) :
    AllGood alg prob s := by
  intro p a v ds hp hd q c hq
  have := hi.le _ (hi.own _ hp).2.1
  exact h p a v ds hp (by simp only at this; omega) hd q c hq

/-- A decided package accumulates just its version. -/
theorem PInv.last {s : St P V S} (hi : Inv prob s) (h : PInv alg s) {q : P} {a : Asg P S} {w : V} (hq : (q, a, w) ∈ s.decisions) :
    ∃ acc, s.lastAcc q = some acc ∧ Exactly alg acc w := by
  obtain ⟨h1, h2⟩ := h.dec q a w hq
  obtain ⟨o1, o2, -⟩ := hi.own _ hq
  have hmem : a ∈ s.asgsOf q := by
    rw [hi.refines q, List.mem_filter]
    exact ⟨o2, by simpa using o1⟩
  cases hl : s.lastAcc q with
  | none => rw [lastAcc_none hl] at hmem; simp at hmem
  | some acc =>
    refine ⟨acc, rfl, fun u => ⟨fun hu => (h2 u).1 (h.last_sub hl a hmem u hu), ?_⟩⟩
    rintro rfl
    obtain ⟨z, hz, rfl⟩ := lastAcc_mem hl
    exact h1 z (List.mem_of_getLast? hz)

/-! ### Checks -/

theorem scan_none {c : S} : ∀ l : List (Asg P S), scanSatisfier alg c none l = .ok none → ∀ a ∈ l, alg.allowsAll c a.acc = .ok false := by
  intro l
  induction l with
  | nil => simp
  | cons x l ih =>
    intro h a ha
    rw [scanSatisfier.eq_def] at h
    simp only at h
    obtain ⟨b, h1, h2⟩ := bind_ok h
    cases b with
    | true => have := pure_ok h2; simp at this
    | false =>
      rcases List.mem_cons.1 ha with rfl | ha
      · exact h1
      · exact ih (by simpa using h2) a ha

/-- No satisfier: the last accumulated constraint does not satisfy the term. -/
theorem find_none {s : St P V S} {t : Term P S} {acc : S} (hl : s.lastAcc t.package = some acc)
    (h : findSatisfier alg s t none = .ok none) : alg.allowsAll t.constraint acc = .ok false := by
  unfold findSatisfier at h
  rw [hl] at h
  simp only at h
  obtain ⟨b, h1, h2⟩ := bind_ok h
  cases b with
  | false => exact h1
  | true =>
    obtain ⟨z, hz, rfl⟩ := lastAcc_mem hl
    exact scan_none _ (by simpa using h2) z (List.mem_of_getLast? hz)

/-- An undecided term of a check is not excluded and not satisfied. -/
theorem checkTerms_almost {s : St P V S} {terms : List (Term P S)} : ∀ (ts : List (Term P S)) (u : Option (Term P S)) (sats : List (Asg P S)) (t : Term P S),
    checkTerms alg s terms ts u sats = .ok (.almost t) →
      u = some t ∨ (t ∈ ts ∧ findSatisfier alg s t none = .ok none ∧ reachable alg s t = .ok true) := by
  intro ts
  induction ts with
  | nil =>
    intro u sats t h
    cases u with
    | some t' => rw [checkTerms] at h; have := pure_ok h; simp at this; simp [this]
    | none =>
      rw [checkTerms] at h
      obtain ⟨sat, prev, h1, -⟩ := createFull_mem (fun _ => True) (fun _ _ _ => trivial) (fun _ _ => trivial) (fun _ _ => trivial) h
      simp at h1
  | cons x ts ih =>
    intro u sats t h
    rw [checkTerms.eq_def] at h
    simp only at h
    obtain ⟨o, h1, h2⟩ := bind_ok h
    cases o with
    | some a =>
      rcases ih _ _ _ h2 with h3 | ⟨h3, h4⟩
      · exact .inl h3
      · exact .inr ⟨by simp [h3], h4⟩
    | none =>
      simp only at h2
      obtain ⟨reach, h3, h4⟩ := bind_ok h2
      split at h4
      · have := pure_ok h4; simp at this
      · rename_i hr
        cases u with
        | none =>
          rcases ih _ _ _ h4 with h5 | ⟨h5, h6⟩
          · simp at h5
            subst h5
            refine .inr ⟨by simp, h1, ?_⟩
            rw [h3]; simpa using hr
          · exact .inr ⟨by simp [h5], h6⟩
        | some t' => have := pure_ok h4; simp at this

theorem check_almost {s : St P V S} {i : Nat} {t : Term P S} (h : check alg s i = .ok (.almost t)) :
    t ∈ (s.inc i).terms ∧ findSatisfier alg s t none = .ok none ∧ reachable alg s t = .ok true := by
  have plain : checkPlain alg s (s.inc i).terms = .ok (.almost t) →
      t ∈ (s.inc i).terms ∧ findSatisfier alg s t none = .ok none ∧ reachable alg s t = .ok true := by
    intro h
    unfold checkPlain at h
    split at h
    · have := pure_ok h; simp at this
    · rcases checkTerms_almost _ _ _ _ h with h1 | h1
      · simp at h1
      · exact h1
  unfold check at h
  split at h
  · exact plain h
  · split at h
    · have := pure_ok h; simp at this
    · obtain ⟨c, h3, h4⟩ := bind_ok h
      split at h4
      · exact plain h4
      · have := pure_ok h4; simp at this

/-- The undecided term of a check is of a package without a decision. -/
theorem almost_undecided (hx : Exact alg) {s : St P V S} (hi : Inv prob s) (hp : PInv alg s) {i : Nat} {t : Term P S}
    (h : check alg s i = .ok (.almost t)) (a : Asg P S) (w : V) : (t.package, a, w) ∉ s.decisions := by
  intro hd
  obtain ⟨h1, h2, h3⟩ := check_almost h
  obtain ⟨acc, h4, h5⟩ := hp.last hi hd
  have h6 := find_none h4 h2
  unfold reachable at h3
  rw [h4] at h3
  simp only at h3
  obtain ⟨v, h7, h8⟩ := (hx.allowsAny _ _ _ h3).1 rfl
  have := (hx.allowsAll _ _ _ v h6 h7).2 (by
    intro u hu
    rw [(h5 u).1 hu, ← (h5 v).1 h7]
    exact h8)
  simp at this

/-! ### A check depends on the partial solution and on the terms -/

theorem findSatisfier_congr {s t : St P V S} (e : SamePartial s t) (u : Term P S) (n : Option (Asg P S)) :
    findSatisfier alg s u n = findSatisfier alg t u n := by
  unfold findSatisfier; rw [SamePartial.lastAcc e, e.2.1]

theorem reachable_congr {s t : St P V S} (e : SamePartial s t) (u : Term P S) : reachable alg s u = reachable alg t u := by
  unfold reachable; rw [SamePartial.lastAcc e]

theorem furtherSatisfiers_congr {s t : St P V S} (e : SamePartial s t) (sat : Asg P S) : ∀ (ts : List (Term P S)) (acc : List (Asg P S)),
    furtherSatisfiers alg s sat ts acc = furtherSatisfiers alg t sat ts acc := by
  intro ts
  induction ts with
  | nil => intro acc; rfl
  | cons u ts ih =>
    intro acc
    rw [furtherSatisfiers, furtherSatisfiers]
    have h1 : ∀ acc, withRequiring s u acc = withRequiring t u acc := by
      intro acc; unfold withRequiring St.requiringDecision; rw [e.2.2.1, e.2.2.2]
    have h2 : ∀ acc, withEarlier alg s sat u acc = withEarlier alg t sat u acc := by
      intro acc; unfold withEarlier; rw [findSatisfier_congr e]
    simp only [h1, h2, ih]

theorem checkTerms_congr {s t : St P V S} (e : SamePartial s t) {terms : List (Term P S)} : ∀ (ts : List (Term P S)) (u : Option (Term P S)) (sats : List (Asg P S)),
    checkTerms alg s terms ts u sats = checkTerms alg t terms ts u sats := by
  intro ts
  induction ts with
  | nil =>
    intro u sats
    cases u with
    | some t' => rfl
    | none =>
      rw [checkTerms, checkTerms]
      unfold createFull
      split
      · rfl
      · rw [furtherSatisfiers_congr e]
  | cons x ts ih =>
    intro u sats
    rw [checkTerms.eq_def, checkTerms.eq_def]
    simp only [findSatisfier_congr e, reachable_congr e, ih]

theorem checkPlain_congr {s t : St P V S} (e : SamePartial s t) (ts : List (Term P S)) : checkPlain alg s ts = checkPlain alg t ts := by
  unfold checkPlain
  simp only [SamePartial.lastAcc e, checkTerms_congr e]

/-- The incompatibility has the same terms and the same dependant. -/
def SameInc (a b : Inc P S) : Prop := a.terms = b.terms ∧ a.dep.map (·.1) = b.dep.map (·.1)

theorem check_congr {s t : St P V S} (e : SamePartial s t) {i : Nat} (h : SameInc (s.inc i) (t.inc i)) :
    check alg s i = check alg t i := by
  unfold check
  obtain ⟨h1, h2⟩ := h
  rw [h1]
  cases hs : (s.inc i).dep with
  | none =>
    rw [hs] at h2
    cases ht : (t.inc i).dep with
    | none => exact checkPlain_congr e _
    | some x => rw [ht] at h2; simp at h2
  | some x =>
    rw [hs] at h2
    cases ht : (t.inc i).dep with
    | none => rw [ht] at h2; simp at h2
    | some y =>
      rw [ht] at h2
      simp at h2
      obtain ⟨a, b, c⟩ := x
      obtain ⟨a', b', c'⟩ := y
      simp at h2
      subst h2
      simp only [SamePartial.lastAcc e, checkPlain_congr e]

/-! ### Changes of the incompatibilities -/

/-- The incompatibilities stay up to `added`; further lists may mention them. -/
structure Grows (s t : St P V S) : Prop where
  same : ∀ i, i < s.incs.length → SameInc (s.inc i) (t.inc i)
  length : s.incs.length ≤ t.incs.length
  lists : ∀ x j, j ∈ s.incsOf x → j ∈ t.incsOf x

theorem SameInc.refl (a : Inc P S) : SameInc a a := ⟨rfl, rfl⟩

theorem Grows.refl (s : St P V S) : Grows s s := ⟨fun _ _ => SameInc.refl _, Nat.le_refl _, fun _ _ h => h⟩

theorem Grows.trans {s t u : St P V S} (h : Grows s t) (h' : Grows t u) : Grows s u :=
  ⟨fun i hi => ⟨(h.same i hi).1.trans (h'.same i (Nat.lt_of_lt_of_le hi h.length)).1, (h.same i hi).2.trans (h'.same i (Nat.lt_of_lt_of_le hi h.length)).2⟩,
    Nat.le_trans h.length h'.length, fun x j hj => h'.lists x j (h.lists x j hj)⟩

theorem Grows.of_eq {s t : St P V S} (h1 : t.incs = s.incs) (h2 : t.byPackage = s.byPackage) : Grows s t :=
  ⟨fun i _ => by unfold St.inc; rw [h1]; exact SameInc.refl _, by rw [h1]; exact Nat.le_refl _, fun x j h => by unfold St.incsOf at *; rw [h2]; exact h⟩

theorem IInv.of_eq {s t : St P V S} (h : IInv s) (h1 : t.incs = s.incs) (h2 : t.byPackage = s.byPackage) (h3 : t.unavailable = s.unavailable) : IInv t := by
  have hi : ∀ i, t.inc i = s.inc i := by intro i; unfold St.inc; rw [h1]
  constructor
  · intro i d e f hd; rw [hi] at *; exact h.deps i d e f hd
  · intro x j hj; rw [h1]; exact h.valid x j (by unfold St.incsOf at *; rw [h2] at hj; exact hj)
  · intro x i hx; rw [hi, h1]; rw [h3] at hx; exact h.una x i hx

theorem inc_newInc (s : St P V S) (n : Inc P S) (i : Nat) :
    (s.newInc n).1.inc i = if i = s.incs.length then n else s.inc i := by
  unfold St.newInc St.inc
  simp only
  split
  · rename_i e; subst e; simp
  · by_cases h : i < s.incs.length
    · rw [List.getElem?_append_left h]
    · rw [List.getElem?_eq_none (by simp; omega), List.getElem?_eq_none (by omega)]

theorem newInc_grows (s : St P V S) (n : Inc P S) : Grows s (s.newInc n).1 := by
  refine ⟨?_, by simp [St.newInc], fun _ _ h => h⟩
  intro i hi
  rw [inc_newInc, if_neg (by omega)]
  exact SameInc.refl _

theorem newInc_iinv {s : St P V S} (h : IInv s) (n : Inc P S) (hn : ∀ d e f, n.dep = some (d, e, f) → d ∈ n.terms) : IInv (s.newInc n).1 := by
  constructor
  · intro i d e f hd
    rw [inc_newInc] at *
    split at hd
    · rename_i he; rw [if_pos he]; exact hn d e f hd
    · rename_i he; rw [if_neg he]; exact h.deps i d e f hd
  · intro x j hj
    have := h.valid x j hj
    simp [St.newInc]; omega
  · intro x i hi
    have := h.una x i hi
    rw [inc_newInc, if_neg (by omega)]
    exact ⟨by simp [St.newInc]; omega, this.2⟩

/-- `t` is `s` with more entries in the lists of incompatibilities, all for `i`. -/
theorem addTo_ok (i : Nat) : ∀ (ts : List (Term P S)) (s : St P V S), i < s.incs.length →
    (addTo alg s i ts).incs = s.incs ∧ (addTo alg s i ts).unavailable = s.unavailable ∧
    (∀ x j, j ∈ s.incsOf x → j ∈ (addTo alg s i ts).incsOf x) ∧
    (∀ x j, j ∈ (addTo alg s i ts).incsOf x → j ∈ s.incsOf x ∨ j = i) ∧
    ∀ t ∈ ts, ∃ j ∈ (addTo alg s i ts).incsOf t.package, j = i ∨ sameTerms alg (s.inc j).terms (s.inc i).terms = true := by
  intro ts
  induction ts with
  | nil => intro s _; exact ⟨rfl, rfl, fun _ _ h => h, fun _ _ h => .inl h, by simp⟩
  | cons t ts ih =>
    intro s hi
    rw [addTo]
    split
    · rename_i hany
      obtain ⟨k1, k2, k3, k4, k5⟩ := ih s hi
      refine ⟨k1, k2, k3, k4, ?_⟩
      intro u hu
      rcases List.mem_cons.1 hu with rfl | hu
      · rw [List.any_eq_true] at hany
        obtain ⟨j, h1, h2⟩ := hany
        refine ⟨j, k3 _ _ h1, ?_⟩
        simpa using h2
      · exact k5 u hu
    · obtain ⟨k1, k2, k3, k4, k5⟩ := ih { s with byPackage := s.byPackage.put t.package (s.incsOf t.package ++ [i]) } hi
      have hof : ∀ x, St.incsOf ({ s with byPackage := s.byPackage.put t.package (s.incsOf t.package ++ [i]) } : St P V S) x =
          if t.package = x then s.incsOf x ++ [i] else s.incsOf x := by
        intro x
        unfold St.incsOf
        simp only [Dict.get_put]
        by_cases h : t.package = x
        · subst h; simp
        · simp [h]
      refine ⟨k1, k2, ?_, ?_, ?_⟩
      · intro x j hj
        apply k3
        rw [hof]
        split
        · simp [hj]
        · exact hj
      · intro x j hj
        rcases k4 x j hj with h | h
        · rw [hof] at h
          split at h
          · simpa using h
          · exact .inl h
        · exact .inr h
      · intro u hu
        rcases List.mem_cons.1 hu with rfl | hu
        · refine ⟨i, k3 _ _ ?_, .inl rfl⟩
          rw [hof, if_pos rfl]; simp
        · exact k5 u hu

theorem inc_set (s : St P V S) (i : Nat) (n : Inc P S) (hi : i < s.incs.length) (j : Nat) :
    St.inc ({ s with incs := s.incs.set i n } : St P V S) j = if j = i then n else s.inc j := by
  unfold St.inc
  simp only
  rw [List.getElem?_set]
  by_cases h : i = j
  · subst h; simp [hi]
  · rw [if_neg h, if_neg (fun e => h e.symm)]

theorem addInc_ok {s : St P V S} (h : IInv s) {i : Nat} (hi : i < s.incs.length) :
    IInv (addInc alg s i) ∧ Grows s (addInc alg s i) ∧ (addInc alg s i).incs.length = s.incs.length ∧
    (∀ j, j ≠ i → (addInc alg s i).inc j = s.inc j) ∧
    ((∀ a b, (s.inc i).dep ≠ some (a, b, true)) → ∀ t ∈ (s.inc i).terms, ∃ j ∈ (addInc alg s i).incsOf t.package,
      j = i ∨ sameTerms alg (s.inc j).terms (s.inc i).terms = true) := by
  unfold addInc
  split
  · rename_i a b hd
    exact ⟨h, Grows.refl s, rfl, fun _ _ => rfl, fun hn => absurd hd (hn a b)⟩
  · rename_i a b hd
    have hset := inc_set s i { s.inc i with dep := some (a, b, true) } hi
    obtain ⟨k1, k2, k3, k4, k5⟩ := addTo_ok (alg := alg) i (s.inc i).terms
      ({ s with incs := s.incs.set i { s.inc i with dep := some (a, b, true) } } : St P V S) (by simpa using hi)
    generalize hu : addTo alg ({ s with incs := s.incs.set i { s.inc i with dep := some (a, b, true) } } : St P V S) i (s.inc i).terms = u at *
    have hinc : ∀ j, u.inc j = if j = i then { s.inc i with dep := some (a, b, true) } else s.inc j := by
      intro j
      refine Eq.trans ?_ (hset j)
      unfold St.inc
      rw [k1]
      rfl
    have hlen : u.incs.length = s.incs.length := by rw [k1]; simp
    have hsame : ∀ j, SameInc (s.inc j) (u.inc j) := by
      intro j; rw [hinc]
      split
      · rename_i e; subst e; exact ⟨rfl, by rw [hd]; rfl⟩
      · exact SameInc.refl _
    refine ⟨⟨?_, ?_, ?_⟩, ⟨fun j _ => hsame j, by omega, k3⟩, hlen, ?_, ?_⟩
    · intro j d e f hj
      rw [← (hsame j).1]
      have := (hsame j).2
      rw [hj] at this
      cases hs : (s.inc j).dep with
      | none => rw [hs] at this; simp at this
      | some x =>
        obtain ⟨d', e', f'⟩ := x
        rw [hs] at this
        simp at this
        subst this
        exact h.deps j _ _ _ hs
    · intro x j hj
      rw [hlen]
      rcases k4 x j hj with h1 | h1
      · exact h.valid x j h1
      · omega
    · intro x j hj
      rw [k2] at hj
      obtain ⟨h1, h2⟩ := h.una x j hj
      refine ⟨by omega, ?_⟩
      have := (hsame j).2
      rw [h2] at this
      exact Option.map_eq_none_iff.1 this.symm
    · intro j hj; rw [hinc, if_neg hj]
    · intro _ t ht
      obtain ⟨j, h1, h2⟩ := k5 t ht
      refine ⟨j, h1, ?_⟩
      rw [hset, hset, if_pos rfl] at h2
      rcases h2 with h2 | h2
      · exact .inl h2
      · by_cases e : j = i
        · exact .inl e
        · rw [if_neg e] at h2; exact .inr h2
  · rename_i hd
    obtain ⟨k1, k2, k3, k4, k5⟩ := addTo_ok (alg := alg) i (s.inc i).terms s hi
    generalize hu : addTo alg s i (s.inc i).terms = u at *
    have hinc : ∀ j, u.inc j = s.inc j := by intro j; unfold St.inc; rw [k1]
    refine ⟨⟨?_, ?_, ?_⟩, ⟨fun j _ => by rw [hinc]; exact SameInc.refl _, by rw [k1]; exact Nat.le_refl _, k3⟩, by rw [k1], fun j _ => hinc j, fun _ => k5⟩
    · intro j d e f hj
      rw [hinc] at *
      exact h.deps j d e f hj
    · intro x j hj
      rw [k1]
      rcases k4 x j hj with h1 | h1
      · exact h.valid x j h1
      · omega
    · intro x j hj
      rw [k2] at hj
      rw [hinc, k1]
      exact h.una x j hj

/-! ### Conflict resolution -/

/-- What a search step keeps. -/
structure SInv (alg : Alg V S) (prob : Problem P V S) (s : St P V S) : Prop where
  inv : Inv prob s
  part : PInv alg s
  incs : IInv s

theorem derive_sinv (hx : Exact alg) {s s' : St P V S} {t n : Term P S} {i : Nat} (h : SInv alg prob s)
    (hc : check alg s i = .ok (.almost t)) (hn : t.negate alg = .ok n) (hd : s.derive alg prob.root n i = .ok s') :
    SInv alg prob s' ∧ Grows s s' ∧ (AllGood alg prob s → AllGood alg prob s') ∧ (∀ L, GoodBelow alg prob s L → GoodBelow alg prob s' L) ∧
    s'.decisions = s.decisions ∧ (∀ q, q ≠ t.package → s'.lastAcc q = s.lastAcc q) ∧
    ∃ acc, s'.lastAcc t.package = some acc ∧ (∀ v, alg.allows acc v = true → ¬ alg.allows t.constraint v = true) ∧
      ∀ old, s.lastAcc t.package = some old → Sub alg acc old := by
  obtain ⟨c, h1, h2⟩ := bind_ok hn
  have := pure_ok h2
  subst this
  obtain ⟨k1, k2, k3, k4, k5, acc, k6, k7, k8⟩ := derive_good hx h.inv h.part (t := ⟨t.package, c⟩) (fun a w => almost_undecided (t := t) hx h.inv h.part hc a w) hd
  have hf : s'.incs = s.incs ∧ s'.byPackage = s.byPackage ∧ s'.unavailable = s.unavailable := by
    obtain ⟨a, _, rfl⟩ := derive_ok hd
    exact ⟨rfl, rfl, rfl⟩
  refine ⟨⟨h.inv.derived hd, k1, h.incs.of_eq hf.1 hf.2.1 hf.2.2⟩, Grows.of_eq hf.1 hf.2.1, k2, k3, k4, k5, acc, k6, ?_, k8⟩
  intro v hv
  exact (hx.inverse _ _ v h1).1 (k7 v hv)

theorem settle_good (hx : Exact alg) {s s' : St P V S} {orig i level : Nat} {p : P} {sat : Asg P S} {prev : Option (Asg P S)}
    (h : SInv alg prob s) (hi : i < s.incs.length) (hc : check alg s i = .ok (.full sat prev)) (hl : level ≤ s.decisionLevel)
    (hg : GoodBelow alg prob s s.decisionLevel) (hs : settle alg prob s orig i level = .ok (s', p)) :
    SInv alg prob s' ∧ AllGood alg prob s' ∧ s.incs.length ≤ s'.incs.length := by
  unfold settle at hs
  simp only at hs
  have hI : IInv (s.backtrack level) := h.incs.of_eq rfl rfl rfl
  have hu : ∃ u, (if i = orig then s.backtrack level else addInc alg (s.backtrack level) i) = u ∧ Keeps (s.backtrack level) u ∧
      IInv u ∧ SameInc (s.inc i) (u.inc i) ∧ s.incs.length ≤ u.incs.length := by
    refine ⟨_, rfl, ?_⟩
    split
    · exact ⟨Keeps.refl _, hI, SameInc.refl _, Nat.le_refl _⟩
    · obtain ⟨k1, k2, -⟩ := addInc_ok (alg := alg) hI (i := i) hi
      exact ⟨addInc_keeps _ _, k1, k2.same i hi, k2.length⟩
  obtain ⟨u, h1, h2, h3, h4, hlen⟩ := hu
  rw [h1] at hs
  obtain ⟨r, h5, h6⟩ := bind_ok hs
  have hlt : level < s.decisionLevel := by
    apply Classical.byContradiction
    intro hn
    have e : level = s.decisionLevel := by omega
    have sp : SamePartial s u := by
      refine SamePartial.trans ?_ h2.same
      rw [e]
      exact SamePartial.symm h.inv.backtrack_self
    rw [← check_congr sp h4, hc] at h5
    simp only [Except.ok.injEq] at h5
    subst h5
    simp at h6
  have hInvU : Inv prob u := (h.inv.backtrack level hl).keeps h2
  have hPU : PInv alg u := (pinv_backtrack h.inv h.part level).congr h2.same
  have hGU : AllGood alg prob u := (AllGood.backtrack hg hlt).congr h2.same
  cases r with
  | unsatisfied => simp at h6
  | full a b => simp at h6
  | almost t =>
    simp only at h6
    obtain ⟨n, h7, h8⟩ := bind_ok h6
    obtain ⟨w, h9, h10⟩ := bind_ok h8
    have := pure_ok h10
    simp only [Prod.mk.injEq] at this
    obtain ⟨rfl, rfl⟩ := this
    obtain ⟨m1, m2, m3, -⟩ := derive_sinv hx ⟨hInvU, hPU, h3⟩ h5 h7 h9
    exact ⟨m1, m3 hGU, Nat.le_trans hlen m2.length⟩

theorem SInv.keeps {s t : St P V S} (h : SInv alg prob s) (k : Keeps s t) (hi : IInv t) : SInv alg prob t :=
  ⟨h.inv.keeps k, h.part.congr k.same, hi⟩

theorem Keeps.level {s t : St P V S} (k : Keeps s t) : t.decisionLevel = s.decisionLevel := by
  unfold St.decisionLevel; rw [k.2.2.2.1]

theorem resolveConflict_good (hx : Exact alg) {orig : Nat} : ∀ (fuel : Nat) (s s' : St P V S) (i : Nat) (sat : Asg P S) (prev : Option (Asg P S)) (p : P),
    SInv alg prob s → i < s.incs.length → (isTautology prob (s.inc i).terms = true ∨ check alg s i = .ok (.full sat prev)) →
    GoodBelow alg prob s s.decisionLevel →
    resolveConflict alg prob ch orig fuel s i sat prev = .ok (s', p) →
      SInv alg prob s' ∧ AllGood alg prob s' ∧ s.incs.length ≤ s'.incs.length := by
  intro fuel
  induction fuel with
  | zero => intro s s' i sat prev p hi hl hc hg h; rw [resolveConflict] at h; simp at h
  | succ fuel ih =>
    intro s s' i sat prev p hi hl hc hg h
    rw [resolveConflict] at h
    simp only at h
    have k1 : Keeps s (addTrouble s (s.inc i).terms) := ⟨rfl, rfl, rfl, rfl, rfl⟩
    have e1 : (addTrouble s (s.inc i).terms).incs = s.incs := rfl
    have hi1 : SInv alg prob (addTrouble s (s.inc i).terms) := hi.keeps k1 (hi.incs.of_eq rfl rfl rfl)
    generalize addTrouble s (s.inc i).terms = s1 at h k1 e1 hi1
    have einc : ∀ j, s1.inc j = s.inc j := by intro j; unfold St.inc; rw [e1]
    have hg1 : GoodBelow alg prob s1 s1.decisionLevel := by rw [k1.level]; exact hg.congr k1.same
    split at h
    · simp at h
    · rename_i ht
      rw [einc] at ht
      rcases hc with hc | hc
      · exact absurd hc ht
      have hc1 : check alg s1 i = .ok (.full sat prev) := by
        rw [← hc]
        exact (check_congr k1.same (by rw [einc]; exact SameInc.refl _)).symm
      have hp1 := hi1.inv.check_level hc1
      split at h
      · rw [← e1]; exact settle_good hx hi1 (by rw [e1]; exact hl) hc1 hp1 hg1 h
      · rename_i cause _
        split at h
        · rw [← e1]; exact settle_good hx hi1 (by rw [e1]; exact hl) hc1 hp1 hg1 h
        · obtain ⟨ts, h1, h2⟩ := bind_ok h
          obtain ⟨terms, h3, h4⟩ := bind_ok h2
          have k2 : Keeps s1 (({ s1 with tick := s1.tick + 1 } : St P V S).newInc ⟨terms, none⟩).1 := ⟨rfl, rfl, rfl, rfl, rfl⟩
          have i2 : IInv (({ s1 with tick := s1.tick + 1 } : St P V S).newInc ⟨terms, none⟩).1 :=
            newInc_iinv (s := { s1 with tick := s1.tick + 1 }) (hi1.incs.of_eq rfl rfl rfl) _ (by simp)
          have n2 := inc_newInc ({ s1 with tick := s1.tick + 1 } : St P V S) ⟨terms, none⟩
          have e2 : (({ s1 with tick := s1.tick + 1 } : St P V S).newInc ⟨terms, none⟩).2 = s1.incs.length := rfl
          have l2 : (({ s1 with tick := s1.tick + 1 } : St P V S).newInc ⟨terms, none⟩).1.incs.length = s1.incs.length + 1 := by simp [St.newInc]
          generalize (({ s1 with tick := s1.tick + 1 } : St P V S).newInc ⟨terms, none⟩) = q at h4 k2 i2 n2 e2 l2
          obtain ⟨s2, j⟩ := q
          simp only at h4 k2 i2 n2 e2 l2
          have hi2 := hi1.keeps k2 i2
          have hg2 : GoodBelow alg prob s2 s2.decisionLevel := by rw [k2.level]; exact hg1.congr k2.same
          split at h4
          · rename_i htt
            obtain ⟨z1, z2, z3⟩ := ih _ _ _ _ _ _ hi2 (by omega) (.inl (by rw [n2, if_pos e2]; exact htt)) hg2 h4
            exact ⟨z1, z2, by rw [← e1]; omega⟩
          · obtain ⟨r, h5, h6⟩ := bind_ok h4
            cases r with
            | unsatisfied => simp at h6
            | almost t => simp at h6
            | full sat' prev' =>
              obtain ⟨z1, z2, z3⟩ := ih _ _ _ _ _ _ hi2 (by omega) (.inr h5) hg2 h6
              exact ⟨z1, z2, by rw [← e1]; omega⟩

end Solver
end Pkm
