import Verif.Solver.Decide
set_option linter.unusedVariables false
set_option linter.unusedSimpArgs false
set_option linter.unusedSectionVars false
/-
C59: problems in which no decision has to be taken back. If every package has a version that is the first usable one
of each constraint that is met on the way, the solver finds these versions, without a conflict.
-/
namespace Pkm
open Solver

variable {P V S : Type} [DecidableEq P]

namespace Spec

/-- What the solver needs of the operations on specifiers in such a run, for constraints in `D`, versions in `W`
and effective ranges in `G`. -/
structure Adequate (alg : Alg V S) (D : S → Prop) (W : V → Prop) (G : S → Prop) : Prop where
  inverse : ∀ c, D c → ∃ n c', alg.inverse c = .ok n ∧ alg.inverse n = .ok c' ∧ D c' ∧
    ∀ w, W w → alg.allows c' w = alg.allows c w ∧ alg.allows n w = !alg.allows c w
  outside : ∀ a c n, D a → D c → alg.inverse c = .ok n →
    ∃ r, alg.allowsAll n a = .ok r ∧ (r = true → ∀ w, W w → alg.allows a w = true → alg.allows c w = false)
  meets : ∀ a c n w, D a → D c → alg.inverse c = .ok n → W w → alg.allows a w = true → alg.allows c w = true →
    ∃ r, alg.allowsAny a n = .ok r ∧ (r = false ↔ ∀ u, W u → alg.allows a u = true → alg.allows c u = true)
  inter : ∀ a b w, D a → D b → W w → alg.allows a w = true → alg.allows b w = true →
    ∃ r, alg.inter a b = .ok r ∧ D r ∧ ∀ u, W u → alg.allows r u = (alg.allows a u && alg.allows b u)
  isNone : ∀ a, D a → alg.isNone a = false
  nonStandard : ∀ a, D a → alg.nonStandard a = none
  single : ∀ v, W v → D (alg.single v) ∧ alg.allows (alg.single v) v = true
  alike : ∀ v w c, W v → W w → D c → alg.allows (alg.single v) w = true → alg.allows c w = alg.allows c v
  total : ∀ g a, G g → D a → ∃ r, alg.allowsAll g a = .ok r
  covers : ∀ g r v, G g → D r → W v → alg.allows g v = true → alg.allows r v = true →
    (∀ w, W w → alg.allows r w = true → alg.allows (alg.single v) w = true) →
    alg.allowsAll g r = .ok true ∧ alg.allowsAny r g = .ok true
  same : ∀ g c n w, G g → D c → alg.inverse c = .ok n → W w → (alg.same n g = true ∨ alg.same g n = true) →
    alg.allows n w = alg.allows g w

/-- The package is the root or a dependency of a selected version, in turn, without coming by `d`. -/
inductive Avoiding (prob : Problem P V S) (sel : P → V) (d : P) : P → Prop where
  | root (h : prob.root ≠ d) : Avoiding prob sel d prob.root
  | step {p q : P} (h : Avoiding prob sel d p) (hd : DependsOn prob p (sel p) q) (hne : q ≠ d) : Avoiding prob sel d q

/-- Every way from the root to `p` leads through `d`. -/
def Dominates (prob : Problem P V S) (sel : P → V) (d p : P) : Prop := p ≠ d ∧ ¬ Avoiding prob sel d p

end Spec

namespace Solver
open Spec

/-- The fixed data of the run: the packages in question, their versions and the versions before these. -/
structure Plan (alg : Alg V S) (prob : Problem P V S) (D : S → Prop) (W : V → Prop) (G : S → Prop) (R : List P)
    (sel : P → V) (bef : P → List V) : Prop where
  root : prob.root ∈ R
  first : bef prob.root = []
  split : ∀ p ∈ R, ∃ rest, prob.versions p = bef p ++ sel p :: rest
  std : ∀ p ∈ R, ∀ v ∈ prob.versions p, W v
  deps : ∀ p ∈ R, ∃ ds, prob.deps p (sel p) = some ds ∧ ∀ q c, (q, c) ∈ ds → q ∈ R ∧ D c ∧ alg.allows c (sel q) = true ∧
    ((∀ u ∈ bef q, alg.allows c u = false ∨ prob.deps q u = none) ∨ ∃ d, Dominates prob sel d p ∧ DependsOn prob d (sel d) q)
  pvs : ∀ p ∈ R, ∃ pvs, packageVersions alg prob p = .ok pvs ∧ pvs.map (·.version) = prob.versions p ∧
    ∀ pv ∈ pvs, pv.index ≠ none ∧ G pv.range ∧ alg.allows pv.range pv.version = true ∧ pv.next ≠ pv.index

section
variable {alg : Alg V S} {prob : Problem P V S} {ch : Choices P S} {D : S → Prop} {W : V → Prop} {G : S → Prop} {R : List P}
  {sel : P → V} {bef : P → List V}

/-- A constraint that leads to the planned version of the package. -/
structure Fit (alg : Alg V S) (prob : Problem P V S) (D : S → Prop) (sel : P → V) (bef : P → List V) (q : P) (c : S) : Prop where
  dom : D c
  allows : alg.allows c (sel q) = true
  skips : ∀ u ∈ bef q, alg.allows c u = false ∨ prob.deps q u = none

/-- A constraint that allows the planned version of the package. -/
structure Admits (alg : Alg V S) (D : S → Prop) (sel : P → V) (q : P) (c : S) : Prop where
  dom : D c
  allows : alg.allows c (sel q) = true

/-- A constraint that leads past the versions before the planned one. -/
def Skips (alg : Alg V S) (prob : Problem P V S) (bef : P → List V) (q : P) (c : S) : Prop :=
  ∀ u ∈ bef q, alg.allows c u = false ∨ prob.deps q u = none

/-- The package is assigned nothing but versions like the planned one. -/
def Fixed (alg : Alg V S) (W : V → Prop) (sel : P → V) (s : St P V S) (p : P) : Prop :=
  ∃ r, s.lastAcc p = some r ∧ ∀ w, W w → alg.allows r w = true → alg.allows (alg.single (sel p)) w = true

/-- The incompatibility says that `q` has to be in `c`, if `o` is set. -/
def Asks (alg : Alg V S) (x : Inc P S) (q : P) (c n : S) (o : Option (P × S)) : Prop :=
  alg.inverse c = .ok n ∧
  match o with
  | none => x.terms = [⟨q, n⟩] ∧ x.dep = none
  | some (p, g) => (x.terms = [⟨q, n⟩, ⟨p, g⟩] ∨ x.terms = [⟨p, g⟩, ⟨q, n⟩]) ∧ ∃ d f, x.dep = some (⟨p, g⟩, d, f)

theorem Asks.congr {x y : Inc P S} {q : P} {c n : S} {o : Option (P × S)} (h : Asks alg x q c n o) (e : SameInc x y) :
    Asks alg y q c n o := by
  obtain ⟨h1, h2⟩ := h
  obtain ⟨e1, e2⟩ := e
  refine ⟨h1, ?_⟩
  cases o with
  | none =>
    obtain ⟨a, b⟩ := h2
    rw [b] at e2
    exact ⟨by rw [← e1]; exact a, Option.map_eq_none_iff.1 e2.symm⟩
  | some pg =>
    obtain ⟨a, d, f, b⟩ := h2
    refine ⟨by rw [← e1]; exact a, ?_⟩
    rw [b] at e2
    cases hy : y.dep with
    | none => rw [hy] at e2; simp at e2
    | some z =>
      rw [hy] at e2
      obtain ⟨z1, z2, z3⟩ := z
      simp at e2
      exact ⟨z2, z3, by rw [e2]⟩

/-- The incompatibilities of the run, with their dependants. -/
structure Known (alg : Alg V S) (prob : Problem P V S) (D : S → Prop) (G : S → Prop) (R : List P) (sel : P → V)
    (x : Inc P S) (q : P) (c n : S) (o : Option (P × S)) : Prop where
  asks : Asks alg x q c n o
  mem : q ∈ R
  fit : Admits alg D sel q c
  dep : ∀ p g, o = some (p, g) → p ∈ R ∧ G g ∧ alg.allows g (sel p) = true

/-- The invariant. -/
structure GInv (alg : Alg V S) (prob : Problem P V S) (D : S → Prop) (W : V → Prop) (G : S → Prop) (R : List P)
    (sel : P → V) (bef : P → List V) (s : St P V S) : Prop where
  asg : ∀ q, ∀ a ∈ s.asgsOf q, Fit alg prob D sel bef q a.acc
  incs : ∀ i, i < s.incs.length → ∃ q c n o, Known alg prob D G R sel (s.inc i) q c n o ∧
    (∀ p g, o = some (p, g) → Fixed alg W sel s p) ∧ ((s.lastAcc q).isSome = true ∨ Skips alg prob bef q c)

theorem fits_last {s : St P V S} (h : ∀ q, ∀ a ∈ s.asgsOf q, Fit alg prob D sel bef q a.acc) {q : P} {a : S}
    (ha : s.lastAcc q = some a) : Fit alg prob D sel bef q a := by
  unfold St.lastAcc at ha
  cases hl : (s.asgsOf q).getLast? with
  | none => rw [hl] at ha; simp at ha
  | some x =>
    rw [hl] at ha
    simp at ha
    subst ha
    exact h q x (List.mem_of_getLast? hl)

theorem GInv.last {s : St P V S} (h : GInv alg prob D W G R sel bef s) {q : P} {a : S} (ha : s.lastAcc q = some a) :
    Fit alg prob D sel bef q a := fits_last h.asg ha

/-! ### Checks -/

theorem scan_some (had : Adequate alg D W G) {g : S} (hg : G g) : ∀ (l : List (Asg P S)), (∀ a ∈ l, D a.acc) →
    (∃ a ∈ l, alg.allowsAll g a.acc = .ok true) → ∃ a, scanSatisfier alg g none l = .ok (some a) := by
  intro l
  induction l with
  | nil => rintro _ ⟨a, ha, _⟩; simp at ha
  | cons x l ih =>
    rintro hD ⟨a, ha, hall⟩
    obtain ⟨r, hr⟩ := had.total g x.acc hg (hD x (by simp))
    rw [scanSatisfier]
    simp only [hr, bind, Except.bind]
    cases r with
    | true => exact ⟨x, by simp [pure, Except.pure]⟩
    | false =>
      simp only [Bool.false_eq_true, if_false]
      rcases List.mem_cons.1 ha with rfl | ha
      · rw [hr] at hall; simp at hall
      · exact ih (fun b hb => hD b (by simp [hb])) ⟨a, ha, hall⟩

theorem find_dependant (had : Adequate alg D W G) (hp : Plan alg prob D W G R sel bef) {s : St P V S}
    (h : GInv alg prob D W G R sel bef s) {p : P} (hpR : p ∈ R) {g : S}
    (hg : G g) (hgs : alg.allows g (sel p) = true) (hf : Fixed alg W sel s p) :
    (∃ a, findSatisfier alg s ⟨p, g⟩ none = .ok (some a)) ∧ ∃ r, s.lastAcc p = some r ∧ mayApply alg r g = .ok true := by
  obtain ⟨r, hr, hr2⟩ := hf
  have hfit := h.last hr
  obtain ⟨rest, hsp⟩ := hp.split p hpR
  have hW : W (sel p) := hp.std p hpR _ (by rw [hsp]; simp)
  obtain ⟨c1, c2⟩ := had.covers g r (sel p) hg hfit.dom hW hgs hfit.allows hr2
  constructor
  · unfold findSatisfier
    simp only [hr, c1, bind, Except.bind, if_true]
    apply scan_some had hg _ (fun a ha => (h.asg p a ha).dom)
    unfold St.lastAcc at hr
    cases hl : (s.asgsOf p).getLast? with
    | none => rw [hl] at hr; simp at hr
    | some x =>
      rw [hl] at hr
      simp at hr
      exact ⟨x, List.mem_of_getLast? hl, by rw [hr]; exact c1⟩
  · exact ⟨r, hr, by unfold mayApply; simp [c2, bind, Except.bind, pure, Except.pure]⟩

/-- The assignments of `q` are in `c`. -/
def Settles (alg : Alg V S) (W : V → Prop) (s : St P V S) (q : P) (c : S) : Prop :=
  ∃ a, s.lastAcc q = some a ∧ ∀ w, W w → alg.allows a w = true → alg.allows c w = true

theorem find_target (had : Adequate alg D W G) (hp : Plan alg prob D W G R sel bef) {s : St P V S}
    (h : GInv alg prob D W G R sel bef s) {q : P} (hq : q ∈ R) {c n : S}
    (hc : Admits alg D sel q c) (hn : alg.inverse c = .ok n) :
    findSatisfier alg s ⟨q, n⟩ none = .ok none ∧ ∃ r, reachable alg s ⟨q, n⟩ = .ok r ∧ (r = false ↔ Settles alg W s q c) := by
  obtain ⟨rest, hsp⟩ := hp.split q hq
  have hW : W (sel q) := hp.std q hq _ (by rw [hsp]; simp)
  cases hl : s.lastAcc q with
  | none =>
    constructor
    · unfold findSatisfier; simp [hl, pure, Except.pure]
    · refine ⟨true, by unfold reachable; simp [hl, pure, Except.pure], ?_⟩
      unfold Settles
      simp [hl]
  | some a =>
    have hfit := h.last hl
    obtain ⟨r, r1, r2⟩ := had.outside a c n hfit.dom hc.dom hn
    have hrf : r = false := by
      cases r with
      | false => rfl
      | true =>
        have := r2 rfl _ hW hfit.allows
        rw [hc.allows] at this
        simp at this
    constructor
    · unfold findSatisfier
      simp [hl, r1, hrf, bind, Except.bind, pure, Except.pure]
    · obtain ⟨m, m1, m2⟩ := had.meets a c n (sel q) hfit.dom hc.dom hn hW hfit.allows hc.allows
      refine ⟨m, by unfold reachable; simp only [hl]; exact m1, ?_⟩
      rw [m2]
      unfold Settles
      rw [hl]
      simp

/-- A check of an incompatibility of the run. -/
theorem check_known (had : Adequate alg D W G) (hp : Plan alg prob D W G R sel bef) {s : St P V S}
    (h : GInv alg prob D W G R sel bef s) {i : Nat} {q : P} {c n : S} {o : Option (P × S)}
    (hk : Known alg prob D G R sel (s.inc i) q c n o) (hf : ∀ p g, o = some (p, g) → Fixed alg W sel s p) :
    (check alg s i = .ok .unsatisfied ∧ Settles alg W s q c) ∨
    (check alg s i = .ok (.almost ⟨q, n⟩) ∧ ¬ Settles alg W s q c) := by
  obtain ⟨⟨hn, hx⟩, hq, hfit, hdep⟩ := hk
  obtain ⟨t1, r, t2, t3⟩ := find_target had hp h hq hfit hn
  have hnone : ∀ x a, s.lastAcc x = some a → alg.isNone a = false := fun x a ha => had.isNone a (h.last ha).dom
  have hany : ∀ ts : List (Term P S), ts.any (fun t => (s.lastAcc t.package).any alg.isNone) = false := by
    intro ts
    rw [List.any_eq_false]
    intro t _
    cases hl : s.lastAcc t.package with
    | none => simp
    | some a => simp [hnone _ a hl]
  cases o with
  | none =>
    obtain ⟨x1, x2⟩ := hx
    have : check alg s i = .ok (if r = true then .almost ⟨q, n⟩ else .unsatisfied) := by
      unfold check
      rw [x2]
      simp only [x1]
      unfold checkPlain
      rw [hany]
      simp only [Bool.false_eq_true, if_false, checkTerms, t1, t2, bind, Except.bind]
      cases r <;> simp [checkTerms, pure, Except.pure]
    cases r with
    | true => exact .inr ⟨by simpa using this, by simpa using t3⟩
    | false => exact .inl ⟨by simpa using this, by simpa using t3⟩
  | some pg =>
    obtain ⟨p, g⟩ := pg
    obtain ⟨x1, d, f, x2⟩ := hx
    obtain ⟨d1, d2, d3⟩ := hdep p g rfl
    obtain ⟨⟨a, a1⟩, rr, a2, a3⟩ := find_dependant had hp h d1 d2 d3 (hf p g rfl)
    have : check alg s i = .ok (if r = true then .almost ⟨q, n⟩ else .unsatisfied) := by
      unfold check
      rw [x2]
      simp only [a2, a3, bind, Except.bind, if_true]
      unfold checkPlain
      rw [hany]
      rcases x1 with x1 | x1
      · rw [x1]
        simp only [Bool.false_eq_true, if_false, checkTerms, t1, t2, a1, bind, Except.bind]
        cases r <;> simp [checkTerms, a1, bind, Except.bind, pure, Except.pure]
      · rw [x1]
        simp only [Bool.false_eq_true, if_false, checkTerms, t1, t2, a1, bind, Except.bind]
        cases r <;> simp [checkTerms, pure, Except.pure]
    cases r with
    | true => exact .inr ⟨by simpa using this, by simpa using t3⟩
    | false => exact .inl ⟨by simpa using this, by simpa using t3⟩

/-! ### Assignments -/

/-- Assignments that fit can be made. -/
theorem assign_fit (had : Adequate alg D W G) (hp : Plan alg prob D W G R sel bef) {s : St P V S}
    (h : ∀ q, ∀ a ∈ s.asgsOf q, Fit alg prob D sel bef q a.acc) {q : P} (hq : q ∈ R) {c : S} (hc : Admits alg D sel q c)
    (hk : (s.lastAcc q).isSome = true ∨ Skips alg prob bef q c) (root : P) (cause : Option Nat) :
    ∃ a, s.makeAssignment alg root ⟨q, c⟩ cause = .ok a ∧ a.term = ⟨q, c⟩ ∧ Fit alg prob D sel bef q a.acc ∧
      (∀ w, W w → alg.allows a.acc w = true → alg.allows c w = true) ∧
      ∀ old, s.lastAcc q = some old → ∀ w, W w → alg.allows a.acc w = true → alg.allows old w = true := by
  obtain ⟨rest, hsp⟩ := hp.split q hq
  have hW : ∀ v ∈ prob.versions q, W v := hp.std q hq
  cases hl : s.lastAcc q with
  | none =>
    refine ⟨_, by unfold St.makeAssignment St.accumulated; simp only [hl, bind, Except.bind, pure, Except.pure]; rfl, rfl, ⟨hc.dom, hc.allows, ?_⟩, fun _ _ h => h, by simp⟩
    rcases hk with hk | hk
    · rw [hl] at hk; simp at hk
    · exact hk
  | some old =>
    have hfit := fits_last h hl
    obtain ⟨r, r1, r2, r3⟩ := had.inter old c (sel q) hfit.dom hc.dom (hW _ (by rw [hsp]; simp)) hfit.allows hc.allows
    refine ⟨_, by unfold St.makeAssignment St.accumulated; simp only [hl, r1, bind, Except.bind, pure, Except.pure]; rfl, rfl, ⟨r2, ?_, ?_⟩, ?_, ?_⟩
    · simp only; rw [r3 _ (hW _ (by rw [hsp]; simp)), hfit.allows, hc.allows]; rfl
    · intro u hu
      simp only
      rw [r3 u (hW u (by rw [hsp]; simp [hu]))]
      rcases hfit.skips u hu with e | e
      · left; rw [e]; simp
      · exact .inr e
    · intro w hw hr
      simp only at hr
      rw [r3 w hw] at hr
      simp at hr
      exact hr.2
    · intro old' ho w hw hr
      simp only at hr
      rw [r3 w hw] at hr
      simp at hr ho
      rw [← ho]; exact hr.1

/-- The assignments have only got tighter, the incompatibilities are the same. -/
structure Tighter (alg : Alg V S) (W : V → Prop) (s t : St P V S) : Prop where
  incs : t.incs = s.incs
  last : ∀ q a, s.lastAcc q = some a → ∃ b, t.lastAcc q = some b ∧ ∀ w, W w → alg.allows b w = true → alg.allows a w = true

theorem Tighter.refl (s : St P V S) : Tighter alg W s s := ⟨rfl, fun q a h => ⟨a, h, fun _ _ h => h⟩⟩

theorem Tighter.trans {s t u : St P V S} (h : Tighter alg W s t) (h' : Tighter alg W t u) : Tighter alg W s u := by
  refine ⟨h'.incs.trans h.incs, ?_⟩
  intro q a ha
  obtain ⟨b, b1, b2⟩ := h.last q a ha
  obtain ⟨c, c1, c2⟩ := h'.last q b b1
  exact ⟨c, c1, fun w hw hc => b2 w hw (c2 w hw hc)⟩

theorem Tighter.inc {s t : St P V S} (h : Tighter alg W s t) (i : Nat) : t.inc i = s.inc i := by
  unfold St.inc; rw [h.incs]

theorem Tighter.fixed {s t : St P V S} (h : Tighter alg W s t) {p : P} (hf : Fixed alg W sel s p) : Fixed alg W sel t p := by
  obtain ⟨r, r1, r2⟩ := hf
  obtain ⟨b, b1, b2⟩ := h.last p r r1
  exact ⟨b, b1, fun w hw hb => r2 w hw (b2 w hw hb)⟩

theorem Tighter.settles {s t : St P V S} (h : Tighter alg W s t) {q : P} {c : S} (hf : Settles alg W s q c) : Settles alg W t q c := by
  obtain ⟨r, r1, r2⟩ := hf
  obtain ⟨b, b1, b2⟩ := h.last q r r1
  exact ⟨b, b1, fun w hw hb => r2 w hw (b2 w hw hb)⟩

theorem GInv.tighter {s t : St P V S} (h : GInv alg prob D W G R sel bef s) (ht : Tighter alg W s t)
    (ha : ∀ q, ∀ a ∈ t.asgsOf q, Fit alg prob D sel bef q a.acc) : GInv alg prob D W G R sel bef t := by
  refine ⟨ha, ?_⟩
  intro i hi
  rw [ht.incs] at hi
  obtain ⟨q, c, n, o, h1, h2, h3⟩ := h.incs i hi
  refine ⟨q, c, n, o, by rw [ht.inc]; exact h1, fun p g e => ht.fixed (h2 p g e), ?_⟩
  rcases h3 with h3 | h3
  · obtain ⟨a, ha⟩ := Option.isSome_iff_exists.1 h3
    obtain ⟨b, hb, -⟩ := ht.last q a ha
    exact .inl (by rw [hb]; rfl)
  · exact .inr h3

/-- A tighter assignment is added. -/
theorem push_tighter {s t : St P V S} {a : Asg P S} (ht : ∀ q, t.asgsOf q = (s.push a).asgsOf q) (hi : t.incs = s.incs)
    (hl : ∀ old, s.lastAcc a.term.package = some old → ∀ w, W w → alg.allows a.acc w = true → alg.allows old w = true) :
    Tighter alg W s t := by
  refine ⟨hi, ?_⟩
  intro q old ho
  have : t.lastAcc q = (s.push a).lastAcc q := by unfold St.lastAcc; rw [ht]
  rw [this, lastAcc_push]
  split
  · rename_i e; subst e; exact ⟨_, rfl, hl old ho⟩
  · exact ⟨old, ho, fun _ _ h => h⟩

theorem push_fits {s t : St P V S} {a : Asg P S} (h : ∀ q, ∀ a ∈ s.asgsOf q, Fit alg prob D sel bef q a.acc) (ht : ∀ q, t.asgsOf q = (s.push a).asgsOf q)
    (ha : Fit alg prob D sel bef a.term.package a.acc) : ∀ q, ∀ a ∈ t.asgsOf q, Fit alg prob D sel bef q a.acc := by
  intro q b hb
  rw [ht, asgsOf_push] at hb
  split at hb
  · rename_i e
    subst e
    rcases List.mem_append.1 hb with hb | hb
    · exact h _ b hb
    · simp at hb; subst hb; exact ha
  · exact h q b hb

/-! ### Propagation -/

/-- The check gives nothing to do. -/
def quiet (alg : Alg V S) (s : St P V S) (i : Nat) : Bool :=
  match check alg s i with
  | .ok .unsatisfied => true
  | _ => false

theorem quiet_iff (s : St P V S) (i : Nat) : quiet alg s i = true ↔ check alg s i = .ok .unsatisfied := by
  unfold quiet
  split <;> simp_all

/-- The number of incompatibilities that are not settled. -/
def loud (alg : Alg V S) (s : St P V S) : Nat := ((List.range s.incs.length).filter (fun i => !quiet alg s i)).length

theorem quiet_settles (had : Adequate alg D W G) (hp : Plan alg prob D W G R sel bef) {s : St P V S}
    (h : GInv alg prob D W G R sel bef s) {i : Nat} {q : P} {c n : S} {o : Option (P × S)}
    (hk : Known alg prob D G R sel (s.inc i) q c n o) (hf : ∀ p g, o = some (p, g) → Fixed alg W sel s p) :
    quiet alg s i = true ↔ Settles alg W s q c := by
  rw [quiet_iff]
  rcases check_known had hp h hk hf with ⟨e1, e2⟩ | ⟨e1, e2⟩
  · exact ⟨fun _ => e2, fun _ => e1⟩
  · rw [e1]; exact ⟨fun h => by simp at h, fun h => absurd h e2⟩

theorem quiet_tighter (had : Adequate alg D W G) (hp : Plan alg prob D W G R sel bef) {s t : St P V S}
    (h : GInv alg prob D W G R sel bef s) (ht : Tighter alg W s t) (h' : GInv alg prob D W G R sel bef t) {i : Nat} (hi : i < s.incs.length)
    (hq : quiet alg s i = true) : quiet alg t i = true := by
  obtain ⟨q, c, n, o, h1, h2, -⟩ := h.incs i hi
  rw [quiet_settles had hp h h1 h2] at hq
  rw [quiet_settles had hp h' (by rw [ht.inc]; exact h1) (fun p g e => ht.fixed (h2 p g e))]
  exact ht.settles hq

theorem filter_le {α : Type} (l : List α) (f g : α → Bool) (h : ∀ a ∈ l, g a = true → f a = true) : (l.filter g).length ≤ (l.filter f).length := by
  induction l with
  | nil => simp
  | cons a l ih =>
    have := ih (fun b hb => h b (by simp [hb]))
    have ha := h a (by simp)
    cases hg : g a <;> cases hf : f a <;> simp_all <;> omega

theorem filter_lt {α : Type} (l : List α) (f g : α → Bool) (h : ∀ a ∈ l, g a = true → f a = true) (x : α) (hx : x ∈ l) (h1 : f x = true)
    (h2 : g x = false) : (l.filter g).length < (l.filter f).length := by
  induction l with
  | nil => simp at hx
  | cons a l ih =>
    have hle := filter_le l f g (fun b hb => h b (by simp [hb]))
    have ha := h a (by simp)
    rcases List.mem_cons.1 hx with rfl | hx
    · simp [h1, h2]; omega
    · have := ih (fun b hb => h b (by simp [hb])) hx
      cases hg : g a <;> cases hf : f a <;> simp_all <;> omega

theorem loud_tighter (had : Adequate alg D W G) (hp : Plan alg prob D W G R sel bef) {s t : St P V S}
    (h : GInv alg prob D W G R sel bef s) (ht : Tighter alg W s t) (h' : GInv alg prob D W G R sel bef t) : loud alg t ≤ loud alg s := by
  unfold loud
  rw [ht.incs]
  apply filter_le
  intro i hi hq
  simp at hi hq ⊢
  cases hs : quiet alg s i with
  | false => rfl
  | true => rw [quiet_tighter had hp h ht h' hi hs] at hq; simp at hq

theorem loud_less (had : Adequate alg D W G) (hp : Plan alg prob D W G R sel bef) {s t : St P V S}
    (h : GInv alg prob D W G R sel bef s) (ht : Tighter alg W s t) (h' : GInv alg prob D W G R sel bef t) {i : Nat} (hi : i < s.incs.length)
    (h1 : quiet alg s i = false) (h2 : quiet alg t i = true) : loud alg t < loud alg s := by
  unfold loud
  rw [ht.incs]
  apply filter_lt _ _ _ _ i (by simpa using hi) (by simp [h1]) (by simp [h2])
  intro i hi hq
  simp at hi hq ⊢
  cases hs : quiet alg s i with
  | false => rfl
  | true => rw [quiet_tighter had hp h ht h' hi hs] at hq; simp at hq

theorem addChanged_length (l : List P) (p : P) : (addChanged l p).length ≤ l.length + 1 := by
  unfold addChanged
  split <;> simp

/-- What propagation leaves as it is. -/
structure Rest (s t : St P V S) : Prop where
  by_ : t.byPackage = s.byPackage
  req : t.required = s.required
  dec : t.decisions = s.decisions
  deps : t.deps = s.deps
  una : t.unavailable = s.unavailable

theorem Rest.refl (s : St P V S) : Rest s s := ⟨rfl, rfl, rfl, rfl, rfl⟩
theorem Rest.trans {s t u : St P V S} (h : Rest s t) (h' : Rest t u) : Rest s u :=
  ⟨h'.by_.trans h.by_, h'.req.trans h.req, h'.dec.trans h.dec, h'.deps.trans h.deps, h'.una.trans h.una⟩

theorem propagateOne_runs (had : Adequate alg D W G) (hp : Plan alg prob D W G R sel bef) (fuel : Nat) :
    ∀ (is : List Nat) (s : St P V S) (changed : List P), GInv alg prob D W G R sel bef s → (∀ i ∈ is, i < s.incs.length) →
      ∃ t changed', propagateOne alg prob ch fuel is s changed = .ok (t, changed') ∧ GInv alg prob D W G R sel bef t ∧
        Tighter alg W s t ∧ Rest s t ∧ (∀ i ∈ is, quiet alg t i = true) ∧ loud alg t + changed'.length ≤ loud alg s + changed.length := by
  intro is
  induction is with
  | nil => intro s changed h _; exact ⟨s, changed, rfl, h, Tighter.refl s, Rest.refl s, by simp, by omega⟩
  | cons i is ih =>
    intro s changed h hi
    have hil := hi i (by simp)
    obtain ⟨q, c, n, o, h1, h2, h3⟩ := h.incs i hil
    rcases check_known had hp h h1 h2 with ⟨e1, e2⟩ | ⟨e1, e2⟩
    · obtain ⟨t, ch', k1, k2, k3, k4, k5, k6⟩ := ih s changed h (fun j hj => hi j (by simp [hj]))
      refine ⟨t, ch', ?_, k2, k3, k4, ?_, k6⟩
      · rw [propagateOne, e1]; exact k1
      · intro j hj
        rcases List.mem_cons.1 hj with rfl | hj
        · exact quiet_tighter had hp h k3 k2 hil ((quiet_iff s j).2 e1)
        · exact k5 j hj
    · obtain ⟨n', c', m1, m2, m3, m4⟩ := had.inverse c h1.fit.dom
      rw [h1.asks.1] at m1
      simp at m1
      subst m1
      have hW := hp.std q h1.mem
      obtain ⟨rest, hsp⟩ := hp.split q h1.mem
      have hfit : Admits alg D sel q c' := ⟨m3, by rw [(m4 _ (hW _ (by rw [hsp]; simp))).1]; exact h1.fit.allows⟩
      have hskip : (s.lastAcc q).isSome = true ∨ Skips alg prob bef q c' := by
        rcases h3 with h3 | h3
        · exact .inl h3
        · right
          intro u hu
          rw [(m4 u (hW u (by rw [hsp]; simp [hu]))).1]
          exact h3 u hu
      obtain ⟨a, a1, a2, a3, a4, a5⟩ := assign_fit had hp h.asg h1.mem hfit hskip prob.root (some i)
      have hneg : (⟨q, n⟩ : Term P S).negate alg = .ok ⟨q, c'⟩ := by
        unfold Term.negate; simp only [m2, bind, Except.bind, pure, Except.pure]
      generalize hs1 : ({ s.push a with byOrder := s.byOrder ++ [a] } : St P V S) = s1
      have hder : s.derive alg prob.root ⟨q, c'⟩ i = .ok s1 := by
        unfold St.derive; simp only [a1, bind, Except.bind, pure, Except.pure]; rw [hs1]
      have hasg : ∀ x, s1.asgsOf x = (s.push a).asgsOf x := by intro x; rw [← hs1]; rfl
      have hap : a.term.package = q := by rw [a2]
      have ht : Tighter alg W s s1 := push_tighter hasg (by rw [← hs1]; rfl) (by rw [hap]; exact a5)
      have h' : GInv alg prob D W G R sel bef s1 := h.tighter ht (push_fits h.asg hasg (by rw [hap]; exact a3))
      have hr : Rest s s1 := by rw [← hs1]; exact ⟨rfl, rfl, rfl, rfl, rfl⟩
      have hset : quiet alg s1 i = true := by
        rw [quiet_settles had hp h' (by rw [ht.inc]; exact h1) (fun p g e => ht.fixed (h2 p g e))]
        refine ⟨a.acc, ?_, ?_⟩
        · have : s1.lastAcc q = (s.push a).lastAcc q := by unfold St.lastAcc; rw [hasg]
          rw [this, lastAcc_push, if_pos hap]
        · intro w hw ha
          rw [← (m4 w hw).1]; exact a4 w hw ha
      have hlt : loud alg s1 < loud alg s := loud_less had hp h ht h' hil
        (by cases hq : quiet alg s i with | false => rfl | true => exact absurd ((quiet_settles had hp h h1 h2).1 hq) e2) hset
      obtain ⟨t, ch', k1, k2, k3, k4, k5, k6⟩ := ih s1 (addChanged changed q) h' (fun j hj => by rw [ht.incs]; exact hi j (by simp [hj]))
      refine ⟨t, ch', ?_, k2, ht.trans k3, hr.trans k4, ?_, ?_⟩
      · rw [propagateOne, e1]
        simp only [bind, Except.bind] at hneg ⊢
        simp only [hneg, hder]
        exact k1
      · intro j hj
        rcases List.mem_cons.1 hj with rfl | hj
        · exact quiet_tighter had hp h' k3 k2 (by rw [ht.incs]; exact hil) hset
        · exact k5 j hj
      · have := addChanged_length changed q
        omega

theorem propagate_runs (had : Adequate alg D W G) (hp : Plan alg prob D W G R sel bef) (fuel : Nat) :
    ∀ (n : Nat) (s : St P V S) (changed : List P), GInv alg prob D W G R sel bef s → (∀ q i, i ∈ s.incsOf q → i < s.incs.length) →
      loud alg s + changed.length < n →
      ∃ t, propagate alg prob ch fuel n s changed = .ok t ∧ GInv alg prob D W G R sel bef t ∧ Tighter alg W s t ∧ Rest s t ∧
        ∀ p, changed = [p] → ∀ i ∈ s.incsOf p, quiet alg t i = true := by
  intro n
  induction n with
  | zero => intro s changed _ _ h; omega
  | succ n ih =>
    intro s changed h hv hn
    cases changed with
    | nil => exact ⟨s, rfl, h, Tighter.refl s, Rest.refl s, by simp⟩
    | cons x xs =>
      rw [propagate]
      generalize hk : ch.pop s.tick (x :: xs) % (x :: xs).length = k
      have hkl : k < (x :: xs).length := by rw [← hk]; exact Nat.mod_lt _ (by simp)
      generalize hs1 : ({ s with tick := s.tick + 1 } : St P V S) = s1
      have hasg : ∀ q, s1.asgsOf q = s.asgsOf q := by intro q; rw [← hs1]; rfl
      have hlast : ∀ q, s1.lastAcc q = s.lastAcc q := by intro q; rw [← hs1]; rfl
      have ht1 : Tighter alg W s s1 := ⟨by rw [← hs1], fun q a ha => ⟨a, by rw [hlast]; exact ha, fun _ _ h => h⟩⟩
      have h1 : GInv alg prob D W G R sel bef s1 := h.tighter ht1 (fun q a ha => h.asg q a (by rw [← hasg]; exact ha))
      have hr1 : Rest s s1 := by rw [← hs1]; exact ⟨rfl, rfl, rfl, rfl, rfl⟩
      obtain ⟨t, ch', k1, k2, k3, k4, k5, k6⟩ := propagateOne_runs (ch := ch) had hp fuel
        (s.incsOf (((x :: xs)[k]?).getD x)).reverse s1 ((x :: xs).eraseIdx k) h1
        (fun i hi => by rw [ht1.incs]; exact hv _ i (List.mem_reverse.1 hi))
      have hl1 := loud_tighter had hp h ht1 h1
      have hlen : ((x :: xs).eraseIdx k).length + 1 = (x :: xs).length := by
        rw [List.length_eraseIdx]; simp [hkl] at *; omega
      have htv : ∀ q i, i ∈ t.incsOf q → i < t.incs.length := by
        intro q i hi
        rw [k3.incs, ht1.incs]
        apply hv q i
        unfold St.incsOf at hi ⊢
        rw [k4.by_, hr1.by_] at hi
        exact hi
      obtain ⟨u, u1, u2, u3, u4, u5⟩ := ih t ch' k2 htv (by omega)
      refine ⟨u, ?_, u2, (ht1.trans k3).trans u3, (hr1.trans k4).trans u4, ?_⟩
      · simp only [bind, Except.bind, k1]
        exact u1
      · intro p hpc i hi
        have e : x = p ∧ xs = [] := by simpa using hpc
        obtain ⟨rfl, rfl⟩ := e
        have hk0 : k = 0 := by simp at hkl; omega
        subst hk0
        have := k5 i (by simpa using hi)
        exact quiet_tighter had hp k2 u3 u2 (by rw [k3.incs, ht1.incs]; exact hv _ i hi) this

end
end Solver
end Pkm
