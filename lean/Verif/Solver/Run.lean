import Verif.Solver.Search
set_option linter.unusedVariables false
set_option linter.unusedSimpArgs false
set_option linter.unusedSectionVars false
/-
Every run of the solver is a search.
-/
namespace Pkm
open Solver

variable {P V S : Type} [DecidableEq P]

namespace Solver
open Spec

variable {alg : Alg V S} {prob : Problem P V S} {ch : Choices P S}

/-! ### Steps of `Except` -/

theorem bind_ok {α β : Type} {x : Except Err α} {f : α → Except Err β} {b : β} (h : (x >>= f) = .ok b) :
    ∃ a, x = .ok a ∧ f a = .ok b := by
  cases x with
  | error e => simp [bind, Except.bind] at h
  | ok a => exact ⟨a, rfl, h⟩

theorem pure_ok {α : Type} {a b : α} (h : (pure a : Except Err α) = .ok b) : a = b := by
  simpa [pure, Except.pure] using h

theorem error_ok {α : Type} {e : Err} {b : α} (h : (Except.error e : Except Err α) = .ok b) : False := by
  simp at h

/-! ### Satisfiers are assignments of the partial solution -/

theorem scanSatisfier_mem {c : S} {next : Option (Asg P S)} : ∀ (l : List (Asg P S)) (a : Asg P S),
    scanSatisfier alg c next l = .ok (some a) → a ∈ l := by
  intro l
  induction l with
  | nil => intro a h; simp [scanSatisfier, pure, Except.pure] at h
  | cons x l ih =>
    intro a h
    rw [scanSatisfier.eq_def] at h
    cases next with
    | none =>
      simp only at h
      obtain ⟨b, h1, h2⟩ := bind_ok h
      cases b with
      | true => simp [pure, Except.pure] at h2; simp [h2]
      | false => simp at h2; exact List.mem_cons_of_mem _ (ih a h2)
    | some n =>
      simp only at h
      split at h
      · simp [pure, Except.pure] at h
      · obtain ⟨r, h1, h2⟩ := bind_ok h
        obtain ⟨b, h3, h4⟩ := bind_ok h2
        cases b with
        | true => simp [pure, Except.pure] at h4; simp [h4]
        | false => simp at h4; exact List.mem_cons_of_mem _ (ih a h4)

theorem findSatisfier_mem {s : St P V S} {t : Term P S} {next : Option (Asg P S)} {a : Asg P S}
    (h : findSatisfier alg s t next = .ok (some a)) : a ∈ s.asgsOf t.package := by
  unfold findSatisfier at h
  cases hl : s.lastAcc t.package with
  | none => rw [hl] at h; simp [pure, Except.pure] at h
  | some acc =>
    rw [hl] at h
    obtain ⟨b, h1, h2⟩ := bind_ok h
    cases b with
    | true => exact scanSatisfier_mem _ _ (by simpa using h2)
    | false => simp [pure, Except.pure] at h2

theorem popMax_mem : ∀ (l : List (Asg P S)) (m : Asg P S) (rest : List (Asg P S)), popMax l = some (m, rest) →
    m ∈ l ∧ ∀ x ∈ rest, x ∈ l := by
  intro l
  induction l with
  | nil => intro m rest h; simp [popMax] at h
  | cons a l ih =>
    intro m rest h
    rw [popMax] at h
    cases hp : popMax l with
    | none =>
      rw [hp] at h
      simp at h
      obtain ⟨rfl, rfl⟩ := h
      simp
    | some r =>
      obtain ⟨m', rest'⟩ := r
      rw [hp] at h
      simp only at h
      obtain ⟨h1, h2⟩ := ih m' rest' hp
      split at h
      · simp at h
        obtain ⟨rfl, rfl⟩ := h
        refine ⟨by simp [h1], ?_⟩
        intro x hx
        rcases List.mem_cons.1 hx with rfl | hx
        · simp
        · simp [h2 x hx]
      · simp at h
        obtain ⟨rfl, rfl⟩ := h
        exact ⟨by simp, fun x hx => by simp [hx]⟩

theorem requiringDecision_mem {s : St P V S} {p : P} {a : Asg P S} (h : s.requiringDecision p = .ok a) :
    ∃ e ∈ s.decisions, e.2.1 = a := by
  unfold St.requiringDecision at h
  split at h
  · simp at h
  · split at h
    · rename_i b hb
      simp at h
      subst h
      have := List.mem_of_find?_eq_some hb
      rw [List.mem_map] at this
      obtain ⟨x, h1, h2⟩ := this
      unfold Dict.values at h1
      rw [List.mem_map] at h1
      obtain ⟨e, h3, rfl⟩ := h1
      exact ⟨e, h3, h2⟩
    · simp at h

theorem furtherSatisfiers_mem {s : St P V S} {sat : Asg P S} (Q : Asg P S → Prop)
    (hq : ∀ p, ∀ a ∈ s.asgsOf p, Q a) (hd : ∀ e ∈ s.decisions, Q e.2.1) :
    ∀ (ts : List (Term P S)) (acc r : List (Asg P S)), (∀ a ∈ acc, Q a) →
      furtherSatisfiers alg s sat ts acc = .ok r → ∀ a ∈ r, Q a := by
  intro ts
  induction ts with
  | nil => intro acc r hacc h; rw [furtherSatisfiers] at h; rw [← pure_ok h]; exact hacc
  | cons t ts ih =>
    intro acc r hacc h
    rw [furtherSatisfiers] at h
    obtain ⟨acc1, h1, h2⟩ := bind_ok h
    obtain ⟨acc2, h3, h4⟩ := bind_ok h2
    have ha1 : ∀ a ∈ acc1, Q a := by
      unfold withRequiring at h1
      split at h1
      · obtain ⟨d, h5, h6⟩ := bind_ok h1
        rw [← pure_ok h6]
        intro a ha
        rcases List.mem_append.1 ha with ha | ha
        · exact hacc a ha
        · obtain ⟨e, he, rfl⟩ := requiringDecision_mem h5
          simp at ha; subst ha; exact hd e he
      · rw [← pure_ok h1]; exact hacc
    refine ih acc2 r ?_ h4
    unfold withEarlier at h3
    split at h3
    · obtain ⟨o, h5, h6⟩ := bind_ok h3
      cases o with
      | none => rw [← pure_ok h6]; exact ha1
      | some b =>
        rw [← pure_ok h6]
        intro a ha
        rcases List.mem_append.1 ha with ha | ha
        · exact ha1 a ha
        · simp at ha; subst ha; exact hq _ _ (findSatisfier_mem h5)
    · rw [← pure_ok h3]; exact ha1

theorem createFull_mem {s : St P V S} (Q : Asg P S → Prop) (hq : ∀ p, ∀ a ∈ s.asgsOf p, Q a) (hd : ∀ e ∈ s.decisions, Q e.2.1)
    {terms : List (Term P S)} {sats : List (Asg P S)} {r : Sat P S} (hs : ∀ a ∈ sats, Q a)
    (h : createFull alg s terms sats = .ok r) :
    ∃ sat prev, r = .full sat prev ∧ Q sat ∧ ∀ a, prev = some a → Q a := by
  unfold createFull at h
  cases hp : popMax sats with
  | none => rw [hp] at h; simp at h
  | some mr =>
    obtain ⟨m, rest⟩ := mr
    rw [hp] at h
    simp only at h
    obtain ⟨rest', h1, h2⟩ := bind_ok h
    obtain ⟨p1, p2⟩ := popMax_mem _ _ _ hp
    have := furtherSatisfiers_mem Q hq hd _ _ _ (fun a ha => hs a (p2 a ha)) h1
    refine ⟨m, _, (pure_ok h2).symm, hs m p1, ?_⟩
    intro a ha
    cases hp' : popMax rest' with
    | none => rw [hp'] at ha; simp at ha
    | some x =>
      obtain ⟨b, c⟩ := x
      rw [hp'] at ha
      simp at ha
      subst ha
      exact this b (popMax_mem _ _ _ hp').1

theorem checkTerms_mem {s : St P V S} (Q : Asg P S → Prop) (hq : ∀ p, ∀ a ∈ s.asgsOf p, Q a) (hd : ∀ e ∈ s.decisions, Q e.2.1)
    {terms : List (Term P S)} : ∀ (ts : List (Term P S)) (u : Option (Term P S)) (sats : List (Asg P S)) (sat : Asg P S)
      (prev : Option (Asg P S)), (∀ a ∈ sats, Q a) → checkTerms alg s terms ts u sats = .ok (.full sat prev) →
      Q sat ∧ ∀ a, prev = some a → Q a := by
  intro ts
  induction ts with
  | nil =>
    intro u sats sat prev hs h
    cases u with
    | some t => rw [checkTerms] at h; have := pure_ok h; simp at this
    | none =>
      rw [checkTerms] at h
      obtain ⟨sat', prev', h1, h2, h3⟩ := createFull_mem Q hq hd hs h
      simp at h1
      obtain ⟨rfl, rfl⟩ := h1
      exact ⟨h2, h3⟩
  | cons t ts ih =>
    intro u sats sat prev hs h
    rw [checkTerms.eq_def] at h
    simp only at h
    obtain ⟨o, h1, h2⟩ := bind_ok h
    cases o with
    | some a =>
      refine ih u (sats ++ [a]) sat prev ?_ h2
      intro b hb
      rcases List.mem_append.1 hb with hb | hb
      · exact hs b hb
      · simp at hb; subst hb; exact hq _ _ (findSatisfier_mem h1)
    | none =>
      simp only at h2
      obtain ⟨reach, h3, h4⟩ := bind_ok h2
      split at h4
      · have := pure_ok h4; simp at this
      · cases u with
        | none => exact ih _ _ _ _ hs h4
        | some t' => have := pure_ok h4; simp at this

theorem checkPlain_mem {s : St P V S} (Q : Asg P S → Prop) (hq : ∀ p, ∀ a ∈ s.asgsOf p, Q a) (hd : ∀ e ∈ s.decisions, Q e.2.1)
    {terms : List (Term P S)} {sat : Asg P S} {prev : Option (Asg P S)}
    (h : checkPlain alg s terms = .ok (.full sat prev)) : Q sat ∧ ∀ a, prev = some a → Q a := by
  unfold checkPlain at h
  split at h
  · have := pure_ok h; simp at this
  · exact checkTerms_mem Q hq hd _ _ _ _ _ (by simp) h

theorem check_mem {s : St P V S} (Q : Asg P S → Prop) (hq : ∀ p, ∀ a ∈ s.asgsOf p, Q a) (hd : ∀ e ∈ s.decisions, Q e.2.1)
    {i : Nat} {sat : Asg P S} {prev : Option (Asg P S)} (h : check alg s i = .ok (.full sat prev)) :
    Q sat ∧ ∀ a, prev = some a → Q a := by
  unfold check at h
  split at h
  · exact checkPlain_mem Q hq hd h
  · split at h
    · have := pure_ok h; simp at this
    · obtain ⟨c, h3, h4⟩ := bind_ok h
      split at h4
      · exact checkPlain_mem Q hq hd h4
      · have := pure_ok h4; simp at this

theorem Inv.check_level {s : St P V S} (h : Inv prob s) {i : Nat} {sat : Asg P S} {prev : Option (Asg P S)}
    (hc : check alg s i = .ok (.full sat prev)) : (prev.map (·.level)).getD 0 ≤ s.decisionLevel := by
  have := (check_mem (fun a => a.level ≤ s.decisionLevel)
    (fun p a ha => by rw [h.refines p, List.mem_filter] at ha; exact h.le a ha.1)
    (fun e he => h.le _ (h.own e he).2.1) hc).2
  cases prev with
  | none => simp
  | some a => simpa using this a rfl

/-! ### Changes outside the partial solution -/

theorem samePartial_of {s t : St P V S} (h1 : s.byOrder = t.byOrder) (h2 : s.asgs = t.asgs) (h3 : s.required = t.required)
    (h4 : s.decisions = t.decisions) : SamePartial s t :=
  ⟨h1, fun p => by unfold St.asgsOf; rw [h2], h3, h4⟩

/-- The partial solution and the fetched dependencies stay. -/
def Keeps (s t : St P V S) : Prop :=
  t.byOrder = s.byOrder ∧ t.asgs = s.asgs ∧ t.required = s.required ∧ t.decisions = s.decisions ∧ t.deps = s.deps

theorem Keeps.refl (s : St P V S) : Keeps s s := ⟨rfl, rfl, rfl, rfl, rfl⟩

theorem Keeps.trans {s t u : St P V S} (h : Keeps s t) (h' : Keeps t u) : Keeps s u := by
  obtain ⟨a1, a2, a3, a4, a5⟩ := h
  obtain ⟨b1, b2, b3, b4, b5⟩ := h'
  exact ⟨b1.trans a1, b2.trans a2, b3.trans a3, b4.trans a4, b5.trans a5⟩

theorem Keeps.same {s t : St P V S} (h : Keeps s t) : SamePartial s t := by
  obtain ⟨a1, a2, a3, a4, a5⟩ := h
  exact samePartial_of a1.symm a2.symm a3.symm a4.symm

theorem addTo_keeps (i : Nat) : ∀ (ts : List (Term P S)) (s : St P V S), Keeps s (addTo alg s i ts) := by
  intro ts
  induction ts with
  | nil => intro s; exact Keeps.refl s
  | cons t ts ih =>
    intro s
    rw [addTo]
    split
    · exact ih s
    · exact Keeps.trans ⟨rfl, rfl, rfl, rfl, rfl⟩ (ih _)

theorem addInc_keeps (s : St P V S) (i : Nat) : Keeps s (addInc alg s i) := by
  unfold addInc
  split
  · exact Keeps.refl s
  · exact Keeps.trans ⟨rfl, rfl, rfl, rfl, rfl⟩ (addTo_keeps i _ _)
  · exact addTo_keeps i _ _

theorem addIncs_keeps (is : List Nat) (s : St P V S) : Keeps s (is.foldl (addInc alg) s) := by
  induction is generalizing s with
  | nil => exact Keeps.refl s
  | cons i is ih => exact (addInc_keeps s i).trans (ih _)

theorem Search.ofKeeps {s t : St P V S} (h : Keeps s t) : Search alg prob s t := .step (.refl s) (.other h.same)

theorem Inv.keeps {s t : St P V S} (h : Inv prob s) (k : Keeps s t) : Inv prob t := h.congr k.same

theorem derive_deps {root : P} {s s' : St P V S} {t : Term P S} {c : Nat} (h : s.derive alg root t c = .ok s') :
    s'.deps = s.deps := by
  obtain ⟨a, _, rfl⟩ := derive_ok h
  rfl

/-! ### Conflict resolution and propagation -/

theorem settle_search {s s' : St P V S} {orig i level : Nat} {p : P} (hl : level ≤ s.decisionLevel)
    (h : settle alg prob s orig i level = .ok (s', p)) : Search alg prob s s' ∧ s'.deps = s.deps := by
  unfold settle at h
  simp only at h
  have hk : Keeps (s.backtrack level) (if i = orig then s.backtrack level else addInc alg (s.backtrack level) i) := by
    split
    · exact Keeps.refl _
    · exact addInc_keeps _ _
  generalize hg : (if i = orig then s.backtrack level else addInc alg (s.backtrack level) i) = u at h hk
  obtain ⟨r, h1, h2⟩ := bind_ok h
  cases r with
  | unsatisfied => simp at h2
  | full a b => simp at h2
  | almost t =>
    simp only at h2
    obtain ⟨n, h3, h4⟩ := bind_ok h2
    obtain ⟨w, h5, h6⟩ := bind_ok h4
    have := pure_ok h6
    simp only [Prod.mk.injEq] at this
    obtain ⟨rfl, rfl⟩ := this
    refine ⟨.step (.step (.step (.refl s) (.backtracked level hl)) (.other hk.same)) (.derived _ _ h5), ?_⟩
    rw [derive_deps h5, hk.2.2.2.2]; rfl

theorem resolveConflict_search {orig : Nat} : ∀ (fuel : Nat) (s s' : St P V S) (i : Nat) (sat : Asg P S) (prev : Option (Asg P S)) (p : P),
    Inv prob s → (prev.map (·.level)).getD 0 ≤ s.decisionLevel →
    resolveConflict alg prob ch orig fuel s i sat prev = .ok (s', p) → Search alg prob s s' ∧ s'.deps = s.deps := by
  intro fuel
  induction fuel with
  | zero => intro s s' i sat prev p hi hp h; rw [resolveConflict] at h; simp at h
  | succ fuel ih =>
    intro s s' i sat prev p hi hp h
    rw [resolveConflict] at h
    simp only at h
    have k1 : Keeps s (addTrouble s (s.inc i).terms) := ⟨rfl, rfl, rfl, rfl, rfl⟩
    generalize addTrouble s (s.inc i).terms = s1 at h k1
    have hi1 := hi.keeps k1
    have hp1 : (prev.map (·.level)).getD 0 ≤ s1.decisionLevel := by
      unfold St.decisionLevel at *; rw [k1.2.2.2.1]; exact hp
    have fin : ∀ {u : St P V S}, Keeps s u → Search alg prob u s' ∧ s'.deps = u.deps → Search alg prob s s' ∧ s'.deps = s.deps := by
      intro u k hu
      exact ⟨Search.trans (Search.ofKeeps k) hu.1, hu.2.trans k.2.2.2.2⟩
    split at h
    · simp at h
    · split at h
      · exact fin k1 (settle_search hp1 h)
      · rename_i cause _
        split at h
        · exact fin k1 (settle_search hp1 h)
        · obtain ⟨ts, h1, h2⟩ := bind_ok h
          obtain ⟨terms, h3, h4⟩ := bind_ok h2
          have k2 : Keeps s1 (({ s1 with tick := s1.tick + 1 } : St P V S).newInc ⟨terms, none⟩).1 := ⟨rfl, rfl, rfl, rfl, rfl⟩
          generalize (({ s1 with tick := s1.tick + 1 } : St P V S).newInc ⟨terms, none⟩) = q at h4 k2
          obtain ⟨s2, j⟩ := q
          simp only at h4 k2
          have hi2 := hi1.keeps k2
          split at h4
          · refine fin (k1.trans k2) (ih _ _ _ _ _ _ hi2 ?_ h4)
            unfold St.decisionLevel at *; rw [k2.2.2.2.1]; exact hp1
          · obtain ⟨r, h5, h6⟩ := bind_ok h4
            cases r with
            | unsatisfied => simp at h6
            | almost t => simp at h6
            | full sat' prev' =>
              exact fin (k1.trans k2) (ih _ _ _ _ _ _ hi2 (hi2.check_level h5) h6)

theorem propagateOne_search {fuel : Nat} : ∀ (is : List Nat) (s s' : St P V S) (changed changed' : List P), Inv prob s →
    propagateOne alg prob ch fuel is s changed = .ok (s', changed') → Search alg prob s s' ∧ s'.deps = s.deps := by
  intro is
  induction is with
  | nil =>
    intro s s' changed changed' hi h
    rw [propagateOne] at h
    have := pure_ok h
    simp only [Prod.mk.injEq] at this
    rw [← this.1]
    exact ⟨.refl s, rfl⟩
  | cons i is ih =>
    intro s s' changed changed' hi h
    rw [propagateOne] at h
    obtain ⟨r, h1, h2⟩ := bind_ok h
    cases r with
    | full sat prev =>
      simp only at h2
      obtain ⟨⟨u, p⟩, h3, h4⟩ := bind_ok h2
      simp only at h4
      obtain ⟨k1, k2⟩ := resolveConflict_search _ _ _ _ _ _ _ hi (hi.check_level h1) h3
      obtain ⟨k3, k4⟩ := ih _ _ _ _ (hi.search k1) h4
      exact ⟨Search.trans k1 k3, k4.trans k2⟩
    | almost t =>
      simp only at h2
      obtain ⟨n, h3, h4⟩ := bind_ok h2
      obtain ⟨u, h5, h6⟩ := bind_ok h4
      obtain ⟨k3, k4⟩ := ih _ _ _ _ (hi.derived h5) h6
      exact ⟨Search.trans (.step (.refl s) (.derived _ _ h5)) k3, k4.trans (derive_deps h5)⟩
    | unsatisfied => exact ih _ _ _ _ hi h2

theorem propagate_search {fuel : Nat} : ∀ (n : Nat) (s s' : St P V S) (changed : List P), Inv prob s →
    propagate alg prob ch fuel n s changed = .ok s' → Search alg prob s s' ∧ s'.deps = s.deps := by
  intro n
  induction n with
  | zero => intro s s' changed hi h; rw [propagate] at h; simp at h
  | succ n ih =>
    intro s s' changed hi h
    cases changed with
    | nil => rw [propagate] at h; rw [← pure_ok h]; exact ⟨.refl s, rfl⟩
    | cons c cs =>
      rw [propagate] at h
      simp only at h
      obtain ⟨⟨u, ch'⟩, h1, h2⟩ := bind_ok h
      simp only at h2
      have k : Keeps s { s with tick := s.tick + 1 } := ⟨rfl, rfl, rfl, rfl, rfl⟩
      obtain ⟨k1, k2⟩ := propagateOne_search _ _ _ _ _ (hi.keeps k) h1
      obtain ⟨k3, k4⟩ := ih _ _ _ ((hi.keeps k).search k1) h2
      exact ⟨Search.trans (Search.ofKeeps k) (Search.trans k1 k3), k4.trans k2⟩

/-! ### Decisions -/

/-- The fetched dependencies are those of the problem. -/
def DepsOk (prob : Problem P V S) (s : St P V S) : Prop :=
  ∀ p k ds, s.deps.get (p, k) = some ds → ∃ v raw, (prob.versions p)[k]? = some v ∧ prob.deps p v = some raw ∧
    ds.map (fun d => (d.package, d.constraint)) = (depDict raw).map (fun d => (d.package, d.constraint))

/-- The object belongs to a version that is offered. -/
def PVOk (prob : Problem P V S) (p : P) (pv : PV V S) : Prop :=
  match pv.index with
  | none => prob.hasVersion p pv.version = true
  | some k => (prob.versions p)[k]? = some pv.version

theorem PVOk.offers {p : P} {pv : PV V S} (h : PVOk prob p pv) : Offers prob p pv.version := by
  unfold PVOk at h
  split at h
  · exact .inr h
  · exact .inl (List.mem_of_getElem? h)

theorem mapM_ok {α β : Type} {f : α → Except Err β} : ∀ (l : List α) (r : List β), l.mapM f = .ok r →
    r.length = l.length ∧ ∀ b ∈ r, ∃ a ∈ l, f a = .ok b := by
  intro l
  induction l with
  | nil => intro r h; simp [pure, Except.pure] at h; subst h; simp
  | cons a l ih =>
    intro r h
    rw [List.mapM_cons] at h
    obtain ⟨b, h1, h2⟩ := bind_ok h
    obtain ⟨bs, h3, h4⟩ := bind_ok h2
    have := pure_ok h4
    subst this
    obtain ⟨i1, i2⟩ := ih bs h3
    refine ⟨by simp [i1], ?_⟩
    intro x hx
    rcases List.mem_cons.1 hx with rfl | hx
    · exact ⟨a, by simp, h1⟩
    · obtain ⟨y, h5, h6⟩ := i2 x hx
      exact ⟨y, by simp [h5], h6⟩

theorem packageVersions_ok {p : P} {pvs : List (PV V S)} (h : packageVersions alg prob p = .ok pvs) :
    ∀ pv ∈ pvs, PVOk prob p pv ∧ ∃ k, pv.index = some k := by
  unfold packageVersions at h
  simp only at h
  intro pv hpv
  obtain ⟨e, h1, h2⟩ := (mapM_ok _ _ h).2 pv hpv
  obtain ⟨r, h3, h4⟩ := bind_ok h2
  have := pure_ok h4
  subst this
  rw [List.mem_map] at h1
  obtain ⟨⟨v, k⟩, h5, rfl⟩ := h1
  refine ⟨?_, ⟨_, rfl⟩⟩
  show (prob.versions p)[k]? = some v
  rw [List.mem_zipIdx_iff_getElem?] at h5
  simpa using h5

theorem matchingVersions_ok {s : St P V S} {p : P} {pvs : List (PV V S)} (h : matchingVersions alg prob s p = .ok pvs) :
    ∀ pv ∈ pvs, PVOk prob p pv := by
  unfold matchingVersions at h
  split at h
  · simp at h
  · split at h
    · intro pv hpv
      rw [← pure_ok h] at hpv
      split at hpv
      · simp at hpv
        subst hpv
        assumption
      · simp at hpv
    · obtain ⟨r, h1, h2⟩ := bind_ok h
      intro pv hpv
      rw [← pure_ok h2] at hpv
      exact (packageVersions_ok h1 pv (List.mem_filter.1 hpv).1).1

theorem fetchDeps_ok {s s' : St P V S} {p : P} {pv : PV V S} {ds : List (Dep P S)} (hpv : PVOk prob p pv) (hd : DepsOk prob s)
    (h : fetchDeps prob s p pv = some (s', ds)) :
    SamePartial s s' ∧ DepsOk prob s' ∧ (∃ raw, prob.deps p pv.version = some raw ∧
      ds.map (fun d => (d.package, d.constraint)) = (depDict raw).map (fun d => (d.package, d.constraint))) := by
  unfold fetchDeps at h
  unfold PVOk at hpv
  split at h
  · rename_i hi
    rw [hi] at hpv
    cases hx : prob.deps p pv.version with
    | none => rw [hx] at h; simp at h
    | some raw =>
      rw [hx] at h
      simp at h
      obtain ⟨rfl, rfl⟩ := h
      exact ⟨SamePartial.refl _, hd, raw, rfl, rfl⟩
  · rename_i k hi
    rw [hi] at hpv
    simp only at hpv
    split at h
    · rename_i d ds' hg
      simp at h
      obtain ⟨rfl, rfl⟩ := h
      refine ⟨SamePartial.refl _, hd, ?_⟩
      cases hgg : s.deps.get (p, k) with
      | none => rw [hgg] at hg; simp at hg
      | some x =>
        rw [hgg] at hg
        simp at hg
        subst hg
        obtain ⟨v, raw, h1, h2, h3⟩ := hd p k _ hgg
        rw [hpv] at h1
        simp at h1
        subst h1
        exact ⟨raw, h2, h3⟩
    · cases hx : prob.deps p pv.version with
      | none => rw [hx] at h; simp at h
      | some raw =>
        rw [hx] at h
        simp at h
        obtain ⟨rfl, rfl⟩ := h
        refine ⟨samePartial_of rfl rfl rfl rfl, ?_, raw, rfl, rfl⟩
        intro q j es he
        simp only [Dict.get_put] at he
        split at he
        · rename_i e
          simp at e he
          obtain ⟨rfl, rfl⟩ := e
          subst he
          exact ⟨_, raw, hpv, hx, rfl⟩
        · exact hd q j es he

theorem firstUsable_ok {s s' : St P V S} {p : P} {ds : List (Dep P S)} {pv : PV V S} (hd : DepsOk prob s) :
    ∀ pvs : List (PV V S), (∀ pv ∈ pvs, PVOk prob p pv) → firstUsable prob s p pvs = some (pv, s', ds) →
      pv ∈ pvs ∧ SamePartial s s' ∧ DepsOk prob s' ∧ (∃ raw, prob.deps p pv.version = some raw ∧
      ds.map (fun d => (d.package, d.constraint)) = (depDict raw).map (fun d => (d.package, d.constraint))) := by
  intro pvs
  induction pvs with
  | nil => intro _ h; simp [firstUsable] at h
  | cons x pvs ih =>
    intro hp h
    rw [firstUsable] at h
    cases hf : fetchDeps prob s p x with
    | none =>
      rw [hf] at h
      obtain ⟨h1, h2⟩ := ih (fun pv hpv => hp pv (List.mem_cons_of_mem _ hpv)) h
      exact ⟨List.mem_cons_of_mem _ h1, h2⟩
    | some r =>
      obtain ⟨u, es⟩ := r
      rw [hf] at h
      simp at h
      obtain ⟨rfl, rfl, rfl⟩ := h
      exact ⟨by simp, fetchDeps_ok (hp _ (by simp)) hd hf⟩

theorem setDepInc_ok {s : St P V S} {p q : P} {pv : PV V S} {i : Nat} (hd : DepsOk prob s) (hp : pv.index ≠ none → PVOk prob p pv) (hf : ∀ k, pv.index = some k → (s.deps.get (p, k)).isSome) :
    SamePartial s (s.setDepInc p pv q i) ∧ DepsOk prob (s.setDepInc p pv q i) ∧
      (∀ e, (s.deps.get e).isSome → ((s.setDepInc p pv q i).deps.get e).isSome) := by
  unfold St.setDepInc
  split
  · exact ⟨SamePartial.refl _, hd, fun _ h => h⟩
  · rename_i k hi
    refine ⟨samePartial_of rfl rfl rfl rfl, ?_, ?_⟩
    · intro q' j es he
      simp only [Dict.get_put] at he
      split at he
      · rename_i e
        simp at e he
        obtain ⟨rfl, rfl⟩ := e
        have := hf k hi
        cases hg : s.deps.get (p, k) with
        | none => rw [hg] at this; simp at this
        | some x =>
          rw [hg] at he
          obtain ⟨v, raw, h1, h2, h3⟩ := hd p k x hg
          refine ⟨v, raw, h1, h2, ?_⟩
          rw [← h3, ← he]
          simp only [Option.getD_some, List.map_map]
          congr 1
          funext d
          simp only [Function.comp_apply]
          split <;> rfl
      · exact hd q' j es he
    · intro e he
      simp only [Dict.get_put]
      split
      · rfl
      · exact he

theorem computeIncs_ok {pvs : List (PV V S)} {p : P} {pv : PV V S} (hp : pv.index ≠ none → PVOk prob p pv) :
    ∀ (ds : List (Dep P S)) (s s' : St P V S) (r r' : List Nat), DepsOk prob s →
      (∀ k, pv.index = some k → (s.deps.get (p, k)).isSome) →
      computeIncs alg prob pvs p pv ds s r = .ok (s', r') → SamePartial s s' ∧ DepsOk prob s' := by
  intro ds
  induction ds with
  | nil =>
    intro s s' r r' hd hf h
    rw [computeIncs] at h
    have := pure_ok h
    simp only [Prod.mk.injEq] at this
    rw [← this.1]
    exact ⟨SamePartial.refl _, hd⟩
  | cons d ds ih =>
    intro s s' r r' hd hf h
    rw [computeIncs] at h
    simp only at h
    split at h
    · obtain ⟨c, h1, h2⟩ := bind_ok h
      obtain ⟨ts, h3, h4⟩ := bind_ok h2
      obtain ⟨k1, k2⟩ := ih _ _ _ _ (by exact hd) (by exact hf) h4
      exact ⟨SamePartial.trans (samePartial_of rfl rfl rfl rfl) k1, k2⟩
    · obtain ⟨ts, h3, h4⟩ := bind_ok h
      simp only [St.newInc] at h4
      have hd1 : DepsOk prob ({ s with incs := s.incs ++ [⟨ts, some (⟨p, pv.range⟩, ⟨d.package, d.constraint⟩, false)⟩] } : St P V S) := hd
      obtain ⟨j1, j2, j3⟩ := setDepInc_ok (q := d.package) (i := s.incs.length) hd1 hp hf
      obtain ⟨k1, k2⟩ := ih _ _ _ _ j2 (fun k hk => j3 _ (hf k hk)) h4
      exact ⟨SamePartial.trans (samePartial_of rfl rfl rfl rfl) (SamePartial.trans j1 k1), k2⟩

theorem asgsOf_level {s : St P V S} (h : Inv prob s) {p : P} {a : Asg P S} (ha : a ∈ s.asgsOf p) : a.level ≤ s.decisionLevel := by
  rw [h.refines p, List.mem_filter] at ha
  exact h.le a ha.1

theorem minorLevel_le {s : St P V S} (h : Inv prob s) {p : P} : ∀ (is : List Nat) (m r : Int), m ≤ s.decisionLevel →
    minorLevel alg s p is m = .ok r → r ≤ s.decisionLevel := by
  intro is
  induction is with
  | nil => intro m r hm hr; rw [minorLevel] at hr; rw [← pure_ok hr]; exact hm
  | cons i is ih =>
    intro m r hm hr
    rw [minorLevel] at hr
    split at hr
    · simp at hr
    · rename_i t _
      obtain ⟨req, h1, h2⟩ := bind_ok hr
      split at h2
      · rename_i last before rest hrev
        have hl : last.level ≤ s.decisionLevel := by
          apply asgsOf_level h (p := t.package)
          rw [← List.mem_reverse, hrev]; simp
        split at h2
        · obtain ⟨b, h3, h4⟩ := bind_ok h2
          cases b with
          | false => simp only [Bool.false_eq_true, if_false] at h4; rw [← pure_ok h4]; omega
          | true =>
            simp only [if_true] at h4
            refine ih _ _ ?_ h4
            split
            · omega
            · omega
        · exact ih _ _ hm h2
      · exact ih _ _ hm h2

theorem minorAdjustments_ok {s u : St P V S} {p : P} {cs : List Nat} (h : Inv prob s) (hp : p ∈ s.undecided)
    (hm : minorAdjustments alg s p cs = .ok (some u)) :
    ∃ m, u = s.backtrack m ∧ m ≤ s.decisionLevel ∧ p ∈ u.undecided := by
  unfold minorAdjustments at hm
  obtain ⟨m, h1, h2⟩ := bind_ok hm
  have hle := minorLevel_le h _ _ _ (by omega) h1
  split at h2
  · rename_i hc
    have := pure_ok h2
    simp at this
    subst this
    refine ⟨m.toNat, rfl, by omega, ?_⟩
    unfold St.undecided at *
    rw [List.mem_filter] at *
    obtain ⟨hr, hn⟩ := hp
    constructor
    · unfold Dict.keys at *
      rw [List.mem_map] at *
      obtain ⟨⟨x, l⟩, h3, h4⟩ := hr
      simp at h4
      subst h4
      refine ⟨(x, l), mem_backtrack_required.2 ⟨h3, ?_⟩, rfl⟩
      have hg := Dict.mem_get _ _ _ h.wfR h3
      unfold requirementLevel at hc
      rw [hg] at hc
      cases l with
      | zero => omega
      | succ l => simp only at hc; omega
    · simp only [Bool.not_eq_true', Bool.eq_false_iff, ne_eq] at *
      intro hh
      apply hn
      rw [has_iff] at *
      unfold Dict.keys at *
      rw [List.mem_map] at *
      obtain ⟨⟨x, a, v⟩, h3, h4⟩ := hh
      exact ⟨_, (mem_backtrack_decisions.1 h3).1, h4⟩
  · have := pure_ok h2; simp at this

theorem SamePartial.undecided {s t : St P V S} (h : SamePartial s t) : s.undecided = t.undecided := by
  unfold St.undecided; rw [h.2.2.1, h.2.2.2]

theorem decideVersion_search {s s' : St P V S} {p : P} {pv : PV V S} {ds : List (Dep P S)} (hi : Inv prob s) (hd : DepsOk prob s)
    (hp : p ∈ s.undecided) (hpv : PVOk prob p pv) (hf : ∀ k, pv.index = some k → (s.deps.get (p, k)).isSome)
    (hraw : ∃ raw, prob.deps p pv.version = some raw ∧
      ds.map (fun d => (d.package, d.constraint)) = (depDict raw).map (fun d => (d.package, d.constraint)))
    (h : decideVersion alg prob s p pv ds = .ok s') : Search alg prob s s' ∧ DepsOk prob s' := by
  obtain ⟨raw, hr1, hr2⟩ := hraw
  have hr3 : ds.map (·.package) = (depDict raw).map (·.package) := by
    have := congrArg (List.map (·.1)) hr2
    simpa [List.map_map, Function.comp_def] using this
  unfold decideVersion at h
  obtain ⟨pvs, -, h⟩ := bind_ok h
  obtain ⟨⟨s1, incs⟩, h1, h⟩ := bind_ok h
  simp only at h
  obtain ⟨j1, j2⟩ := computeIncs_ok (fun _ => hpv) _ _ _ _ _ hd hf h1
  have k := addIncs_keeps (alg := alg) incs s1
  generalize incs.foldl (addInc alg) s1 = s2 at h k
  have j3 := SamePartial.trans j1 k.same
  have hi2 := hi.congr j3
  have hd2 : DepsOk prob s2 := by unfold DepsOk; rw [k.2.2.2.2]; exact j2
  have hp2 : p ∈ s2.undecided := by rw [← SamePartial.undecided j3]; exact hp
  obtain ⟨a, ha, h⟩ := bind_ok h
  obtain ⟨conflicts, -, h⟩ := bind_ok h
  obtain ⟨adjusted, hadj, h⟩ := bind_ok h
  have start2 : Search alg prob s s2 := .step (.refl s) (.other j3)
  cases adjusted with
  | some u =>
    simp only at h
    obtain ⟨a', ha', h⟩ := bind_ok h
    rw [← pure_ok h]
    unfold adjust at hadj
    split at hadj
    · have := pure_ok hadj; simp at this
    · obtain ⟨m, rfl, hm, hpu⟩ := minorAdjustments_ok hi2 hp2 hadj
      rw [hr3]
      refine ⟨.step (.step start2 (.backtracked m hm)) (.decided p pv.version raw a' hpu hpv.offers hr1 ha'), ?_⟩
      obtain ⟨_, _, _, _, _, f, _⟩ := require_fields ((s2.backtrack m).decide a' pv.version) ((depDict raw).map (·.package))
      unfold DepsOk
      rw [f]
      exact hd2
  | none =>
    simp only at h
    split at h
    · rw [← pure_ok h, hr3]
      refine ⟨.step start2 (.decided p pv.version raw a hp2 hpv.offers hr1 ha), ?_⟩
      obtain ⟨_, _, _, _, _, f, _⟩ := require_fields (s2.decide a pv.version) ((depDict raw).map (·.package))
      unfold DepsOk
      rw [f]
      exact hd2
    · rw [← pure_ok h]
      exact ⟨start2, hd2⟩

theorem noVersions_keeps {s s' : St P V S} {p : P} (h : noVersions alg prob s p = .ok s') : Keeps s s' := by
  unfold noVersions at h
  split at h
  · simp at h
  · split at h
    · obtain ⟨c, -, h⟩ := bind_ok h
      rw [← pure_ok h]
      exact ⟨rfl, rfl, rfl, rfl, rfl⟩
    · obtain ⟨ts, -, h⟩ := bind_ok h
      rw [← pure_ok h]
      exact Keeps.trans ⟨rfl, rfl, rfl, rfl, rfl⟩ (addInc_keeps _ _)

theorem choosePackage_mem {s : St P V S} : ∀ (l : List (P × List (PV V S))) (e : P × List (PV V S)),
    choosePackage s l = some e → e ∈ l := by
  intro l
  induction l with
  | nil => intro e h; simp [choosePackage] at h
  | cons x l ih =>
    intro e h
    rw [choosePackage] at h
    split at h
    · simp at h; simp [h]
    · rename_i m hm
      simp only at h
      split at h
      · simp at h; simp [h]
      · simp at h; subst h; exact List.mem_cons_of_mem _ (ih _ hm)

theorem choosePackage_none {s : St P V S} (l : List (P × List (PV V S))) (h : choosePackage s l = none) : l = [] := by
  cases l with
  | nil => rfl
  | cons x l =>
    rw [choosePackage] at h
    split at h
    · simp at h
    · simp only at h; split at h <;> simp at h

theorem fetchDeps_fetched {s s' : St P V S} {p : P} {pv : PV V S} {ds : List (Dep P S)}
    (h : fetchDeps prob s p pv = some (s', ds)) : ∀ k, pv.index = some k → (s'.deps.get (p, k)).isSome := by
  intro k hk
  unfold fetchDeps at h
  rw [hk] at h
  simp only at h
  split at h
  · rename_i d ds' hg
    simp at h
    rw [← h.1]
    cases hgg : s.deps.get (p, k) with
    | none => rw [hgg] at hg; simp at hg
    | some x => rfl
  · cases hx : prob.deps p pv.version with
    | none => rw [hx] at h; simp at h
    | some raw =>
      rw [hx] at h
      simp at h
      rw [← h.1]
      simp [Dict.get_put]

theorem firstUsable_fetched {s s' : St P V S} {p : P} {pv : PV V S} {ds : List (Dep P S)} : ∀ pvs : List (PV V S),
    firstUsable prob s p pvs = some (pv, s', ds) → ∀ k, pv.index = some k → (s'.deps.get (p, k)).isSome := by
  intro pvs
  induction pvs with
  | nil => intro h; simp [firstUsable] at h
  | cons x pvs ih =>
    intro h
    rw [firstUsable] at h
    cases hf : fetchDeps prob s p x with
    | none => rw [hf] at h; exact ih h
    | some r =>
      obtain ⟨u, es⟩ := r
      rw [hf] at h
      simp at h
      obtain ⟨rfl, rfl, rfl⟩ := h
      exact fetchDeps_fetched hf

theorem nextDecision_search {s s' : St P V S} {o : Option P} (hi : Inv prob s) (hd : DepsOk prob s)
    (h : nextDecision alg prob s = .ok (s', o)) :
    Search alg prob s s' ∧ DepsOk prob s' ∧ (o = none → s' = s ∧ s.undecided = []) := by
  unfold nextDecision at h
  split at h
  · rename_i hu
    have := pure_ok h
    simp only [Prod.mk.injEq] at this
    obtain ⟨rfl, rfl⟩ := this
    exact ⟨.refl s, hd, fun _ => ⟨rfl, hu⟩⟩
  · rename_i us hne
    obtain ⟨options, h1, h2⟩ := bind_ok h
    obtain ⟨hlen, hopt⟩ := mapM_ok _ _ h1
    split at h2
    · rename_i hc
      have := choosePackage_none _ hc
      subst this
      simp at hlen
      exact absurd hlen.symm (by intro e; exact hne (List.length_eq_zero_iff.1 e))
    · rename_i p pvs hc
      obtain ⟨q, hq1, hq2⟩ := hopt _ (choosePackage_mem _ _ hc)
      obtain ⟨vs, hq3, hq4⟩ := bind_ok hq2
      have := pure_ok hq4
      simp only [Prod.mk.injEq] at this
      obtain ⟨rfl, rfl⟩ := this
      have hpvs := matchingVersions_ok hq3
      split at h2
      · obtain ⟨u, h3, h4⟩ := bind_ok h2
        have := pure_ok h4
        simp only [Prod.mk.injEq] at this
        obtain ⟨rfl, rfl⟩ := this
        have k := noVersions_keeps h3
        refine ⟨Search.ofKeeps k, ?_, by simp⟩
        unfold DepsOk; rw [k.2.2.2.2]; exact hd
      · rename_i pv u ds hf
        obtain ⟨w, h3, h4⟩ := bind_ok h2
        have := pure_ok h4
        simp only [Prod.mk.injEq] at this
        obtain ⟨rfl, rfl⟩ := this
        obtain ⟨g1, g2, g3, g4⟩ := firstUsable_ok hd _ hpvs hf
        have hpu : q ∈ u.undecided := by rw [← SamePartial.undecided g2]; exact hq1
        obtain ⟨k1, k2⟩ := decideVersion_search (hi.congr g2) g3 hpu (hpvs _ g1) (firstUsable_fetched _ hf) g4 h3
        exact ⟨Search.trans (.step (.refl s) (.other g2)) k1, k2, by simp⟩

theorem solveLoop_search {fuel : Nat} : ∀ (n : Nat) (s s' : St P V S) (p : P), Inv prob s → DepsOk prob s →
    solveLoop alg prob ch fuel n s p = .ok s' → Search alg prob s s' ∧ s'.undecided = [] := by
  intro n
  induction n with
  | zero => intro s s' p _ _ h; rw [solveLoop] at h; simp at h
  | succ n ih =>
    intro s s' p hi hd h
    rw [solveLoop] at h
    obtain ⟨s1, h1, h2⟩ := bind_ok h
    obtain ⟨⟨s2, o⟩, h3, h4⟩ := bind_ok h2
    obtain ⟨k1, k2⟩ := propagate_search _ _ _ _ hi h1
    have hd1 : DepsOk prob s1 := by unfold DepsOk; rw [k2]; exact hd
    obtain ⟨k3, k4, k5⟩ := nextDecision_search (hi.search k1) hd1 h3
    cases o with
    | none =>
      simp only at h4
      have := pure_ok h4
      subst this
      obtain ⟨e1, e2⟩ := k5 rfl
      subst e1
      exact ⟨Search.trans k1 k3, e2⟩
    | some q =>
      simp only at h4
      obtain ⟨k6, k7⟩ := ih _ _ _ (hi.search (Search.trans k1 k3)) k4 h4
      exact ⟨Search.trans (Search.trans k1 k3) k6, k7⟩

theorem start_ok {s : St P V S} (h : start alg prob = .ok s) : Inv prob s ∧ DepsOk prob s ∧ s.decisions = [] ∧ s.byOrder = [] := by
  unfold start at h
  obtain ⟨pvs, -, h⟩ := bind_ok h
  cases pvs with
  | nil => simp at h
  | cons pv pvs =>
    simp only at h
    obtain ⟨n, -, h⟩ := bind_ok h
    obtain ⟨ts, -, h⟩ := bind_ok h
    simp only [St.newInc] at h
    have k := addInc_keeps (alg := alg) ({ (St.empty : St P V S) with incs := (St.empty : St P V S).incs ++ [⟨ts, none⟩] } : St P V S)
      (St.empty : St P V S).incs.length
    generalize addInc alg ({ (St.empty : St P V S) with incs := (St.empty : St P V S).incs ++ [⟨ts, none⟩] } : St P V S)
      (St.empty : St P V S).incs.length = u at h k
    have := pure_ok h
    subst this
    obtain ⟨k1, k2, k3, k4, k5⟩ := k
    simp only [St.empty] at k1 k2 k3 k4 k5
    have hreq : (u.require [prob.root]) = { u with required := [(prob.root, 0)] } := by
      simp [St.require, k3, Dict.has, Dict.get, Dict.put, St.decisionLevel, k4]
    rw [hreq]
    refine ⟨?_, ?_, k4, k1⟩
    · constructor <;> simp [k1, k2, k3, k4, k5, Dict.Wf, Dict.keys, St.asgsOf, Dict.get]
    · unfold DepsOk; simp [k5, Dict.get]

/-- Every successful run is a search that ends without undecided packages. -/
theorem solve_search {fuel : Nat} {sol : Dict P V} (h : solve alg prob ch fuel = .ok sol) :
    ∃ s0 s, start alg prob = .ok s0 ∧ Search alg prob s0 s ∧ Inv prob s ∧ s.undecided = [] ∧ sol = s.solution := by
  unfold solve at h
  obtain ⟨s0, h1, h⟩ := bind_ok h
  obtain ⟨s, h2, h⟩ := bind_ok h
  obtain ⟨i1, i2, -⟩ := start_ok h1
  obtain ⟨k1, k2⟩ := solveLoop_search _ _ _ _ i1 i2 h2
  exact ⟨s0, s, h1, k1, i1.search k1, k2, (pure_ok h).symm⟩

end Solver
end Pkm
