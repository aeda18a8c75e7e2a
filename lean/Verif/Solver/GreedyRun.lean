import Verif.Solver.Greedy
set_option linter.unusedVariables false
set_option linter.unusedSimpArgs false
set_option linter.unusedSectionVars false
/-
C59: the decisions of a run without conflicts, and the whole run.
-/
namespace Pkm
open Solver

variable {P V S : Type} [DecidableEq P]

namespace Solver
open Spec

variable {alg : Alg V S} {prob : Problem P V S} {ch : Choices P S} {D : S → Prop} {W : V → Prop} {G : S → Prop} {R : List P}
  {sel : P → V} {bef : P → List V}

theorem depDict_mem {raw : List (P × S)} {d : Dep P S} (h : d ∈ depDict raw) : (d.package, d.constraint) ∈ raw ∧ d.inc = none := by
  unfold depDict at h
  rw [List.mem_map] at h
  obtain ⟨e, he, rfl⟩ := h
  have : ∀ (l : List (P × S)) (d : Dict P S), ∀ e ∈ l.foldl (fun (d : Dict P S) e => d.put e.1 e.2) d, e ∈ d ∨ e ∈ l := by
    intro l
    induction l with
    | nil => intro d e he; exact .inl he
    | cons x l ih =>
      intro d e he
      rw [List.foldl_cons] at he
      rcases ih _ e he with h | h
      · have hput : ∀ (d : Dict P S) (k : P) (v : S), ∀ e ∈ d.put k v, e ∈ d ∨ e = (k, v) := by
          intro d k v
          induction d with
          | nil => intro e he; simp [Dict.put] at he; exact .inr he
          | cons y d ih2 =>
            intro e he
            rw [Dict.put] at he
            split at he
            · rename_i hy
              rcases List.mem_cons.1 he with h | h
              · right; rw [h]; simp [hy]
              · left; simp [h]
            · rcases List.mem_cons.1 he with h | h
              · left; simp [h]
              · rcases ih2 e h with h | h
                · left; simp [h]
                · exact .inr h
        rcases hput d x.1 x.2 e h with h | h
        · exact .inl h
        · right; simp [h]
      · right; simp [h]
  rcases this raw [] e he with h | h
  · simp at h
  · exact ⟨h, rfl⟩

/-- The first usable version is the planned one. -/
theorem firstUsable_planned {s : St P V S} {p : P} {acc : S} {raw : List (P × S)} {rest : List V} (hraw : prob.deps p (sel p) = some raw)
    (hacc : alg.allows acc (sel p) = true) (hd : ∀ k, s.deps.get (p, k) = none) : ∀ (b : List V) (pvs : List (PV V S)),
      pvs.map (·.version) = b ++ sel p :: rest → (∀ pv ∈ pvs, pv.index ≠ none) →
      (∀ u ∈ b, alg.allows acc u = false ∨ prob.deps p u = none) →
      ∃ pv ∈ pvs, ∃ k, pv.index = some k ∧ pv.version = sel p ∧
        firstUsable prob s p (pvs.filter (fun pv => alg.allows acc pv.version)) =
          some (pv, { s with deps := s.deps.put (p, k) (depDict raw) }, depDict raw) := by
  intro b
  induction b with
  | nil =>
    intro pvs hm hi _
    cases pvs with
    | nil => simp at hm
    | cons pv pvs =>
      simp at hm
      obtain ⟨e1, e2⟩ := hm
      cases hk : pv.index with
      | none => exact absurd hk (hi pv (by simp))
      | some k =>
        refine ⟨pv, by simp, k, hk, e1, ?_⟩
        rw [List.filter_cons, if_pos (by rw [e1]; exact hacc), firstUsable]
        have : fetchDeps prob s p pv = some ({ s with deps := s.deps.put (p, k) (depDict raw) }, depDict raw) := by
          unfold fetchDeps
          simp [hk, hd k, e1, hraw]
        rw [this]
  | cons u b ih =>
    intro pvs hm hi hb
    cases pvs with
    | nil => simp at hm
    | cons pv pvs =>
      simp at hm
      obtain ⟨e1, e2⟩ := hm
      obtain ⟨pv', m1, k, m2, m3, m4⟩ := ih pvs e2 (fun x hx => hi x (by simp [hx])) (fun x hx => hb x (by simp [hx]))
      refine ⟨pv', by simp [m1], k, m2, m3, ?_⟩
      rw [List.filter_cons]
      split
      · rename_i ha
        rw [firstUsable]
        have : fetchDeps prob s p pv = none := by
          unfold fetchDeps
          cases hk : pv.index with
          | none => exact absurd hk (hi pv (by simp))
          | some k' =>
            rcases hb u (by simp) with h | h
            · rw [e1, h] at ha; simp at ha
            · simp [hd k', e1, h]
        rw [this]
        exact m4
      · exact m4

/-- The new incompatibilities of a decision. -/
theorem computeIncs_runs (had : Adequate alg D W G) {pvs : List (PV V S)} {p : P} {pv : PV V S} {k : Nat} (hk : pv.index = some k)
    (hnext : pv.next ≠ pv.index) (hpR : p ∈ R) (hG : G pv.range) (hg : alg.allows pv.range (sel p) = true) :
    ∀ (ds : List (Dep P S)) (s : St P V S) (r : List Nat), (∀ d ∈ ds, d.package ∈ R ∧ Admits alg D sel d.package d.constraint) →
      (∀ k', k' ≠ k → s.deps.get (p, k') = none) → IInv s →
      ∃ s' tail, computeIncs alg prob pvs p pv ds s r = .ok (s', r ++ tail) ∧ IInv s' ∧ Grows s s' ∧ SamePartial s s' ∧
        s'.incs.length = s.incs.length + ds.length ∧ tail.Nodup ∧
        (∀ i, s.incs.length ≤ i → i < s'.incs.length → i ∈ tail) ∧
        (∀ i ∈ tail, s.incs.length ≤ i ∧ i < s'.incs.length ∧ (∀ a b, (s'.inc i).dep ≠ some (a, b, true)) ∧
          ∃ d ∈ ds, ∃ n, Known alg prob D G R sel (s'.inc i) d.package d.constraint n (some (p, pv.range))) ∧
        (∀ d ∈ ds, ∃ i ∈ tail, ∃ n, Known alg prob D G R sel (s'.inc i) d.package d.constraint n (some (p, pv.range))) ∧
        (∀ p' k', p' ≠ p → s'.deps.get (p', k') = s.deps.get (p', k')) ∧ ∀ i, i < s.incs.length → s'.inc i = s.inc i := by
  intro ds
  induction ds with
  | nil =>
    intro s r _ _ hI
    exact ⟨s, [], by simp [computeIncs, pure, Except.pure], hI, Grows.refl s, SamePartial.refl s, by simp, by simp, by intros; omega, by simp, by simp, fun _ _ _ => rfl, fun _ _ => rfl⟩
  | cons d ds ih =>
    intro s r hds hd hI
    obtain ⟨dR, dF⟩ := hds d (by simp)
    have hsh : lastRequiring alg s pvs p d pvs.length pv.next none = none := by
      cases pvs.length with
      | zero => rfl
      | succ n =>
        cases hn : pv.next with
        | none => rfl
        | some k' =>
          rw [lastRequiring]
          have : k' ≠ k := by
            rintro rfl
            exact hnext (by rw [hn, hk])
          rw [hd k' this]
          simp
    obtain ⟨n, c', n1, n2, n3, n4⟩ := had.inverse _ dF.dom
    have hts : ∃ ts, depTerms alg prob ⟨p, pv.range⟩ ⟨d.package, d.constraint⟩ = .ok ts ∧
        (ts = [⟨d.package, n⟩, ⟨p, pv.range⟩] ∨ ts = [⟨p, pv.range⟩, ⟨d.package, n⟩]) := by
      refine ⟨_, by unfold depTerms Term.negate; simp only [n1, bind, Except.bind, pure, Except.pure]; rfl, sortTerms_pair _ _⟩
    obtain ⟨ts, ts1, ts2⟩ := hts
    have hnI : IInv (s.newInc ⟨ts, some (⟨p, pv.range⟩, ⟨d.package, d.constraint⟩, false)⟩).1 := by
      apply newInc_iinv hI
      intro a b f h
      simp at h
      obtain ⟨rfl, -, -⟩ := h
      rcases ts2 with h | h <;> simp [h]
    have hnG := newInc_grows s ⟨ts, some (⟨p, pv.range⟩, ⟨d.package, d.constraint⟩, false)⟩
    have hnL : (s.newInc ⟨ts, some (⟨p, pv.range⟩, ⟨d.package, d.constraint⟩, false)⟩).1.incs.length = s.incs.length + 1 := by simp [St.newInc]
    have hni := inc_newInc s ⟨ts, some (⟨p, pv.range⟩, ⟨d.package, d.constraint⟩, false)⟩
    have hnS : SamePartial s (s.newInc ⟨ts, some (⟨p, pv.range⟩, ⟨d.package, d.constraint⟩, false)⟩).1 := ⟨rfl, fun _ => rfl, rfl, rfl⟩
    have hnD : (s.newInc ⟨ts, some (⟨p, pv.range⟩, ⟨d.package, d.constraint⟩, false)⟩).1.deps = s.deps := rfl
    have hnN : (s.newInc ⟨ts, some (⟨p, pv.range⟩, ⟨d.package, d.constraint⟩, false)⟩).2 = s.incs.length := rfl
    have hun : computeIncs alg prob pvs p pv (d :: ds) s r = computeIncs alg prob pvs p pv ds
        ((s.newInc ⟨ts, some (⟨p, pv.range⟩, ⟨d.package, d.constraint⟩, false)⟩).1.setDepInc p pv d.package s.incs.length) (r ++ [s.incs.length]) := by
      rw [computeIncs, hsh]
      simp only [Option.bind_none, ts1, bind, Except.bind]
      rfl
    generalize hs1 : (s.newInc ⟨ts, some (⟨p, pv.range⟩, ⟨d.package, d.constraint⟩, false)⟩).1 = s1 at *
    generalize hs2 : s1.setDepInc p pv d.package s.incs.length = s2 at *
    obtain ⟨f1, f2, f3⟩ := setDepInc_fields s1 p d.package pv s.incs.length
    rw [hs2] at f1 f2 f3
    have hS2 : SamePartial s1 s2 := by
      rw [← hs2]; unfold St.setDepInc; rw [hk]; exact ⟨rfl, fun _ => rfl, rfl, rfl⟩
    have hD2 : ∀ e, e ≠ (p, k) → s2.deps.get e = s.deps.get e := by
      intro e he
      rw [← hs2]; unfold St.setDepInc; rw [hk]
      simp only [Dict.get_put]
      rw [if_neg (fun h => he h.symm), hnD]
    have hinc2 : ∀ i, s2.inc i = s1.inc i := by intro i; unfold St.inc; rw [f1]
    obtain ⟨s', tail, t1, t2, t3, t4, t5, t6, t7, t8, t9, t10, t11⟩ := ih s2 (r ++ [s.incs.length]) (fun x hx => hds x (by simp [hx]))
      (fun k' hk' => by rw [hD2 _ (by simp [hk'])]; exact hd k' hk') (hnI.of_eq f1 f2 f3)
    have hG2 : Grows s1 s2 := Grows.of_eq f1 f2
    have hknown : Known alg prob D G R sel (s'.inc s.incs.length) d.package d.constraint n (some (p, pv.range)) := by
      refine ⟨Asks.congr (x := s1.inc s.incs.length) ?_ ?_, dR, dF, ?_⟩
      · rw [hni, if_pos rfl]
        exact ⟨n1, ts2, _, _, rfl⟩
      · exact ((hG2.trans t3).same _ (by rw [hnL]; omega))
      · intro p' g' e
        simp at e
        obtain ⟨rfl, rfl⟩ := e
        exact ⟨hpR, hG, hg⟩
    refine ⟨s', s.incs.length :: tail, ?_, t2, Grows.trans (Grows.trans hnG hG2) t3, SamePartial.trans (SamePartial.trans hnS hS2) t4, ?_, ?_, ?_, ?_, ?_, ?_, ?_⟩
    · rw [hun, t1]; simp
    · rw [t5, f1, hnL]; simp; omega
    · rw [List.nodup_cons]
      refine ⟨?_, t6⟩
      intro hm
      have := (t8 _ hm).1
      rw [f1, hnL] at this
      omega
    · intro i i1 i2
      by_cases e : i = s.incs.length
      · simp [e]
      · exact List.mem_cons_of_mem _ (t7 i (by rw [f1, hnL]; omega) i2)
    · intro i hi
      rcases List.mem_cons.1 hi with rfl | hi
      · refine ⟨by omega, by rw [t5, f1, hnL]; omega, ?_, d, by simp, n, hknown⟩
        intro a b hab
        rw [t11 _ (by rw [f1, hnL]; omega), hinc2, hni, if_pos rfl] at hab
        simp at hab
      · obtain ⟨a1, a2, a3, e, a4, a5⟩ := t8 i hi
        rw [f1, hnL] at a1
        exact ⟨by omega, a2, a3, e, by simp [a4], a5⟩
    · intro e he
      rcases List.mem_cons.1 he with rfl | he
      · exact ⟨s.incs.length, by simp, n, hknown⟩
      · obtain ⟨i, i1, i2⟩ := t9 e he
        exact ⟨i, by simp [i1], i2⟩
    · intro p' k' hp'
      rw [t10 p' k' hp', hD2 _ (by simp [hp'])]
    · intro i hi
      rw [t11 i (by rw [f1, hnL]; omega), hinc2, hni, if_neg (by omega)]

/-- Incompatibilities with equal terms ask for the same package. -/
theorem same_target (had : Adequate alg D W G) (hp : Plan alg prob D W G R sel bef) {x y : Inc P S} {q q' p : P} {c c' n n' g : S}
    {o : Option (P × S)} (hx : Known alg prob D G R sel x q c n (some (p, g))) (hy : Known alg prob D G R sel y q' c' n' o)
    (h : sameTerms alg y.terms x.terms = true) : q' = q := by
  obtain ⟨⟨x1, x2, -⟩, -, xf, xd⟩ := hx
  obtain ⟨d1, d2, d3⟩ := xd p g rfl
  obtain ⟨⟨y1, y2⟩, yR, yf, yd⟩ := hy
  obtain ⟨rest, hsp⟩ := hp.split p d1
  have hW : W (sel p) := hp.std p d1 _ (by rw [hsp]; simp)
  have hno : q' = p → alg.same n' g = true → False := by
    rintro rfl hs
    have h1 := had.same g c' n' (sel q') d2 yf.dom y1 hW (.inl hs)
    obtain ⟨m, c2, m1, m2, m3, m4⟩ := had.inverse c' yf.dom
    rw [y1] at m1
    simp at m1
    subst m1
    rw [(m4 _ hW).2, yf.allows, d3] at h1
    simp at h1
  cases o with
  | none =>
    rw [y2.1] at h
    rcases x2 with e | e <;> rw [e] at h <;> simp [sameTerms, Term.same] at h
  | some pg =>
    obtain ⟨p', g'⟩ := pg
    obtain ⟨y2, -⟩ := y2
    rcases x2 with e | e <;> rcases y2 with e' | e' <;> rw [e, e'] at h <;> simp [sameTerms, Term.same] at h
    · exact h.1.1
    · exact (hno h.2.1 h.2.2).elim
    · exact (hno h.1.1 h.1.2).elim
    · exact h.2.1

theorem conflicts_none {s : St P V S} : ∀ is : List Nat, (∀ i ∈ is, check alg s i = .ok .unsatisfied ∨ ∃ t, check alg s i = .ok (.almost t)) →
    conflictsOf alg s is = .ok [] := by
  intro is
  induction is with
  | nil => intro _; rfl
  | cons i is ih =>
    intro h
    rw [conflictsOf, ih (fun j hj => h j (by simp [hj]))]
    rcases h i (by simp) with e | ⟨t, e⟩ <;> rw [e] <;> rfl

theorem SamePartial.last {s t : St P V S} (h : SamePartial s t) (q : P) : t.lastAcc q = s.lastAcc q := (SamePartial.lastAcc h q).symm

/-- The decision for the planned version. -/
theorem decideVersion_runs (had : Adequate alg D W G) (hp : Plan alg prob D W G R sel bef) {s : St P V S}
    (h : GInv alg prob D W G R sel bef s) (hI : IInv s) {p : P} (hpR : p ∈ R) (hund : p ∉ Dict.keys s.decisions) (hwf : Dict.Wf s.required)
    {pvs : List (PV V S)} (hpvs : packageVersions alg prob p = .ok pvs) {pv : PV V S} {k : Nat} (hk : pv.index = some k)
    (hv : pv.version = sel p) (hnext : pv.next ≠ pv.index) (hG : G pv.range) (hg : alg.allows pv.range (sel p) = true)
    (hd : ∀ k', k' ≠ k → s.deps.get (p, k') = none) {ds : List (Dep P S)}
    (hds : ∀ d ∈ ds, d.package ∈ R ∧ Admits alg D sel d.package d.constraint ∧
      ((s.lastAcc d.package).isSome = true ∨ Skips alg prob bef d.package d.constraint)) {acc : S} (hacc : s.lastAcc p = some acc) :
    ∃ s' a, decideVersion alg prob s p pv ds = .ok s' ∧ GInv alg prob D W G R sel bef s' ∧ IInv s' ∧
      s'.decisions = s.decisions ++ [(p, a, sel p)] ∧ s'.incs.length = s.incs.length + ds.length ∧
      (∀ q ∈ Dict.keys s'.required, q ∈ Dict.keys s.required ∨ q ∈ ds.map (·.package)) ∧
      (∀ q, (s.lastAcc q).isSome → (s'.lastAcc q).isSome) ∧
      (∀ d ∈ ds, ∃ j ∈ s'.incsOf p, ∃ c n o, Known alg prob D G R sel (s'.inc j) d.package c n o ∧
        ∀ p' g, o = some (p', g) → Fixed alg W sel s' p') ∧
      ∀ p' k', p' ≠ p → s'.deps.get (p', k') = s.deps.get (p', k') := by
  obtain ⟨s1, is, c1, c2, c3, c4, c5, c6, c7, c8, c9, c10, c11⟩ := computeIncs_runs (prob := prob) (pvs := pvs) had hk hnext hpR hG hg ds s []
    (fun d hd => ⟨(hds d hd).1, (hds d hd).2.1⟩) hd hI
  simp at c1
  obtain ⟨b1, b2, b3, b4⟩ := addIncs_good (alg := alg) is s1 c2 c6 (fun i hi => ⟨(c8 i hi).2.1, (c8 i hi).2.2.1⟩)
  have kp := addIncs_keeps (alg := alg) is s1
  generalize hs2 : is.foldl (addInc alg) s1 = s2 at *
  have sp : SamePartial s s2 := SamePartial.trans c4 kp.same
  have hfits : ∀ q, ∀ a ∈ s2.asgsOf q, Fit alg prob D sel bef q a.acc := by
    intro q a ha; rw [← sp.2.1 q] at ha; exact h.asg q a ha
  obtain ⟨rest, hsp⟩ := hp.split p hpR
  have hW : ∀ v ∈ prob.versions p, W v := hp.std p hpR
  have hWs : W (sel p) := hW _ (by rw [hsp]; simp)
  obtain ⟨g1, g2⟩ := had.single (sel p) hWs
  -- the assignment of the decision
  have hfit0 := h.last hacc
  have hacc2 : s2.lastAcc p = some acc := by rw [SamePartial.last sp]; exact hacc
  obtain ⟨r, r1, r2, r3⟩ := had.inter acc (alg.single (sel p)) (sel p) hfit0.dom g1 hWs hfit0.allows g2
  obtain ⟨a, ha⟩ : ∃ a, s2.makeAssignment alg prob.root ⟨p, alg.single (sel p)⟩ none = .ok a := by
    cases hm : s2.makeAssignment alg prob.root ⟨p, alg.single (sel p)⟩ none with
    | ok a => exact ⟨a, rfl⟩
    | error e =>
      unfold St.makeAssignment St.accumulated at hm
      simp only [hacc2, r1, bind, Except.bind, pure, Except.pure] at hm
      simp at hm
  obtain ⟨m1, -, -, -, m5⟩ := makeAssignment_ok ha
  have har : a.acc = r := by
    unfold St.accumulated at m5
    simp only [hacc2, r1] at m5
    simp at m5
    exact m5.symm
  have hap : a.term.package = p := by rw [m1]
  have hafit : Fit alg prob D sel bef p a.acc := by
    rw [har]
    refine ⟨r2, ?_, ?_⟩
    · rw [r3 _ hWs, hfit0.allows, g2]; rfl
    · intro u hu
      rw [r3 u (hW u (by rw [hsp]; simp [hu]))]
      rcases hfit0.skips u hu with e | e
      · left; rw [e]; rfl
      · exact .inr e
  have hfix : ∀ t : St P V S, (∀ q, t.asgsOf q = (s2.push a).asgsOf q) → ∀ p', (p' = p ∨ Fixed alg W sel s p') → Fixed alg W sel t p' := by
    intro t ht p' hp'
    have hl : ∀ q, t.lastAcc q = (s2.push a).lastAcc q := by intro q; unfold St.lastAcc; rw [ht]
    by_cases e : p' = p
    · subst e
      refine ⟨r, by rw [hl, lastAcc_push, if_pos hap, har], ?_⟩
      intro w hw hr
      rw [r3 w hw] at hr
      simp at hr
      exact hr.2
    · rcases hp' with hp' | ⟨x, x1, x2⟩
      · exact absurd hp' e
      · exact ⟨x, by rw [hl, lastAcc_push, if_neg (by rw [hap]; exact fun h => e h.symm), SamePartial.last sp]; exact x1, x2⟩
  have hknown : ∀ i, i < s2.incs.length → ∃ q c n o, Known alg prob D G R sel (s2.inc i) q c n o ∧
      (∀ p' g, o = some (p', g) → p' = p ∨ Fixed alg W sel s p') ∧ ((s.lastAcc q).isSome = true ∨ Skips alg prob bef q c) := by
    intro i hi
    rw [b3] at hi
    have hsame : SameInc (s1.inc i) (s2.inc i) := b2.same i hi
    by_cases hold : i < s.incs.length
    · obtain ⟨q, c, n, o, k1, k2, k3⟩ := h.incs i hold
      rw [← c11 i hold] at k1
      exact ⟨q, c, n, o, ⟨k1.asks.congr hsame, k1.mem, k1.fit, k1.dep⟩, fun p' g e => .inr (k2 p' g e), k3⟩
    · obtain ⟨-, -, -, d, hd1, n, k1⟩ := c8 i (c7 i (by omega) hi)
      refine ⟨_, _, n, _, ⟨k1.asks.congr hsame, k1.mem, k1.fit, k1.dep⟩, ?_, (hds d hd1).2.2⟩
      intro p' g e
      simp at e
      exact .inl e.1.symm
  have hGI : ∀ t : St P V S, (∀ q, t.asgsOf q = (s2.push a).asgsOf q) → t.incs = s2.incs → GInv alg prob D W G R sel bef t := by
    intro t ht hi
    refine ⟨push_fits hfits ht (by rw [hap]; exact hafit), ?_⟩
    intro i hil
    rw [hi] at hil
    obtain ⟨q, c, n, o, k1, k2, k3⟩ := hknown i hil
    refine ⟨q, c, n, o, by unfold St.inc; rw [hi]; exact k1, ?_, ?_⟩
    · intro p' g e
      exact hfix t ht p' (k2 p' g e)
    · rcases k3 with k3 | k3
      · left
        have hl : t.lastAcc q = (s2.push a).lastAcc q := by unfold St.lastAcc; rw [ht]
        rw [hl, lastAcc_push]
        split
        · rfl
        · rw [SamePartial.last sp]; exact k3
      · exact .inr k3
  have hconf : conflictsOf alg (s2.push a) is = .ok [] := by
    apply conflicts_none
    intro i hi
    have hG' := hGI (s2.push a) (fun _ => rfl) rfl
    have hil : i < (s2.push a).incs.length := by show i < s2.incs.length; rw [b3]; exact (c8 i hi).2.1
    obtain ⟨q, c, n, o, k1, k2, -⟩ := hG'.incs i hil
    rcases check_known had hp hG' k1 k2 with ⟨e, -⟩ | ⟨e, -⟩
    · exact .inl e
    · exact .inr ⟨_, e⟩
  obtain ⟨f1, f2, f3, f4, f5, f6, f7, f8, f9⟩ := require_fields (s2.decide a (sel p)) (ds.map (·.package))
  have hwf2 : Dict.Wf (s2.decide a (sel p)).required := by
    show Dict.Wf s2.required
    rw [← sp.2.2.1]; exact hwf
  obtain ⟨-, ⟨tail, q1, q2⟩, -⟩ := require_mem (s2.decide a (sel p)) (ds.map (·.package)) hwf2
  refine ⟨(s2.decide a (sel p)).require (ds.map (·.package)), a, ?_, ?_, ?_, ?_, ?_, ?_, ?_, ?_, ?_⟩
  · unfold decideVersion siblings
    simp only [hk, hpvs, bind, Except.bind, c1, hs2, hv, ha, hconf, adjust, pure, Except.pure, List.isEmpty_nil, if_true]
  · refine hGI _ (fun q => ?_) (by rw [f4]; rfl)
    unfold St.asgsOf
    rw [f3]
    rfl
  · exact b1.of_eq (by rw [f4]; rfl) (by rw [f5]; rfl) (by rw [f7]; rfl)
  · rw [f1]
    show s2.decisions.put a.term.package (a, sel p) = _
    rw [hap, ← sp.2.2.2]
    exact put_new _ _ _ hund
  · rw [f4]; show s2.incs.length = _; rw [b3, c5]
  · intro q hq
    rw [q1] at hq
    unfold Dict.keys at hq ⊢
    rw [List.map_append, List.mem_append] at hq
    rcases hq with hq | hq
    · left
      rw [show (s2.decide a (sel p)).required = s2.required from rfl, ← sp.2.2.1] at hq
      exact hq
    · right
      rw [List.mem_map] at hq
      obtain ⟨e, e1, e2⟩ := hq
      rw [← e2]; exact (q2 e e1).2
  · intro q hq
    have hl : ((s2.decide a (sel p)).require (ds.map (·.package))).lastAcc q = (s2.push a).lastAcc q := by
      unfold St.lastAcc St.asgsOf; rw [f3]; rfl
    rw [hl, lastAcc_push]
    split
    · rfl
    · rw [SamePartial.last sp]; exact hq
  · intro d hd1
    obtain ⟨i, i1, n, i2⟩ := c9 d hd1
    obtain ⟨w1, w2, -, -⟩ := c8 i i1
    have hmem : (⟨p, pv.range⟩ : Term P S) ∈ (s1.inc i).terms := by
      rcases i2.asks.2.1 with e | e <;> rw [e] <;> simp
    obtain ⟨j, j1, j2⟩ := b4 i i1 _ hmem
    have hjl := b1.valid _ _ j1
    obtain ⟨c', n', o', k1, k2⟩ : ∃ c' n' o', Known alg prob D G R sel (s2.inc j) d.package c' n' o' ∧
        ∀ p' g, o' = some (p', g) → p' = p ∨ Fixed alg W sel s p' := by
      have hs1 : SameInc (s1.inc i) (s2.inc i) := b2.same i w2
      have hs2' : SameInc (s1.inc j) (s2.inc j) := b2.same j (by omega)
      have i2' : Known alg prob D G R sel (s2.inc i) d.package d.constraint n (some (p, pv.range)) :=
        ⟨i2.asks.congr hs1, i2.mem, i2.fit, i2.dep⟩
      rcases j2 with e | e
      · subst e
        exact ⟨_, _, _, i2', fun p' g e => by simp at e; exact .inl e.1.symm⟩
      · obtain ⟨q', c', n', o', k1, k2, -⟩ := hknown j hjl
        rw [hs1.1, hs2'.1] at e
        have := same_target had hp i2' k1 e
        subst this
        exact ⟨c', n', o', k1, k2⟩
    refine ⟨j, ?_, c', n', o', ?_, ?_⟩
    · unfold St.incsOf; rw [f5]; exact j1
    · unfold St.inc; rw [f4]; exact k1
    · intro p' g e
      refine hfix _ (fun q => ?_) p' (k2 p' g e)
      unfold St.asgsOf
      rw [f3]
      rfl
  · intro p' k' hp'
    rw [f6]
    show s2.deps.get (p', k') = _
    rw [kp.2.2.2.2, c10 p' k' hp']

/-! ### The loop -/

theorem mapM_runs {α β : Type} {f : α → Except Err β} : ∀ l : List α, (∀ a ∈ l, ∃ b, f a = .ok b) → ∃ r, l.mapM f = .ok r := by
  intro l
  induction l with
  | nil => intro _; exact ⟨[], rfl⟩
  | cons a l ih =>
    intro h
    obtain ⟨b, hb⟩ := h a (by simp)
    obtain ⟨r, hr⟩ := ih (fun x hx => h x (by simp [hx]))
    exact ⟨b :: r, by rw [List.mapM_cons, hb, hr]; rfl⟩

/-- What holds between the turns of the loop. `K` bounds the number of dependencies. -/
structure Turn (alg : Alg V S) (prob : Problem P V S) (D : S → Prop) (W : V → Prop) (G : S → Prop) (R : List P)
    (sel : P → V) (bef : P → List V) (K : Nat) (s : St P V S) : Prop where
  inv : Inv prob s
  deps : DepsOk prob s
  g : GInv alg prob D W G R sel bef s
  iinv : IInv s
  req : ∀ q ∈ Dict.keys s.required, q ∈ R
  dec : ∀ e ∈ s.decisions, e.2.2 = sel e.1
  fetched : ∀ p k, (s.deps.get (p, k)).isSome → p ∈ Dict.keys s.decisions
  size : s.incs.length ≤ 1 + K * s.decisions.length

/-- The packages without an assignment are those that `p` leads to. -/
def Pending (alg : Alg V S) (prob : Problem P V S) (D : S → Prop) (W : V → Prop) (G : S → Prop) (R : List P)
    (sel : P → V) (bef : P → List V) (s : St P V S) (p : P) : Prop :=
  ∀ q ∈ Dict.keys s.required, (s.lastAcc q).isSome ∨ ∃ i ∈ s.incsOf p, ∃ c n o,
    Known alg prob D G R sel (s.inc i) q c n o ∧ ∀ p' g, o = some (p', g) → Fixed alg W sel s p'

/-- A propagation. -/
theorem turn_propagate (had : Adequate alg D W G) (hp : Plan alg prob D W G R sel bef) {K fuel n : Nat} {s : St P V S} {p : P}
    (h : Turn alg prob D W G R sel bef K s) (hpe : Pending alg prob D W G R sel bef s p) (hn : 2 + K * s.decisions.length < n) :
    ∃ t, propagate alg prob ch fuel n s [p] = .ok t ∧ Turn alg prob D W G R sel bef K t ∧ t.decisions = s.decisions ∧
      ∀ q ∈ Dict.keys t.required, (t.lastAcc q).isSome := by
  have hloud : loud alg s ≤ s.incs.length := by
    unfold loud
    exact Nat.le_trans (List.length_filter_le _ _) (by simp)
  have hs := h.size
  obtain ⟨t, t1, t2, t3, t4, t5⟩ := propagate_runs (ch := ch) had hp fuel n s [p] h.g h.iinv.valid (by simp; omega)
  obtain ⟨se, hde⟩ := propagate_search n s t [p] h.inv t1
  have hof : ∀ x, t.incsOf x = s.incsOf x := by intro x; unfold St.incsOf; rw [t4.by_]
  refine ⟨t, t1, ⟨h.inv.search se, ?_, t2, ?_, ?_, ?_, ?_, ?_⟩, t4.dec, ?_⟩
  · unfold DepsOk; rw [hde]; exact h.deps
  · exact h.iinv.of_eq t3.incs t4.by_ t4.una
  · rw [t4.req]; exact h.req
  · rw [t4.dec]; exact h.dec
  · rw [t4.dec, hde]; exact h.fetched
  · rw [t4.dec, t3.incs]; exact h.size
  · intro q hq
    rw [t4.req] at hq
    rcases hpe q hq with hq | ⟨i, i1, c, n, o, i2, i3⟩
    · cases hl : s.lastAcc q with
      | none => rw [hl] at hq; simp at hq
      | some a => obtain ⟨b, b1, -⟩ := t3.last q a hl; rw [b1]; rfl
    · have hq := t5 p rfl i i1
      rw [quiet_settles had hp t2 (by rw [t3.inc]; exact i2) (fun p' g e => t3.fixed (i3 p' g e))] at hq
      obtain ⟨a, a1, -⟩ := hq
      rw [a1]; rfl

/-- The packages that lead to an undecided one are decided, and their dependencies required. -/
theorem dominated {K : Nat} {s : St P V S} (h : Turn alg prob D W G R sel bef K s) {p d q : P} (hreq : p ∈ Dict.keys s.required)
    (hnd : p ∉ Dict.keys s.decisions) (hdom : Dominates prob sel d p) (hdq : DependsOn prob d (sel d) q) : q ∈ Dict.keys s.required := by
  by_cases hd : d ∈ Dict.keys s.decisions
  · unfold Dict.keys at hd
    rw [List.mem_map] at hd
    obtain ⟨⟨d', b, w⟩, h1, rfl⟩ := hd
    obtain ⟨-, ds, h2, h3⟩ := h.inv.dec d' b w h1
    have hw := h.dec _ h1
    simp only at hw
    subst hw
    obtain ⟨ds', h4, h5⟩ := hdq
    simp only at h4
    rw [h2] at h4
    simp at h4
    subst h4
    obtain ⟨l, h6, -⟩ := h3 q h5
    exact List.mem_map.2 ⟨_, h6, rfl⟩
  · exfalso
    have hne : ∀ x a v, (x, a, v) ∈ s.decisions → x ≠ d := by
      rintro x a v hx rfl
      exact hd (List.mem_map.2 ⟨_, hx, rfl⟩)
    have key : ∀ (n : Nat) (x : P) (a : Asg P S) (v : V), (x, a, v) ∈ s.decisions → a.level < n → Avoiding prob sel d x := by
      intro n
      induction n with
      | zero => intro x a v _ hn; omega
      | succ n ih =>
        intro x a v hx hn
        obtain ⟨l, h1, h2⟩ := h.inv.decReq x a v hx
        by_cases e : x = prob.root
        · subst e; exact .root (hne _ _ _ hx)
        · rcases h.inv.req x l h1 with h3 | ⟨y, b, w, h3, h4, h5⟩
          · exact absurd h3 e
          · have h6 : l < a.level := by
              rcases h2 with h2 | h2
              · exact absurd h2 e
              · exact h2
            have hw := h.dec _ h3
            simp only at hw
            subst hw
            exact .step (ih y b _ h3 (by omega)) h5 (hne _ _ _ hx)
    apply hdom.2
    unfold Dict.keys at hreq
    rw [List.mem_map] at hreq
    obtain ⟨⟨p', l⟩, h1, rfl⟩ := hreq
    rcases h.inv.req p' l h1 with h3 | ⟨y, b, w, h3, h4, h5⟩
    · simp only
      rw [h3]
      exact .root (by rw [← h3]; exact hdom.1)
    · have hw := h.dec _ h3
      simp only at hw
      subst hw
      exact .step (key _ y b _ h3 (Nat.lt_succ_self _)) h5 hdom.1

/-- A decision. -/
theorem turn_decide (had : Adequate alg D W G) (hp : Plan alg prob D W G R sel bef) {K : Nat} {s : St P V S}
    (hK : ∀ p ∈ R, ∀ ds, prob.deps p (sel p) = some ds → (depDict ds).length ≤ K)
    (h : Turn alg prob D W G R sel bef K s) (ha : ∀ q ∈ Dict.keys s.required, (s.lastAcc q).isSome) :
    (s.undecided = [] ∧ nextDecision alg prob s = .ok (s, none)) ∨
    ∃ t p, nextDecision alg prob s = .ok (t, some p) ∧ Turn alg prob D W G R sel bef K t ∧ Pending alg prob D W G R sel bef t p ∧
      t.decisions.length = s.decisions.length + 1 := by
  cases hu : s.undecided with
  | nil => left; exact ⟨rfl, by unfold nextDecision; rw [hu]; rfl⟩
  | cons u us =>
    right
    have hund : ∀ p ∈ u :: us, p ∈ R ∧ p ∉ Dict.keys s.decisions ∧ ∃ acc, s.lastAcc p = some acc := by
      intro p hpu
      rw [← hu] at hpu
      obtain ⟨⟨l, m1⟩, m2⟩ := mem_undecided hpu
      have hk : p ∈ Dict.keys s.required := List.mem_map.2 ⟨_, m1, rfl⟩
      exact ⟨h.req p hk, m2, Option.isSome_iff_exists.1 (ha p hk)⟩
    have hmatch : ∀ p ∈ u :: us, ∃ acc pvs, s.lastAcc p = some acc ∧ packageVersions alg prob p = .ok pvs ∧
        matchingVersions alg prob s p = .ok (pvs.filter (fun pv => alg.allows acc pv.version)) := by
      intro p hpu
      obtain ⟨a1, a2, acc, a3⟩ := hund p hpu
      obtain ⟨pvs, b1, -, -⟩ := hp.pvs p a1
      refine ⟨acc, pvs, a3, b1, ?_⟩
      unfold matchingVersions
      simp only [a3, had.nonStandard acc (h.g.last a3).dom, b1, bind, Except.bind, pure, Except.pure]
    obtain ⟨options, ho⟩ := mapM_runs (f := fun p => do let vs ← matchingVersions alg prob s p; pure (p, vs)) (u :: us) (by
      intro p hpu
      obtain ⟨acc, pvs, -, -, e⟩ := hmatch p hpu
      exact ⟨_, by simp only [e, bind, Except.bind, pure, Except.pure]; rfl⟩)
    obtain ⟨hlen, hmem⟩ := mapM_ok _ _ ho
    have hchoose : ∃ e, choosePackage s options = some e := by
      cases hc : choosePackage s options with
      | some e => exact ⟨e, rfl⟩
      | none => rw [choosePackage_none _ hc] at hlen; simp at hlen
    obtain ⟨⟨p, ps⟩, hc⟩ := hchoose
    obtain ⟨p', hp', hpe⟩ := hmem _ (choosePackage_mem _ _ hc)
    obtain ⟨acc, pvs, e1, e2, e3⟩ := hmatch p' hp'
    simp only [e3, bind, Except.bind, pure, Except.pure] at hpe
    simp at hpe
    obtain ⟨rfl, rfl⟩ := hpe
    obtain ⟨hpR, hnd, -⟩ := hund _ hp'
    have hreq : p' ∈ Dict.keys s.required := by
      rw [← hu] at hp'
      obtain ⟨⟨l, m1⟩, -⟩ := mem_undecided hp'
      exact List.mem_map.2 ⟨_, m1, rfl⟩
    obtain ⟨pvs', b1, b2, b3⟩ := hp.pvs _ hpR
    rw [e2] at b1
    simp at b1
    subst b1
    obtain ⟨rest, hsp⟩ := hp.split _ hpR
    obtain ⟨raw, hraw, hrd⟩ := hp.deps _ hpR
    have hfit := h.g.last e1
    have hnone : ∀ k, s.deps.get (p', k) = none := by
      intro k
      cases hg : s.deps.get (p', k) with
      | none => rfl
      | some x => exact absurd (h.fetched p' k (by rw [hg]; rfl)) hnd
    obtain ⟨pv, v1, k, v2, v3, v4⟩ := firstUsable_planned (alg := alg) (s := s) hraw hfit.allows hnone (bef p') pvs (by rw [b2, hsp])
      (fun x hx => (b3 x hx).1) hfit.skips
    obtain ⟨x1, x2, x3, x4⟩ := b3 pv v1
    generalize hs1 : ({ s with deps := s.deps.put (p', k) (depDict raw) } : St P V S) = s1 at v4
    have hg1 : GInv alg prob D W G R sel bef s1 := by
      refine h.g.tighter (t := s1) ⟨by rw [← hs1], ?_⟩ ?_
      · intro q a hq; exact ⟨a, by rw [← hs1]; exact hq, fun _ _ h => h⟩
      · intro q a hq; rw [← hs1] at hq; exact h.g.asg q a hq
    have hI1 : IInv s1 := h.iinv.of_eq (by rw [← hs1]) (by rw [← hs1]) (by rw [← hs1])
    have hd1 : ∀ p k', (p, k') ≠ (p', k) → s1.deps.get (p, k') = s.deps.get (p, k') := by
      intro p k' hne
      rw [← hs1]
      simp only [Dict.get_put]
      rw [if_neg (fun e => hne e.symm)]
    have hdec1 : s1.decisions = s.decisions := by rw [← hs1]
    have hreq1 : s1.required = s.required := by rw [← hs1]
    have hlast1 : ∀ q, s1.lastAcc q = s.lastAcc q := by intro q; rw [← hs1]; rfl
    have hincs1 : s1.incs = s.incs := by rw [← hs1]
    obtain ⟨t, a, t1, t2, t3, t4, t5, t6, t7, t8, t9⟩ := decideVersion_runs had hp hg1 hI1 hpR (by rw [hdec1]; exact hnd)
      (by rw [hreq1]; exact h.inv.wfR) e2 v2 v3 x4 x2 (by rw [← v3]; exact x3)
      (fun k' hk' => by rw [hd1 _ _ (by simp [hk'])]; exact hnone k') (ds := depDict raw)
      (fun d hd => by
        obtain ⟨y1, y2, y3, y4⟩ := hrd _ _ (depDict_mem hd).1
        refine ⟨y1, ⟨y2, y3⟩, ?_⟩
        rcases y4 with y4 | ⟨x, x1, x2⟩
        · exact .inr y4
        · left
          rw [hlast1]
          exact ha _ (dominated h hreq hnd x1 x2)) (by rw [hlast1]; exact e1)
    have hnext : nextDecision alg prob s = .ok (t, some p') := by
      unfold nextDecision
      rw [hu]
      simp only [bind, Except.bind, pure, Except.pure] at ho ⊢
      simp only [ho, hc, v4, t1]
    obtain ⟨se, hdo, -⟩ := nextDecision_search h.inv h.deps hnext
    have hdr : ∀ q ∈ (depDict raw).map (·.package), q ∈ R := by
      intro q hq
      rw [List.mem_map] at hq
      obtain ⟨d, d1, rfl⟩ := hq
      exact (hrd _ _ (depDict_mem d1).1).1
    refine ⟨t, p', hnext, ⟨h.inv.search se, hdo, t2, t3, ?_, ?_, ?_, ?_⟩, ?_, ?_⟩
    · intro q hq
      rcases t6 q hq with hq | hq
      · rw [hreq1] at hq; exact h.req q hq
      · exact hdr q hq
    · intro e he
      rw [t4, hdec1, List.mem_append] at he
      rcases he with he | he
      · exact h.dec e he
      · simp at he; rw [he]
    · intro q k' hq
      rw [t4, hdec1]
      unfold Dict.keys
      rw [List.map_append, List.mem_append]
      by_cases e : q = p'
      · right; simp [e]
      · left
        rw [t9 q k' e, hd1 q k' (by simp [e])] at hq
        exact h.fetched q k' hq
    · rw [t5, t4, hincs1, hdec1]
      have := h.size
      have := hK p' hpR raw hraw
      simp [Nat.mul_add]
      omega
    · intro q hq
      rcases t6 q hq with hq | hq
      · left
        rw [hreq1] at hq
        exact t7 q (by rw [hlast1]; exact ha q hq)
      · right
        rw [List.mem_map] at hq
        obtain ⟨d, d1, rfl⟩ := hq
        obtain ⟨j, j1, c, n, o, j2, j3⟩ := t8 d d1
        exact ⟨j, j1, c, n, o, j2, j3⟩
    · rw [t4, hdec1]; simp

theorem nodup_length {α : Type} : ∀ (l m : List α), l.Nodup → (∀ x ∈ l, x ∈ m) → l.length ≤ m.length := by
  intro l
  induction l with
  | nil => intro m _ _; simp
  | cons a l ih =>
    intro m hn hs
    rw [List.nodup_cons] at hn
    obtain ⟨m1, m2, rfl⟩ := List.append_of_mem (hs a (by simp))
    have := ih (m1 ++ m2) hn.2 (by
      intro x hx
      have hxm := hs x (by simp [hx])
      have hne : x ≠ a := by rintro rfl; exact hn.1 hx
      simp [hne] at hxm ⊢
      exact hxm)
    simp at this ⊢
    omega

theorem Turn.decided {K : Nat} {s : St P V S} (h : Turn alg prob D W G R sel bef K s) : s.decisions.length ≤ R.length := by
  have := nodup_length (Dict.keys s.decisions) R h.inv.wfD (by
    intro p hpk
    unfold Dict.keys at hpk
    rw [List.mem_map] at hpk
    obtain ⟨⟨p', a, v⟩, e1, rfl⟩ := hpk
    obtain ⟨l, hl, -⟩ := h.inv.decReq p' a v e1
    exact h.req _ (List.mem_map.2 ⟨_, hl, rfl⟩))
  simpa [Dict.keys] using this

theorem loop_runs (had : Adequate alg D W G) (hp : Plan alg prob D W G R sel bef) {K fuel : Nat}
    (hK : ∀ p ∈ R, ∀ ds, prob.deps p (sel p) = some ds → (depDict ds).length ≤ K) (hfuel : 2 + K * R.length < fuel) :
    ∀ (m : Nat) (s : St P V S) (p : P), Turn alg prob D W G R sel bef K s → Pending alg prob D W G R sel bef s p →
      R.length < s.decisions.length + m →
      ∃ t, solveLoop alg prob ch fuel m s p = .ok t ∧ ∀ e ∈ t.decisions, e.2.2 = sel e.1 := by
  intro m
  induction m with
  | zero =>
    intro s p h _ hm
    have := h.decided
    omega
  | succ m ih =>
    intro s p h hpe hm
    have hdl := h.decided
    have hmul : K * s.decisions.length ≤ K * R.length := Nat.mul_le_mul_left K hdl
    obtain ⟨t, t1, t2, t3, t4⟩ := turn_propagate (ch := ch) (fuel := fuel) (n := fuel) had hp h hpe (by omega)
    rcases turn_decide had hp hK t2 t4 with ⟨-, d2⟩ | ⟨u, q, d1, d2, d3, d4⟩
    · refine ⟨t, ?_, t2.dec⟩
      rw [solveLoop]
      simp only [t1, d2, bind, Except.bind, pure, Except.pure]
    · obtain ⟨w, w1, w2⟩ := ih u q d2 d3 (by rw [d4, t3]; omega)
      refine ⟨w, ?_, w2⟩
      rw [solveLoop]
      simp only [t1, d1, bind, Except.bind]
      exact w1

theorem bound_deps (f : P → Nat) : ∀ R : List P, ∃ K, ∀ p ∈ R, f p ≤ K := by
  intro R
  induction R with
  | nil => exact ⟨0, by simp⟩
  | cons p R ih =>
    obtain ⟨K, hK⟩ := ih
    refine ⟨K + f p, ?_⟩
    intro q hq
    rcases List.mem_cons.1 hq with rfl | hq
    · omega
    · have := hK q hq; omega

/-- The state before the loop. -/
theorem start_runs (had : Adequate alg D W G) (hp : Plan alg prob D W G R sel bef) (K : Nat) :
    ∃ s, start alg prob = .ok s ∧ Turn alg prob D W G R sel bef K s ∧ Pending alg prob D W G R sel bef s prob.root ∧ s.decisions = [] := by
  obtain ⟨pvs, b1, b2, b3⟩ := hp.pvs _ hp.root
  obtain ⟨rest, hsp⟩ := hp.split _ hp.root
  rw [hp.first, List.nil_append] at hsp
  rw [hsp] at b2
  cases pvs with
  | nil => simp at b2
  | cons pv pvs =>
    simp at b2
    obtain ⟨e1, -⟩ := b2
    have hW : W (sel prob.root) := hp.std _ hp.root _ (by rw [hsp]; simp)
    obtain ⟨g1, g2⟩ := had.single _ hW
    obtain ⟨n, c', n1, -⟩ := had.inverse _ g1
    have hneg : (⟨prob.root, alg.single pv.version⟩ : Term P S).negate alg = .ok ⟨prob.root, n⟩ := by
      unfold Term.negate; simp only [e1, n1, bind, Except.bind, pure, Except.pure]
    have hct : createTerms alg prob [⟨prob.root, n⟩] = .ok [⟨prob.root, n⟩] := by
      simp [createTerms, packagesOf, joinTerms, sortTerms, sortBy, insertBy, pure, Except.pure, bind, Except.bind]
    have hstart : ∃ s, start alg prob = .ok s ∧ s = (addInc alg ((St.empty : St P V S).newInc ⟨[⟨prob.root, n⟩], none⟩).1 0).require [prob.root] := by
      refine ⟨_, ?_, rfl⟩
      unfold start
      simp only [b1, bind, Except.bind]
      simp only [hneg, hct, pure, Except.pure]
      rfl
    obtain ⟨s, hs, he⟩ := hstart
    obtain ⟨o1, o2, o3, o4⟩ := start_ok hs
    have hadd : addInc alg ((St.empty : St P V S).newInc ⟨[⟨prob.root, n⟩], none⟩).1 0 =
        { (St.empty : St P V S) with incs := [⟨[⟨prob.root, n⟩], none⟩], byPackage := [(prob.root, [0])] } := by
      simp [addInc, St.newInc, St.empty, St.inc, addTo, St.incsOf, Dict.get, Dict.put]
    rw [hadd] at he
    have he' : s = { (St.empty : St P V S) with incs := [⟨[⟨prob.root, n⟩], none⟩], byPackage := [(prob.root, [0])], required := [(prob.root, 0)] } := by
      rw [he]
      simp [St.require, St.empty, Dict.has, Dict.get, Dict.put, St.decisionLevel]
    have hknown : Known alg prob D G R sel (s.inc 0) prob.root (alg.single (sel prob.root)) n none := by
      refine ⟨⟨n1, ?_⟩, hp.root, ⟨g1, g2⟩, by simp⟩
      rw [he']; exact ⟨rfl, rfl⟩
    refine ⟨s, hs, ⟨o1, o2, ⟨?_, ?_⟩, ⟨?_, ?_, ?_⟩, ?_, ?_, ?_, ?_⟩, ?_, o3⟩
    · intro q a ha; rw [he'] at ha; simp [St.asgsOf, St.empty, Dict.get] at ha
    · intro i hi
      have : i = 0 := by rw [he'] at hi; simpa using hi
      subst this
      exact ⟨_, _, _, _, hknown, by simp, .inr (by unfold Skips; rw [hp.first]; simp)⟩
    · intro i d e f hd
      rw [he'] at hd
      cases i with
      | zero => simp [St.inc] at hd
      | succ i => simp [St.inc] at hd
    · intro x j hj
      rw [he'] at hj ⊢
      simp [St.incsOf, Dict.get] at hj
      split at hj <;> simp_all
    · intro x i hx; rw [he'] at hx; simp [St.empty, Dict.get] at hx
    · intro q hq; rw [he'] at hq; simp [Dict.keys] at hq; rw [hq]; exact hp.root
    · rw [o3]; simp
    · intro p k hk; rw [he'] at hk; simp [St.empty, Dict.get] at hk
    · rw [he']; simp
    · intro q hq
      rw [he'] at hq
      simp [Dict.keys] at hq
      subst hq
      right
      exact ⟨0, by rw [he']; simp [St.incsOf, Dict.get], _, _, _, hknown, by simp⟩

/-- A run without conflicts finds the planned versions. -/
theorem plan_runs (had : Adequate alg D W G) (hp : Plan alg prob D W G R sel bef) (ch : Choices P S) :
    ∃ n, ∀ fuel, n ≤ fuel → ∃ sol, solve alg prob ch fuel = .ok sol ∧ ∀ p v, (p, v) ∈ sol → v = sel p := by
  obtain ⟨K, hK⟩ := bound_deps (fun p => (depDict ((prob.deps p (sel p)).getD [])).length) R
  have hK' : ∀ p ∈ R, ∀ ds, prob.deps p (sel p) = some ds → (depDict ds).length ≤ K := by
    intro p hpR ds hds
    have := hK p hpR
    simpa [hds] using this
  refine ⟨3 + K * R.length + R.length, ?_⟩
  intro fuel hf
  obtain ⟨s, s1, s2, s3, s4⟩ := start_runs had hp K
  obtain ⟨t, t1, t2⟩ := loop_runs (ch := ch) had hp hK' (fuel := fuel) (by omega) fuel s prob.root s2 s3 (by omega)
  refine ⟨t.solution, ?_, ?_⟩
  · unfold solve
    simp only [s1, t1, bind, Except.bind, pure, Except.pure]
  · intro p v hv
    unfold St.solution at hv
    rw [List.mem_map] at hv
    obtain ⟨e, e1, e2⟩ := hv
    simp at e2
    rw [← e2.1, ← e2.2]
    exact t2 e e1

end Solver
end Pkm
