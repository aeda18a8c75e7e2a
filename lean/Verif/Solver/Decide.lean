import Verif.Solver.Sound
set_option linter.unusedVariables false
set_option linter.unusedSimpArgs false
set_option linter.unusedSectionVars false
/-
With exact operations the incompatibilities of a decided version say what its dependencies are.
-/
namespace Pkm
open Solver

variable {P V S : Type} [DecidableEq P]

namespace Solver
open Spec

variable {alg : Alg V S} {prob : Problem P V S} {ch : Choices P S}

theorem mapM_all {α β : Type} {f : α → Except Err β} : ∀ (l : List α) (r : List β), l.mapM f = .ok r → ∀ a ∈ l, ∃ b, f a = .ok b := by
  intro l
  induction l with
  | nil => intro r _ a ha; simp at ha
  | cons x l ih =>
    intro r h a ha
    rw [List.mapM_cons] at h
    obtain ⟨b, h1, h2⟩ := bind_ok h
    obtain ⟨bs, h3, h4⟩ := bind_ok h2
    rcases List.mem_cons.1 ha with rfl | ha
    · exact ⟨b, h1⟩
    · exact ih bs h3 a ha

theorem foldl_put_nodup : ∀ (raw : List (P × S)) (d : Dict P S), (raw.map (·.1)).Nodup → (∀ e ∈ raw, e.1 ∉ Dict.keys d) →
    raw.foldl (fun (d : Dict P S) e => d.put e.1 e.2) d = d ++ raw := by
  intro raw
  induction raw with
  | nil => intro d _ _; simp
  | cons e raw ih =>
    intro d hn hd
    rw [List.foldl_cons, put_new _ _ _ (hd e (by simp))]
    rw [List.map_cons, List.nodup_cons] at hn
    have key : ∀ f ∈ raw, f.1 ∉ Dict.keys (d ++ [(e.1, e.2)] : Dict P S) := by
      intro f hf hk
      unfold Dict.keys at hk
      rw [List.map_append, List.mem_append] at hk
      rcases hk with hk | hk
      · exact hd f (by simp [hf]) hk
      · simp at hk
        exact hn.1 (by rw [← hk]; exact List.mem_map.2 ⟨f, hf, rfl⟩)
    have := ih (d ++ [(e.1, e.2)]) hn.2 key
    rw [this]
    simp

theorem depDict_nodup {raw : List (P × S)} (h : (raw.map (·.1)).Nodup) :
    (depDict raw).map (fun d => (d.package, d.constraint)) = raw := by
  unfold depDict
  rw [foldl_put_nodup raw [] h (by simp [Dict.keys])]
  simp [List.map_map, Function.comp_def]

/-! ### Versions -/

/-- The range of a version has it, and the next version is its neighbour. -/
structure PVGood (alg : Alg V S) (prob : Problem P V S) (p : P) (pv : PV V S) : Prop where
  range : alg.allows pv.range pv.version = true
  next : ∀ k, pv.next = some k → ∃ w, (prob.versions p)[k]? = some w ∧ alg.lt pv.version w = true ∧ pv.version ∈ prob.versions p ∧
    ∀ u ∈ prob.versions p, ¬ (alg.lt pv.version u = true ∧ alg.lt u w = true)

theorem strict_sorted (hx : Exact alg) {vs : List V} (hn : vs.Nodup) :
    (sortBy (fun (a b : Nat × V) => !alg.lt b.2 a.2) (vs.zipIdx.map (fun e => (e.2, e.1)))).Pairwise (fun a b => alg.lt a.2 b.2 = true) := by
  generalize hi : vs.zipIdx.map (fun e => (e.2, e.1)) = indexed
  have hsorted := sortBy_sorted (fun (a b : Nat × V) => !alg.lt b.2 a.2) (by
    intro a b
    rcases hx.ltTotal a.2 b.2 with h | h | h
    · left
      cases hb : alg.lt b.2 a.2 with
      | false => rfl
      | true => have := hx.ltTrans _ _ _ h hb; rw [hx.ltIrrefl] at this; simp at this
    · left; rw [h, hx.ltIrrefl]; rfl
    · right
      cases hb : alg.lt a.2 b.2 with
      | false => rfl
      | true => have := hx.ltTrans _ _ _ h hb; rw [hx.ltIrrefl] at this; simp at this) (by
    intro a b c h1 h2
    simp only [Bool.not_eq_true'] at *
    cases h : alg.lt c.2 a.2 with
    | false => rfl
    | true =>
      rcases hx.ltTotal a.2 b.2 with h3 | h3 | h3
      · have := hx.ltTrans _ _ _ h h3; rw [h2] at this; simp at this
      · rw [h3] at h; rw [h] at h2; simp at h2
      · rw [h1] at h3; simp at h3) indexed
  have hmap : indexed.map (·.2) = vs := by rw [← hi, List.map_map]; simp [Function.comp_def]
  have hnd : ((sortBy (fun (a b : Nat × V) => !alg.lt b.2 a.2) indexed).map (·.2)).Nodup := by
    refine ((sortBy_perm _ indexed).map (·.2)).nodup_iff.2 ?_
    rw [hmap]; exact hn
  have hne : (sortBy (fun (a b : Nat × V) => !alg.lt b.2 a.2) indexed).Pairwise (fun a b => a.2 ≠ b.2) := by
    unfold List.Nodup at hnd
    exact List.pairwise_map.1 hnd
  refine (hsorted.and hne).imp ?_
  rintro a b ⟨h1, h2⟩
  simp only [Bool.not_eq_true'] at h1
  rcases hx.ltTotal a.2 b.2 with h | h | h
  · exact h
  · exact absurd h h2
  · rw [h1] at h; simp at h

theorem packageVersions_good (hx : Exact alg) (hu : Unshared alg prob) {p : P} {pvs : List (PV V S)} (h : packageVersions alg prob p = .ok pvs) :
    ∀ pv ∈ pvs, PVGood alg prob p pv := by
  unfold packageVersions at h
  simp only at h
  have hs := strict_sorted hx (hu.nodup p)
  have hperm := sortBy_perm (fun (a b : Nat × V) => !alg.lt b.2 a.2) ((prob.versions p).zipIdx.map (fun e => (e.2, e.1)))
  generalize hsd : sortBy (fun (a b : Nat × V) => !alg.lt b.2 a.2) ((prob.versions p).zipIdx.map (fun e => (e.2, e.1))) = sorted at h hs hperm
  have hget : ∀ e, e ∈ sorted ↔ (prob.versions p)[e.1]? = some e.2 := by
    intro e
    rw [hperm.mem_iff, List.mem_map]
    constructor
    · rintro ⟨⟨v, k⟩, h1, rfl⟩
      rw [List.mem_zipIdx_iff_getElem?] at h1
      simpa using h1
    · intro h1
      refine ⟨(e.2, e.1), ?_, rfl⟩
      rw [List.mem_zipIdx_iff_getElem?]
      simpa using h1
  intro pv hpv
  obtain ⟨e, h1, h2⟩ := (mapM_ok _ _ h).2 pv hpv
  obtain ⟨r, h3, h4⟩ := bind_ok h2
  have := pure_ok h4
  subst this
  have hmem : e ∈ sorted := hperm.mem_iff.2 h1
  have hver := (hget e).1 hmem
  have hfind : sorted.findIdx (fun x => x.1 == e.1) < sorted.length := List.findIdx_lt_length_of_exists ⟨e, hmem, by simp⟩
  have hat : ((sorted[sorted.findIdx (fun x => x.1 == e.1)]'hfind).1 == e.1) = true :=
    List.findIdx_getElem (xs := sorted) (p := fun x => x.1 == e.1) (w := hfind)
  generalize hk : sorted.findIdx (fun x => x.1 == e.1) = k at h3 hfind hat
  have hek : sorted[k] = e := by
    have h5 := (hget sorted[k]).1 (List.getElem_mem hfind)
    have h6 : sorted[k].1 = e.1 := by simpa using hat
    rw [h6, hver] at h5
    simp at h5
    exact Prod.ext h6 h5.symm
  have mono : ∀ i j (hi : i < sorted.length) (hj : j < sorted.length), i < j → alg.lt (sorted[i]).2 (sorted[j]).2 = true :=
    fun i j hi hj hij => List.pairwise_iff_getElem.1 hs i j hi hj hij
  constructor
  · show alg.allows r e.2 = true
    unfold effectiveRange at h3
    split at h3
    · rw [← pure_ok h3]; exact hx.all _
    · simp only at h3
      have hprev : ∀ l, (if k = 0 then none else (sorted[k - 1]?).map (·.2)) = some l → alg.lt l e.2 = true := by
        intro l hl
        split at hl
        · simp at hl
        · rw [List.getElem?_eq_getElem (by omega)] at hl
          simp at hl
          rw [← hl]
          have := mono (k - 1) k (by omega) hfind (by omega)
          rw [hek] at this
          exact this
      split at h3
      · exact (hx.range _ _ _ _ e.2 h3).2 ⟨hprev, by simp⟩
      · refine (hx.range _ _ _ _ e.2 h3).2 ⟨hprev, ?_⟩
        intro w hw
        simp at hw
        exact .inr ⟨rfl, hw⟩
  · intro m hm
    show ∃ w, (prob.versions p)[m]? = some w ∧ alg.lt e.2 w = true ∧ e.2 ∈ prob.versions p ∧
      ∀ u ∈ prob.versions p, ¬ (alg.lt e.2 u = true ∧ alg.lt u w = true)
    simp only at hm
    have hlt : k + 1 < sorted.length := by
      apply Classical.byContradiction
      intro hn
      rw [List.getElem?_eq_none (by omega)] at hm
      simp at hm
    rw [List.getElem?_eq_getElem hlt] at hm
    simp at hm
    refine ⟨(sorted[k + 1]).2, ?_, ?_, List.mem_of_getElem? hver, ?_⟩
    · rw [← hm]; exact (hget _).1 (List.getElem_mem hlt)
    · have := mono k (k + 1) hfind hlt (by omega)
      rw [hek] at this; exact this
    · rintro u hu' ⟨g1, g2⟩
      obtain ⟨j, hj⟩ := List.mem_iff_getElem?.1 hu'
      have : (j, u) ∈ sorted := (hget (j, u)).2 hj
      obtain ⟨i, hi, hi2⟩ := List.mem_iff_getElem.1 this
      have hiu : (sorted[i]).2 = u := by rw [hi2]
      have hek2 : (sorted[k]).2 = e.2 := by rw [hek]
      rcases Nat.lt_trichotomy i k with hik | hik | hik
      · have h6 := mono i k hi hfind hik
        rw [hek2, hiu] at h6
        have := hx.ltTrans _ _ _ h6 g1
        rw [hx.ltIrrefl] at this; simp at this
      · subst hik
        rw [← hek2, hiu, hx.ltIrrefl] at g1; simp at g1
      · rcases Nat.lt_or_ge (k + 1) i with h5 | h5
        · have h6 := mono (k + 1) i hlt hi h5
          rw [hiu] at h6
          have := hx.ltTrans _ _ _ h6 g2
          rw [hx.ltIrrefl] at this; simp at this
        · have : i = k + 1 := by omega
          subst this
          rw [← hiu, hx.ltIrrefl] at g2; simp at g2

theorem matchingVersions_good (hx : Exact alg) (hu : Unshared alg prob) {s : St P V S} {p : P} {pvs : List (PV V S)}
    (h : matchingVersions alg prob s p = .ok pvs) :
    ∃ acc, s.lastAcc p = some acc ∧ ∀ pv ∈ pvs, PVGood alg prob p pv ∧ alg.allows acc pv.version = true := by
  unfold matchingVersions at h
  split at h
  · simp at h
  · rename_i acc hacc
    refine ⟨acc, hacc, ?_⟩
    split at h
    · rename_i v hv
      intro pv hpv
      rw [← pure_ok h] at hpv
      split at hpv
      · simp at hpv
        subst hpv
        exact ⟨⟨hx.nonStandard _ _ hv, by simp⟩, hx.nonStandard _ _ hv⟩
      · simp at hpv
    · obtain ⟨r, h1, h2⟩ := bind_ok h
      intro pv hpv
      rw [← pure_ok h2] at hpv
      obtain ⟨h3, h4⟩ := List.mem_filter.1 hpv
      exact ⟨packageVersions_good hx hu h1 pv h3, by simpa using h4⟩

/-! ### The incompatibilities of a version -/

theorem lastRequiring_none (hu : Unshared alg prob) {s : St P V S} (hd : DepsOk prob s) {pvs : List (PV V S)} {p : P} {pv : PV V S}
    (hpv : PVGood alg prob p pv) {raw : List (P × S)} (hraw : prob.deps p pv.version = some raw) {d : Dep P S}
    (hm : (d.package, d.constraint) ∈ raw) (fuel : Nat) : lastRequiring alg s pvs p d fuel pv.next none = none := by
  cases fuel with
  | zero => rfl
  | succ fuel =>
    cases hn : pv.next with
    | none => rfl
    | some k =>
      rw [lastRequiring]
      split
      · rfl
      · rename_i e he
        have h1 := List.mem_of_find?_eq_some he
        have h2 := List.find?_some he
        simp at h2
        cases hg : s.deps.get (p, k) with
        | none => rw [hg] at h1; simp at h1
        | some es =>
          rw [hg] at h1
          simp at h1
          obtain ⟨w, raw', g1, g2, g3⟩ := hd p k es hg
          obtain ⟨w', n1, n2, n3, n4⟩ := hpv.next k hn
          rw [g1] at n1
          simp at n1
          subst n1
          rw [depDict_nodup (hu.once p w raw' g2)] at g3
          have : (e.package, e.constraint) ∈ raw' := by
            rw [← g3]; exact List.mem_map.2 ⟨e, h1, rfl⟩
          rw [h2] at this
          have := hu.neighbours p pv.version w raw raw' d.package d.constraint e.constraint n3 (List.mem_of_getElem? g1) n2 n4 hraw g2 hm this
          rw [this]
          simp

theorem sortTerms_pair (a b : Term P S) : sortTerms prob [a, b] = [a, b] ∨ sortTerms prob [a, b] = [b, a] := by
  unfold sortTerms
  simp only [sortBy, insertBy]
  split
  · exact .inl rfl
  · exact .inr rfl

theorem depTerms_ok {dependant dependency : Term P S} {ts : List (Term P S)} (h : depTerms alg prob dependant dependency = .ok ts) :
    ∃ n, alg.inverse dependency.constraint = .ok n ∧
      (ts = [⟨dependency.package, n⟩, dependant] ∨ ts = [dependant, ⟨dependency.package, n⟩]) := by
  unfold depTerms at h
  obtain ⟨n, h1, h2⟩ := bind_ok h
  obtain ⟨c, h3, h4⟩ := bind_ok h1
  rw [← pure_ok h2, ← pure_ok h4]
  exact ⟨c, h3, sortTerms_pair _ _⟩

theorem setDepInc_fields (s : St P V S) (p q : P) (pv : PV V S) (i : Nat) : (s.setDepInc p pv q i).incs = s.incs ∧
    (s.setDepInc p pv q i).byPackage = s.byPackage ∧ (s.setDepInc p pv q i).unavailable = s.unavailable := by
  unfold St.setDepInc
  split <;> simp

theorem computeIncs_good (hx : Exact alg) (hu : Unshared alg prob) {pvs : List (PV V S)} {p : P} {pv : PV V S} (hok : PVOk prob p pv)
    (hpv : PVGood alg prob p pv) {raw : List (P × S)} (hraw : prob.deps p pv.version = some raw) :
    ∀ (ds : List (Dep P S)) (s s' : St P V S) (r r' : List Nat), (∀ d ∈ ds, (d.package, d.constraint) ∈ raw) → IInv s → DepsOk prob s →
      (∀ k, pv.index = some k → (s.deps.get (p, k)).isSome) →
      computeIncs alg prob pvs p pv ds s r = .ok (s', r') →
      IInv s' ∧ Grows s s' ∧ (∀ i, i < s.incs.length → s'.inc i = s.inc i) ∧ ∃ tail, r' = r ++ tail ∧ tail.Nodup ∧
        (∀ i ∈ tail, s.incs.length ≤ i ∧ i < s'.incs.length ∧ ∀ a b, (s'.inc i).dep ≠ some (a, b, true)) ∧
        ∀ d ∈ ds, ∃ i ∈ tail, JLike alg p pv.version d.package d.constraint (s'.inc i).terms := by
  intro ds
  induction ds with
  | nil =>
    intro s s' r r' hds hI hd hf h
    rw [computeIncs] at h
    have := pure_ok h
    simp only [Prod.mk.injEq] at this
    obtain ⟨rfl, rfl⟩ := this
    exact ⟨hI, Grows.refl _, fun _ _ => rfl, [], by simp, by simp, by simp, by simp⟩
  | cons d ds ih =>
    intro s s' r r' hds hI hd hf h
    rw [computeIncs] at h
    simp only [lastRequiring_none hu hd hpv hraw (hds d (by simp)), Option.bind_none] at h
    obtain ⟨ts, h3, h4⟩ := bind_ok h
    obtain ⟨n, hn, hts⟩ := depTerms_ok h3
    have hnew := inc_newInc s ⟨ts, some (⟨p, pv.range⟩, ⟨d.package, d.constraint⟩, false)⟩
    have hI1 : IInv (s.newInc ⟨ts, some (⟨p, pv.range⟩, ⟨d.package, d.constraint⟩, false)⟩).1 := newInc_iinv hI _ (by
      intro a b c hdep
      simp at hdep
      rw [← hdep.1]
      rcases hts with rfl | rfl <;> simp)
    have hG1 := newInc_grows s ⟨ts, some (⟨p, pv.range⟩, ⟨d.package, d.constraint⟩, false)⟩
    have hlen : (s.newInc ⟨ts, some (⟨p, pv.range⟩, ⟨d.package, d.constraint⟩, false)⟩).1.incs.length = s.incs.length + 1 := by simp [St.newInc]
    have hidx : (s.newInc ⟨ts, some (⟨p, pv.range⟩, ⟨d.package, d.constraint⟩, false)⟩).2 = s.incs.length := rfl
    have hdep1 : (s.newInc ⟨ts, some (⟨p, pv.range⟩, ⟨d.package, d.constraint⟩, false)⟩).1.deps = s.deps := rfl
    generalize hu1 : s.newInc ⟨ts, some (⟨p, pv.range⟩, ⟨d.package, d.constraint⟩, false)⟩ = ui at h4 hnew hI1 hG1 hlen hidx hdep1
    obtain ⟨u, i0⟩ := ui
    simp only at h4 hnew hI1 hG1 hlen hidx hdep1
    subst hidx
    have hd1 : DepsOk prob u := by unfold DepsOk; rw [hdep1]; exact hd
    obtain ⟨j1, j2, j3⟩ := setDepInc_ok (q := d.package) (i := s.incs.length) hd1 (fun _ => hok) (by rw [hdep1]; exact hf)
    obtain ⟨f1, f2, f3⟩ := setDepInc_fields u p d.package pv s.incs.length
    have hinc : ∀ j, (u.setDepInc p pv d.package s.incs.length).inc j = u.inc j := by intro j; unfold St.inc; rw [f1]
    obtain ⟨k1, k2, k3, tail, k4, k5, k6, k7⟩ := ih _ _ _ _ (fun d' hd' => hds d' (by simp [hd'])) (hI1.of_eq f1 f2 f3) j2
      (fun k hk => j3 _ (by rw [hdep1]; exact hf k hk)) h4
    have hG2 : Grows s s' := (hG1.trans (Grows.of_eq f1 f2)).trans k2
    rw [f1, hlen] at k3 k6
    have htop : s'.inc s.incs.length = ⟨ts, some (⟨p, pv.range⟩, ⟨d.package, d.constraint⟩, false)⟩ := by
      rw [k3 _ (by omega), hinc, hnew, if_pos rfl]
    have hlen2 : s.incs.length + 1 ≤ s'.incs.length := by
      have := k2.length; rw [f1, hlen] at this; exact this
    refine ⟨k1, hG2, ?_, s.incs.length :: tail, by rw [k4]; simp, ?_, ?_, ?_⟩
    · intro i hi
      rw [k3 i (by omega), hinc, hnew, if_neg (by omega)]
    · rw [List.nodup_cons]
      exact ⟨fun hm => by have := (k6 _ hm).1; omega, k5⟩
    · intro i hi
      rcases List.mem_cons.1 hi with rfl | hi
      · refine ⟨Nat.le_refl _, by omega, ?_⟩
        intro a b; rw [htop]; simp
      · obtain ⟨a1, a2, a3⟩ := k6 i hi
        exact ⟨by omega, a2, a3⟩
    · intro d' hd'
      rcases List.mem_cons.1 hd' with rfl | hd'
      · refine ⟨s.incs.length, by simp, n, pv.range, ?_, ?_, hpv.range⟩
        · rw [htop]; exact hts
        · intro u'; exact hx.inverse _ _ u' hn
      · obtain ⟨i, i1, i2⟩ := k7 d' hd'
        exact ⟨i, by simp [i1], i2⟩

theorem addIncs_good : ∀ (is : List Nat) (s : St P V S), IInv s → is.Nodup →
    (∀ i ∈ is, i < s.incs.length ∧ ∀ a b, (s.inc i).dep ≠ some (a, b, true)) →
    IInv (is.foldl (addInc alg) s) ∧ Grows s (is.foldl (addInc alg) s) ∧ (is.foldl (addInc alg) s).incs.length = s.incs.length ∧
    ∀ i ∈ is, ∀ t ∈ (s.inc i).terms, ∃ j ∈ (is.foldl (addInc alg) s).incsOf t.package,
      j = i ∨ sameTerms alg (s.inc j).terms (s.inc i).terms = true := by
  intro is
  induction is with
  | nil => intro s hI _ _; exact ⟨hI, Grows.refl _, rfl, by simp⟩
  | cons i is ih =>
    intro s hI hn hv
    rw [List.nodup_cons] at hn
    obtain ⟨v1, v2⟩ := hv i (by simp)
    obtain ⟨a1, a2, a3, a4, a5⟩ := addInc_ok (alg := alg) hI v1
    have hv' : ∀ j ∈ is, j < (addInc alg s i).incs.length ∧ ∀ a b, ((addInc alg s i).inc j).dep ≠ some (a, b, true) := by
      intro j hj
      obtain ⟨w1, w2⟩ := hv j (by simp [hj])
      rw [a3, a4 j (by rintro rfl; exact hn.1 hj)]
      exact ⟨w1, w2⟩
    obtain ⟨b1, b2, b3, b4⟩ := ih _ a1 hn.2 hv'
    rw [List.foldl_cons]
    refine ⟨b1, a2.trans b2, by rw [b3, a3], ?_⟩
    intro k hk t ht
    have terms : ∀ j, j < s.incs.length → ((addInc alg s i).inc j).terms = (s.inc j).terms := fun j hj => (a2.same j hj).1.symm
    rcases List.mem_cons.1 hk with rfl | hk
    · obtain ⟨j, j1, j2⟩ := a5 v2 t ht
      exact ⟨j, b2.lists _ _ j1, j2⟩
    · obtain ⟨w1, w2⟩ := hv k (by simp [hk])
      obtain ⟨j, j1, j2⟩ := b4 k hk t (by rw [terms k w1]; exact ht)
      refine ⟨j, j1, ?_⟩
      have hj : j < s.incs.length := by have := b1.valid _ _ j1; omega
      rw [terms j hj, terms k w1] at j2
      exact j2

/-! ### Decisions -/

/-- A decision for a version that the assignments of the package allow. -/
theorem decide_good (hx : Exact alg) {s : St P V S} {p : P} {v : V} {raw : List (P × S)} {a : Asg P S} (hi : SInv alg prob s)
    (hp : p ∈ s.undecided) (ho : Offers prob p v) (hd : prob.deps p v = some raw)
    (hv : ∀ acc, s.lastAcc p = some acc → alg.allows acc v = true)
    (ha : s.makeAssignment alg prob.root ⟨p, alg.single v⟩ none = .ok a) (hg : AllGood alg prob s)
    (hl : ∀ q c, (q, c) ∈ raw → (∃ j ∈ s.incsOf p, JLike alg p v q c (s.inc j).terms) ∧ ∃ j ∈ s.incsOf q, JLike alg p v q c (s.inc j).terms) :
    SInv alg prob ((s.decide a v).require ((depDict raw).map (·.package))) ∧
    Top alg prob ((s.decide a v).require ((depDict raw).map (·.package))) p a v raw := by
  have hinv := hi.inv.decided hp ho hd ha
  obtain ⟨m1, m2, m3, m4, m5⟩ := makeAssignment_ok ha
  obtain ⟨hlev, hroot⟩ := hi.inv.decision_level hp ha
  obtain ⟨-, hn⟩ := mem_undecided hp
  obtain ⟨r1, r2, r3, r4, r5, r6, r7, r8, r9⟩ := require_fields (s.decide a v) ((depDict raw).map (·.package))
  generalize hu : (s.decide a v).require ((depDict raw).map (·.package)) = u at *
  have hap : a.term.package = p := by rw [m1]
  have hdec : u.decisions = s.decisions ++ [(p, a, v)] := by
    rw [r1]
    show s.decisions.put a.term.package (a, v) = _
    rw [hap]
    exact put_new _ _ _ hn
  have hasg : ∀ q, u.asgsOf q = (s.push a).asgsOf q := by
    intro q; unfold St.asgsOf; rw [r3]; rfl
  have hinc : ∀ j, u.inc j = s.inc j := by intro j; unfold St.inc; rw [r4]; rfl
  have hof : ∀ x, u.incsOf x = s.incsOf x := by intro x; unfold St.incsOf; rw [r5]; rfl
  have hshrink : ∀ acc, s.lastAcc a.term.package = some acc → Sub alg a.acc acc := by
    intro acc hacc w hw
    rw [m1] at hacc
    exact (((accumulated_sub hx m5).2 acc hacc w).1 hw).1
  have hex : Exactly alg a.acc v := by
    intro w
    cases hlast : s.lastAcc p with
    | none =>
      unfold St.accumulated at m5
      simp only [hlast] at m5
      rw [← pure_ok m5]
      exact hx.single v w
    | some acc =>
      rw [(accumulated_sub hx m5).2 acc hlast w, hx.single]
      constructor
      · exact fun h => h.2
      · rintro rfl; exact ⟨hv acc hlast, rfl⟩
  have hPI : PInv alg u := by
    constructor
    · intro q
      rw [hasg]
      exact pinv_push hi.part hshrink q
    · intro q b w hq
      rw [hdec, List.mem_append] at hq
      rw [hasg, asgsOf_push]
      rcases hq with hq | hq
      · have hne : a.term.package ≠ q := by
          rw [hap]
          rintro rfl
          exact hn (List.mem_map.2 ⟨_, hq, rfl⟩)
        rw [if_neg hne]
        exact hi.part.dec q b w hq
      · simp at hq
        obtain ⟨rfl, rfl, rfl⟩ := hq
        rw [if_pos hap]
        refine ⟨?_, hex⟩
        intro x hx'
        rcases List.mem_append.1 hx' with h | h
        · cases hlast : s.lastAcc q with
          | none => rw [lastAcc_none hlast] at h; simp at h
          | some acc => exact hi.part.last_sub hlast x h _ (hv acc hlast)
        · simp at h; subst h; exact (hex w).2 rfl
  have hgood : ∀ l q c, GoodDep alg s l q c → GoodDep alg u l q c := by
    intro l q c hgd
    have := GoodDep.push hi.inv (a := a) (by rw [hlev]; unfold St.decisionLevel; omega) hshrink hgd
    unfold GoodDep at *
    rw [hasg]; exact this
  refine ⟨⟨hinv, hPI, hi.incs.of_eq (by rw [r4]; rfl) (by rw [r5]; rfl) (by rw [r7]; rfl)⟩, ⟨by rw [hdec]; simp, ?_, ?_, hd, ?_, ?_⟩⟩
  · rw [hlev]; unfold St.decisionLevel; rw [hdec]; simp
  · intro p' a' v' hp' hne
    rw [hdec, List.mem_append] at hp'
    rcases hp' with hp' | hp'
    · have h1 := hi.inv.le _ (hi.inv.own _ hp').2.1
      have h2 : s.decisions ≠ [] := by intro e; rw [e] at hp'; simp at hp'
      have h3 : s.decisions.length ≠ 0 := by simpa using h2
      simp only at h1
      unfold St.decisionLevel at h1
      omega
    · simp at hp'; exact absurd hp'.1 hne
  · intro p' a' v' ds' hp' hl' hd' q c hq
    rw [hdec, List.mem_append] at hp'
    rcases hp' with hp' | hp'
    · exact hgood _ _ _ (hg p' a' v' ds' hp' hd' q c hq)
    · simp at hp'
      obtain ⟨rfl, rfl, rfl⟩ := hp'
      omega
  · intro q c hq
    obtain ⟨⟨j, j1, j2⟩, j', j3, j4⟩ := hl q c hq
    exact ⟨⟨j, by rw [hof]; exact j1, by rw [hinc]; exact j2⟩, j', by rw [hof]; exact j3, by rw [hinc]; exact j4⟩

/-- What holds after a turn: all decisions are settled, or all but the last one, whose package is returned. -/
def Turned (alg : Alg V S) (prob : Problem P V S) (s : St P V S) (p : P) : Prop :=
  AllGood alg prob s ∨ ∃ a v ds, Top alg prob s p a v ds

theorem decideVersion_good (hx : Exact alg) (hu : Unshared alg prob) {s s' : St P V S} {p : P} {pv : PV V S} {ds : List (Dep P S)}
    (hi : SInv alg prob s) (hd : DepsOk prob s) (hp : p ∈ s.undecided) (hok : PVOk prob p pv) (hpv : PVGood alg prob p pv)
    (hf : ∀ k, pv.index = some k → (s.deps.get (p, k)).isSome) {acc : S} (hacc : s.lastAcc p = some acc)
    (hall : alg.allows acc pv.version = true)
    (hraw : ∃ raw, prob.deps p pv.version = some raw ∧
      ds.map (fun d => (d.package, d.constraint)) = (depDict raw).map (fun d => (d.package, d.constraint)))
    (hg : AllGood alg prob s) (h : decideVersion alg prob s p pv ds = .ok s') :
    SInv alg prob s' ∧ Turned alg prob s' p := by
  obtain ⟨raw, hr1, hr2⟩ := hraw
  have hr3 : ds.map (·.package) = (depDict raw).map (·.package) := by
    have := congrArg (List.map (·.1)) hr2
    simpa [List.map_map, Function.comp_def] using this
  rw [depDict_nodup (hu.once _ _ _ hr1)] at hr2
  unfold decideVersion at h
  obtain ⟨pvs, -, h⟩ := bind_ok h
  obtain ⟨⟨s1, incs⟩, h1, h⟩ := bind_ok h
  simp only at h
  obtain ⟨j1, j2⟩ := computeIncs_ok (fun _ => hok) _ _ _ _ _ hd hf h1
  obtain ⟨c1, c2, c3, tail, c4, c5, c6, c7⟩ := computeIncs_good hx hu hok hpv hr1 _ _ _ _ _
    (fun d hd' => by rw [← hr2]; exact List.mem_map.2 ⟨d, hd', rfl⟩) hi.incs hd hf h1
  simp at c4
  subst c4
  obtain ⟨b1, b2, b3, b4⟩ := addIncs_good (alg := alg) incs s1 c1 c5 (fun i hi' => (c6 i hi').2)
  have k := addIncs_keeps (alg := alg) incs s1
  generalize incs.foldl (addInc alg) s1 = s2 at h k b1 b2 b3 b4
  have sp := SamePartial.trans j1 k.same
  have hi2 : SInv alg prob s2 := ⟨hi.inv.congr sp, hi.part.congr sp, b1⟩
  have hg2 : AllGood alg prob s2 := hg.congr sp
  have hp2 : p ∈ s2.undecided := by rw [← SamePartial.undecided sp]; exact hp
  have hacc2 : s2.lastAcc p = some acc := by rw [← SamePartial.lastAcc sp]; exact hacc
  -- the incompatibilities are listed for both packages
  have listed : ∀ q c, (q, c) ∈ raw → (∃ j ∈ s2.incsOf p, JLike alg p pv.version q c (s2.inc j).terms) ∧
      ∃ j ∈ s2.incsOf q, JLike alg p pv.version q c (s2.inc j).terms := by
    intro q c hq
    rw [← hr2, List.mem_map] at hq
    obtain ⟨d, hd1, hd2⟩ := hq
    simp at hd2
    obtain ⟨rfl, rfl⟩ := hd2
    obtain ⟨i, i1, i2⟩ := c7 d hd1
    have hmem : ∀ t ∈ (s1.inc i).terms, ∃ j ∈ s2.incsOf t.package, JLike alg p pv.version d.package d.constraint (s2.inc j).terms := by
      intro t ht
      obtain ⟨j, g1, g2⟩ := b4 i i1 t ht
      refine ⟨j, g1, ?_⟩
      have hj : j < s1.incs.length := by have := b1.valid _ _ g1; omega
      rw [← (b2.same j hj).1]
      rcases g2 with rfl | g2
      · exact i2
      · exact i2.same hx g2
    obtain ⟨n, r, hts, -⟩ := i2
    constructor
    · exact hmem ⟨p, r⟩ (by rcases hts with hts | hts <;> rw [hts] <;> simp)
    · exact hmem ⟨d.package, n⟩ (by rcases hts with hts | hts <;> rw [hts] <;> simp)
  obtain ⟨a, ha, h⟩ := bind_ok h
  obtain ⟨conflicts, -, h⟩ := bind_ok h
  obtain ⟨adjusted, hadj, h⟩ := bind_ok h
  cases adjusted with
  | some u =>
    simp only at h
    obtain ⟨a', ha', h⟩ := bind_ok h
    rw [← pure_ok h]
    unfold adjust at hadj
    split at hadj
    · have := pure_ok hadj; simp at this
    · obtain ⟨m, rfl, hm, hpu⟩ := minorAdjustments_ok hi2.inv hp2 hadj
      rw [hr3]
      have hib : SInv alg prob (s2.backtrack m) := ⟨hi2.inv.backtrack m hm, pinv_backtrack hi2.inv hi2.part m, b1.of_eq rfl rfl rfl⟩
      obtain ⟨z1, z2⟩ := decide_good hx hib hpu hok.offers hr1 (by
        intro acc' hacc'
        obtain ⟨z, hz, rfl⟩ := lastAcc_mem hacc'
        have := List.mem_of_getLast? hz
        rw [asgsOf_backtrack, List.mem_filter] at this
        exact hi2.part.last_sub hacc2 z this.1 _ hall) ha' (AllGood.backtrack (hg2.below (m + 1)) (by omega)) listed
      exact ⟨z1, .inr ⟨_, _, _, z2⟩⟩
  | none =>
    simp only at h
    split at h
    · rw [← pure_ok h, hr3]
      obtain ⟨z1, z2⟩ := decide_good hx hi2 hp2 hok.offers hr1 (by
        intro acc' hacc'
        rw [hacc2] at hacc'
        simp at hacc'
        subst hacc'
        exact hall) ha hg2 listed
      exact ⟨z1, .inr ⟨_, _, _, z2⟩⟩
    · rw [← pure_ok h]
      exact ⟨hi2, .inl hg2⟩

theorem noVersions_iinv {s s' : St P V S} {p : P} (hi : IInv s) (h : noVersions alg prob s p = .ok s') : IInv s' := by
  unfold noVersions at h
  split at h
  · simp at h
  · split at h
    · rename_i i hun
      obtain ⟨c, h1, h2⟩ := bind_ok h
      rw [← pure_ok h2]
      obtain ⟨u1, u2⟩ := hi.una _ _ hun
      have hset := inc_set s i { s.inc i with terms := [⟨p, c⟩] } u1
      have hdep : ∀ j, (St.inc ({ s with incs := s.incs.set i { s.inc i with terms := [⟨p, c⟩] } } : St P V S) j).dep = (s.inc j).dep := by
        intro j
        rw [hset]
        split
        · rename_i e; subst e; rfl
        · rfl
      refine ⟨?_, ?_, ?_⟩
      · intro j d e f hj
        rw [hdep] at hj
        rw [hset]
        split
        · rename_i e'; subst e'; rw [u2] at hj; simp at hj
        · exact hi.deps j d e f hj
      · intro x j hj
        have := hi.valid x j hj
        simpa using this
      · intro x j hj
        obtain ⟨w1, w2⟩ := hi.una x j hj
        rw [hdep]
        exact ⟨by simpa using w1, w2⟩
    · obtain ⟨ts, h1, h2⟩ := bind_ok h
      simp only at h2
      have h3 := newInc_iinv hi ⟨ts, none⟩ (by simp)
      have hlen : (s.newInc ⟨ts, none⟩).1.incs.length = s.incs.length + 1 := by simp [St.newInc]
      have hidx : (s.newInc ⟨ts, none⟩).2 = s.incs.length := rfl
      have hnew := inc_newInc s ⟨ts, none⟩
      generalize s.newInc ⟨ts, none⟩ = q at h2 h3 hlen hidx hnew
      obtain ⟨u, i⟩ := q
      simp only at h2 h3 hlen hidx hnew
      rw [← pure_ok h2]
      refine (addInc_ok (s := { u with unavailable := u.unavailable.put p i }) ⟨h3.deps, h3.valid, ?_⟩ ?_).1
      · intro x j hj
        simp only [Dict.get_put] at hj
        split at hj
        · simp at hj
          subst hj
          refine ⟨by show i < u.incs.length; omega, ?_⟩
          show (u.inc i).dep = none
          rw [hnew, if_pos hidx]
        · exact h3.una x j hj
      · show i < u.incs.length
        omega

theorem fetchDeps_iinv {s s' : St P V S} {p : P} {pv : PV V S} {ds : List (Dep P S)} (hi : IInv s)
    (h : fetchDeps prob s p pv = some (s', ds)) : IInv s' := by
  unfold fetchDeps at h
  split at h
  · cases hx : prob.deps p pv.version with
    | none => rw [hx] at h; simp at h
    | some raw => rw [hx] at h; simp at h; rw [← h.1]; exact hi
  · split at h
    · simp at h; rw [← h.1]; exact hi
    · cases hx : prob.deps p pv.version with
      | none => rw [hx] at h; simp at h
      | some raw => rw [hx] at h; simp at h; rw [← h.1]; exact hi.of_eq rfl rfl rfl

theorem firstUsable_iinv {s s' : St P V S} {p : P} {ds : List (Dep P S)} {pv : PV V S} (hi : IInv s) : ∀ pvs : List (PV V S),
    firstUsable prob s p pvs = some (pv, s', ds) → IInv s' := by
  intro pvs
  induction pvs with
  | nil => intro h; simp [firstUsable] at h
  | cons x pvs ih =>
    intro h
    rw [firstUsable] at h
    cases hf : fetchDeps prob s p x with
    | none => rw [hf] at h; exact ih h
    | some r =>
      obtain ⟨u, es⟩ := r
      rw [hf] at h
      simp at h
      obtain ⟨rfl, rfl, rfl⟩ := h
      exact fetchDeps_iinv hi hf

/-- At the next decision all required packages have assignments. -/
theorem nextDecision_good (hx : Exact alg) (hu : Unshared alg prob) {s s' : St P V S} {o : Option P} (hi : SInv alg prob s) (hd : DepsOk prob s)
    (hs : Settled alg prob s) (h : nextDecision alg prob s = .ok (s', o)) :
    SInv alg prob s' ∧ (∀ p, o = some p → Turned alg prob s' p) ∧ (o = none → AllGood alg prob s') := by
  have good : (∀ q ∈ s.undecided, s.lastAcc q ≠ none) → AllGood alg prob s := by
    intro hall p a v ds h1 h2 q c h3
    rcases hs p a v ds h1 h2 q c h3 with h4 | h4
    · exfalso
      obtain ⟨-, ds', e1, e2⟩ := hi.inv.dec p a v h1
      rw [h2] at e1
      simp at e1
      subst e1
      obtain ⟨l, hl, -⟩ := e2 q (List.mem_map.2 ⟨_, h3, rfl⟩)
      by_cases hq : q ∈ Dict.keys s.decisions
      · unfold Dict.keys at hq
        rw [List.mem_map] at hq
        obtain ⟨⟨q', b, w⟩, g1, g2⟩ := hq
        simp at g2
        subst g2
        obtain ⟨acc, g3, -⟩ := hi.part.last hi.inv g1
        rw [h4] at g3; simp at g3
      · refine hall q ?_ h4
        unfold St.undecided
        rw [List.mem_filter]
        refine ⟨List.mem_map.2 ⟨_, hl, rfl⟩, ?_⟩
        simp only [Bool.not_eq_true', Bool.eq_false_iff, ne_eq]
        rw [has_iff]; exact hq
    · exact h4
  unfold nextDecision at h
  split at h
  · rename_i hun
    have := pure_ok h
    simp only [Prod.mk.injEq] at this
    obtain ⟨rfl, rfl⟩ := this
    exact ⟨hi, by simp, fun _ => good (by rw [hun]; simp)⟩
  · rename_i us hne
    obtain ⟨options, h1, h2⟩ := bind_ok h
    obtain ⟨hlen, hopt⟩ := mapM_ok _ _ h1
    have hg : AllGood alg prob s := by
      apply good
      intro q hq
      obtain ⟨b, hb⟩ := mapM_all _ _ h1 q hq
      obtain ⟨vs, hb1, -⟩ := bind_ok hb
      obtain ⟨acc, hacc, -⟩ := matchingVersions_good hx hu hb1
      rw [hacc]; simp
    split at h2
    · rename_i hc
      have := choosePackage_none _ hc
      subst this
      simp at hlen
      exact absurd hlen.symm (by intro e; exact hne (List.length_eq_zero_iff.1 e))
    · rename_i p pvs hc
      obtain ⟨q, hq1, hq2⟩ := hopt _ (choosePackage_mem _ _ hc)
      obtain ⟨vs, hq3, hq4⟩ := bind_ok hq2
      have := pure_ok hq4
      simp only [Prod.mk.injEq] at this
      obtain ⟨rfl, rfl⟩ := this
      have hpvs := matchingVersions_ok hq3
      obtain ⟨acc, hacc, hgood⟩ := matchingVersions_good hx hu hq3
      split at h2
      · obtain ⟨u, h3, h4⟩ := bind_ok h2
        have := pure_ok h4
        simp only [Prod.mk.injEq] at this
        obtain ⟨rfl, rfl⟩ := this
        have k := noVersions_keeps h3
        exact ⟨hi.keeps k (noVersions_iinv hi.incs h3), fun p _ => .inl (hg.congr k.same), by simp⟩
      · rename_i pv u ds hf
        obtain ⟨w, h3, h4⟩ := bind_ok h2
        have := pure_ok h4
        simp only [Prod.mk.injEq] at this
        obtain ⟨rfl, rfl⟩ := this
        obtain ⟨g1, g2, g3, g4⟩ := firstUsable_ok hd _ hpvs hf
        have hpu : q ∈ u.undecided := by rw [← SamePartial.undecided g2]; exact hq1
        have hiu : SInv alg prob u := ⟨hi.inv.congr g2, hi.part.congr g2, firstUsable_iinv hi.incs _ hf⟩
        obtain ⟨k1, k2⟩ := decideVersion_good hx hu hiu g3 hpu (hpvs _ g1) (hgood _ g1).1 (firstUsable_fetched _ hf)
          (by rw [← SamePartial.lastAcc g2]; exact hacc) (hgood _ g1).2 g4 (hg.congr g2) h3
        exact ⟨k1, fun p hp => by simp at hp; subst hp; exact k2, by simp⟩

theorem Turned.work {s : St P V S} {p : P} (h : Turned alg prob s p) : Work alg prob s [] [p] := by
  rcases h with h | ⟨a, v, ds, h⟩
  · exact .inl h
  · exact .inr ⟨p, a, v, ds, h, fun q c _ => .inr (.inr (.inl (by simp)))⟩

theorem solveLoop_good (hx : Exact alg) (hu : Unshared alg prob) {fuel : Nat} : ∀ (n : Nat) (s s' : St P V S) (p : P), SInv alg prob s → DepsOk prob s →
    Turned alg prob s p → solveLoop alg prob ch fuel n s p = .ok s' → SInv alg prob s' ∧ AllGood alg prob s' := by
  intro n
  induction n with
  | zero => intro s s' p _ _ _ h; rw [solveLoop] at h; simp at h
  | succ n ih =>
    intro s s' p hi hd ht h
    rw [solveLoop] at h
    obtain ⟨s1, h1, h2⟩ := bind_ok h
    obtain ⟨⟨s2, o⟩, h3, h4⟩ := bind_ok h2
    obtain ⟨k1, k2⟩ := propagate_good hx _ _ _ _ hi ht.work h1
    have k3 := (propagate_search _ _ _ _ hi.inv h1).2
    have hd1 : DepsOk prob s1 := by unfold DepsOk; rw [k3]; exact hd
    obtain ⟨k4, k5, k6⟩ := nextDecision_good hx hu k1 hd1 (k2.settled k1) h3
    obtain ⟨-, k7, k8⟩ := nextDecision_search k1.inv hd1 h3
    cases o with
    | none =>
      simp only at h4
      rw [← pure_ok h4]
      exact ⟨k4, k6 rfl⟩
    | some q =>
      simp only at h4
      exact ih _ _ _ k4 k7 (k5 q rfl) h4

/-! ### The start -/

theorem createTerms_single {t : Term P S} {ts : List (Term P S)} (h : createTerms alg prob [t] = .ok ts) : ts = [t] := by
  unfold createTerms at h
  obtain ⟨js, h1, h2⟩ := bind_ok h
  rw [← pure_ok h2]
  have hp : packagesOf [t] = [t.package] := by simp [packagesOf]
  rw [hp] at h1
  simp only [List.mapM_cons, List.mapM_nil] at h1
  obtain ⟨j, h3, h4⟩ := bind_ok h1
  obtain ⟨js', h5, h6⟩ := bind_ok h4
  have h7 := pure_ok h5
  subst h7
  rw [← pure_ok h6]
  have h8 : (List.filter (fun u : Term P S => decide (u.package = t.package)) [t]) = [t] := by simp
  rw [h8] at h3
  simp only [joinTerms, List.foldlM_nil] at h3
  obtain ⟨c, h9, h10⟩ := bind_ok h3
  rw [← pure_ok h10, ← pure_ok h9]
  rfl

/-- The state before the loop. -/
theorem start_good (hx : Exact alg) {s : St P V S} (h : start alg prob = .ok s) :
    SInv alg prob s ∧ AllGood alg prob s ∧ s.lastAcc prob.root = none ∧ s.incsOf prob.root = [0] ∧
    ∃ v n, (prob.versions prob.root).head? = some v ∧ s.inc 0 = ⟨[⟨prob.root, n⟩], none⟩ ∧
      ∀ u, alg.allows n u = true ↔ u ≠ v := by
  have hi := (start_ok h).1
  have hdec := (start_ok h).2.2.1
  have hord := (start_ok h).2.2.2
  have hasg : ∀ q, s.asgsOf q = [] := by intro q; rw [hi.refines q, hord]; rfl
  unfold start at h
  obtain ⟨pvs, hpvs, h⟩ := bind_ok h
  cases pvs with
  | nil => simp at h
  | cons pv pvs =>
    simp only at h
    obtain ⟨n, hn, h⟩ := bind_ok h
    obtain ⟨c, hc, hn⟩ := bind_ok hn
    have hnn := pure_ok hn
    subst hnn
    obtain ⟨ts, hts, h⟩ := bind_ok h
    have hts := createTerms_single hts
    subst hts
    simp only at h
    have he : IInv (St.empty : St P V S) := ⟨by simp [St.empty, St.inc], by simp [St.empty, St.incsOf, Dict.get], by simp [St.empty, Dict.get]⟩
    have h3 := newInc_iinv he ⟨[⟨prob.root, c⟩], none⟩ (by simp)
    have hr := require_fields (addInc alg ((St.empty : St P V S).newInc ⟨[⟨prob.root, c⟩], none⟩).1 ((St.empty : St P V S).newInc ⟨[⟨prob.root, c⟩], none⟩).2) [prob.root]
    have hadd := addInc_ok (alg := alg) h3 (i := ((St.empty : St P V S).newInc ⟨[⟨prob.root, c⟩], none⟩).2) (by simp [St.newInc, St.empty])
    have hs := pure_ok h
    rw [hs] at hr
    obtain ⟨-, -, -, r4, r5, -, r7, -⟩ := hr
    have hI : IInv s := hadd.1.of_eq r4 r5 r7
    refine ⟨⟨hi, ⟨fun q => by rw [hasg]; simp, fun q a w hq => by rw [hdec] at hq; simp at hq⟩, hI⟩, ?_, ?_, ?_, pv.version, c, ?_, ?_, ?_⟩
    · intro p a v ds hp; rw [hdec] at hp; simp at hp
    · unfold St.lastAcc; rw [hasg]; rfl
    · unfold St.incsOf
      rw [r5]
      simp [addInc, addTo, St.newInc, St.empty, St.inc, St.incsOf, Dict.get, Dict.put]
    · unfold packageVersions at hpvs
      simp only at hpvs
      cases hv : prob.versions prob.root with
      | nil => rw [hv] at hpvs; simp [pure, Except.pure] at hpvs
      | cons v vs =>
        rw [hv] at hpvs
        simp only [List.zipIdx_cons, List.map_cons, List.mapM_cons] at hpvs
        obtain ⟨b, b1, b2⟩ := bind_ok hpvs
        obtain ⟨bs, b3, b4⟩ := bind_ok b2
        have := pure_ok b4
        simp at this
        obtain ⟨rfl, rfl⟩ := this
        obtain ⟨x, x1, x2⟩ := bind_ok b1
        rw [← pure_ok x2]
        rfl
    · unfold St.inc
      rw [r4]
      simp [addInc, addTo, St.newInc, St.empty, St.inc, St.incsOf, Dict.get, Dict.put]
    · intro u
      rw [hx.inverse _ _ u hc]
      simp only [hx.single]

/-- An assignment of level 0 limits the root to one version. -/
def RootOk (alg : Alg V S) (prob : Problem P V S) (v : V) (s : St P V S) : Prop :=
  ∃ a ∈ s.asgsOf prob.root, a.level = 0 ∧ ∀ u, alg.allows a.acc u = true → u = v

theorem asgsOf_require (s : St P V S) (ps : List P) (q : P) : (s.require ps).asgsOf q = s.asgsOf q := by
  unfold St.asgsOf; rw [(require_fields s ps).2.2.1]

theorem RootOk.search {v : V} {s t : St P V S} (h : RootOk alg prob v s) (hs : Search alg prob s t) : RootOk alg prob v t := by
  induction hs with
  | refl => exact h
  | step _ h2 ih =>
    obtain ⟨a, h3, h4, h5⟩ := ih
    refine ⟨a, ?_, h4, h5⟩
    cases h2 with
    | derived t c hd =>
      obtain ⟨b, hb, rfl⟩ := derive_ok hd
      show a ∈ (St.push _ b).asgsOf prob.root
      rw [asgsOf_push]
      split
      · simp [h3]
      · exact h3
    | decided p w ds b hp ho hd ha =>
      rw [asgsOf_require]
      show a ∈ (St.push _ b).asgsOf prob.root
      rw [asgsOf_push]
      split
      · simp [h3]
      · exact h3
    | backtracked L hL =>
      rw [asgsOf_backtrack, List.mem_filter]
      exact ⟨h3, by simp [h4]⟩
    | other e => rw [← e.2.1]; exact h3

theorem propagate_root (hx : Exact alg) {fuel n : Nat} {s s' : St P V S} (hi : Inv prob s) (hl : s.lastAcc prob.root = none)
    (hz : s.decisions = []) (ho : s.incsOf prob.root = [0]) {v : V} {c : S} (hinc : s.inc 0 = ⟨[⟨prob.root, c⟩], none⟩)
    (hc : ∀ u, alg.allows c u = true ↔ u ≠ v) (h : propagate alg prob ch fuel n s [prob.root] = .ok s') : RootOk alg prob v s' := by
  cases n with
  | zero => rw [propagate] at h; simp at h
  | succ n =>
    rw [propagate] at h
    simp only [List.length_cons, List.length_nil, Nat.zero_add, Nat.mod_one, List.getElem?_cons_zero, Option.getD_some, ho,
      List.reverse_cons, List.reverse_nil, List.nil_append, List.eraseIdx_cons_zero] at h
    obtain ⟨⟨u, ch'⟩, h1, h2⟩ := bind_ok h
    simp only at h2
    have k : Keeps s { s with tick := s.tick + 1 } := ⟨rfl, rfl, rfl, rfl, rfl⟩
    have hi1 := hi.keeps k
    have hroot : RootOk alg prob v u ∧ Inv prob u := by
      refine ⟨?_, hi1.search (propagateOne_search _ _ _ _ _ hi1 h1).1⟩
      rw [propagateOne] at h1
      obtain ⟨r, h3, h4⟩ := bind_ok h1
      have hc1 : check alg ({ s with tick := s.tick + 1 } : St P V S) 0 = .ok (.almost ⟨prob.root, c⟩) := by
        unfold check
        have e1 : St.inc ({ s with tick := s.tick + 1 } : St P V S) 0 = ⟨[⟨prob.root, c⟩], none⟩ := hinc
        have e2 : St.lastAcc ({ s with tick := s.tick + 1 } : St P V S) prob.root = none := hl
        rw [e1]
        simp [checkPlain, checkTerms, findSatisfier, reachable, e2, pure, Except.pure, bind, Except.bind]
      rw [hc1] at h3
      simp at h3
      subst h3
      simp only at h4
      obtain ⟨nt, h5, h6⟩ := bind_ok h4
      obtain ⟨w, h7, h8⟩ := bind_ok h6
      rw [propagateOne] at h8
      have := pure_ok h8
      simp only [Prod.mk.injEq] at this
      obtain ⟨rfl, rfl⟩ := this
      obtain ⟨m, h9, h10⟩ := bind_ok h5
      have := pure_ok h10
      subst this
      obtain ⟨a, ha, rfl⟩ := derive_ok h7
      obtain ⟨m1, m2, m3, m4, m5⟩ := makeAssignment_ok ha
      refine ⟨a, ?_, ?_, ?_⟩
      · show a ∈ (St.push _ a).asgsOf prob.root
        rw [asgsOf_push, if_pos (by rw [m1])]
        simp
      · rw [m4]
        simp only [reduceCtorEq, false_and, if_false]
        unfold St.decisionLevel
        simp [hz]
      · intro x hx'
        have := (accumulated_sub hx m5).1 x hx'
        have h11 := (hx.inverse _ _ x h9).1 this
        exact Classical.byContradiction (fun hne => h11 ((hc x).2 hne))
    exact hroot.1.search (propagate_search _ _ _ _ hroot.2 h2).1

/-- A successful run with exact operations. -/
theorem solve_good (hx : Exact alg) (hu : Unshared alg prob) {fuel : Nat} {sol : Dict P V} (h : solve alg prob ch fuel = .ok sol) :
    ∃ s v, SInv alg prob s ∧ AllGood alg prob s ∧ s.undecided = [] ∧ sol = s.solution ∧
      (prob.versions prob.root).head? = some v ∧ RootOk alg prob v s := by
  unfold solve at h
  obtain ⟨s0, h1, h⟩ := bind_ok h
  obtain ⟨s, h2, h⟩ := bind_ok h
  obtain ⟨i1, i2, i3, i4⟩ := start_ok h1
  obtain ⟨g1, g2, g3, g4, v, n, g5, g6, g7⟩ := start_good hx h1
  obtain ⟨k1, k2⟩ := solveLoop_good hx hu _ _ _ _ g1 i2 (.inl g2) h2
  obtain ⟨-, k3⟩ := solveLoop_search _ _ _ _ i1 i2 h2
  refine ⟨s, v, k1, k2, k3, (pure_ok h).symm, g5, ?_⟩
  cases fuel with
  | zero => rw [solveLoop] at h2; simp at h2
  | succ fuel =>
    rw [solveLoop] at h2
    obtain ⟨s1, h3, h4⟩ := bind_ok h2
    obtain ⟨⟨s2, o⟩, h5, h6⟩ := bind_ok h4
    have r1 := propagate_root hx g1.inv g3 i3 g4 g6 g7 h3
    obtain ⟨p1, p2⟩ := propagate_search _ _ _ _ i1 h3
    have hd1 : DepsOk prob s1 := by unfold DepsOk; rw [p2]; exact i2
    obtain ⟨q1, q2, q3⟩ := nextDecision_search (i1.search p1) hd1 h5
    have r2 := r1.search q1
    cases o with
    | none => simp only at h6; rw [← pure_ok h6]; exact r2
    | some q =>
      simp only at h6
      exact r2.search (solveLoop_search _ _ _ _ (i1.search (Search.trans p1 q1)) q2 h6).1

end Solver
end Pkm
