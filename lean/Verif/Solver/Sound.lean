import Verif.Solver.Exact
set_option linter.unusedVariables false
set_option linter.unusedSimpArgs false
set_option linter.unusedSectionVars false
/-
With exact operations the propagation after a decision limits the packages of all its dependencies.
-/
namespace Pkm
open Solver

variable {P V S : Type} [DecidableEq P]

namespace Solver
open Spec

variable {alg : Alg V S} {prob : Problem P V S} {ch : Choices P S}

/-- The terms say: not both `q` outside of `c` and `p` in a range with `v`. -/
def JLike (alg : Alg V S) (p : P) (v : V) (q : P) (c : S) (ts : List (Term P S)) : Prop :=
  ∃ n r, (ts = [⟨q, n⟩, ⟨p, r⟩] ∨ ts = [⟨p, r⟩, ⟨q, n⟩]) ∧ (∀ u, alg.allows n u = true ↔ ¬ alg.allows c u = true) ∧
    alg.allows r v = true

theorem JLike.same (hx : Exact alg) {p q : P} {v : V} {c : S} {ts us : List (Term P S)} (h : JLike alg p v q c us)
    (hs : sameTerms alg ts us = true) : JLike alg p v q c ts := by
  have key : ∀ a b : Term P S, sameTerms alg ts [a, b] = true → ∃ x y, ts = [⟨a.package, x⟩, ⟨b.package, y⟩] ∧
      (∀ u, alg.allows x u = alg.allows a.constraint u) ∧ ∀ u, alg.allows y u = alg.allows b.constraint u := by
    intro a b h
    match ts, h with
    | [x, y], h =>
      simp only [sameTerms, Term.same, Bool.and_eq_true, decide_eq_true_eq, and_true] at h
      obtain ⟨⟨h1, h2⟩, h3, h4⟩ := h
      refine ⟨x.constraint, y.constraint, by rw [← h1, ← h3], fun u => hx.same _ _ u h2, fun u => hx.same _ _ u h4⟩
    | [], h => simp [sameTerms] at h
    | [x], h => simp [sameTerms] at h
    | x :: y :: z :: w, h => simp [sameTerms] at h
  obtain ⟨n, r, h1, h2, h3⟩ := h
  rcases h1 with rfl | rfl
  · obtain ⟨x, y, k1, k2, k3⟩ := key _ _ hs
    exact ⟨x, y, .inl k1, fun u => by rw [k2]; exact h2 u, by rw [k3]; exact h3⟩
  · obtain ⟨x, y, k1, k2, k3⟩ := key _ _ hs
    exact ⟨y, x, .inr k1, fun u => by rw [k3]; exact h2 u, by rw [k2]; exact h3⟩

/-- The package is unassigned, or its assignments are within the constraint. -/
def Limited (alg : Alg V S) (s : St P V S) (q : P) (c : S) : Prop :=
  s.lastAcc q = none ∨ ∃ acc, s.lastAcc q = some acc ∧ Sub alg acc c

/-- The term of the dependant is satisfied. -/
theorem find_point (hx : Exact alg) {s : St P V S} {p : P} {v : V} {acc r : S} (hl : s.lastAcc p = some acc) (he : Exactly alg acc v)
    (hr : alg.allows r v = true) {o : Option (Asg P S)} (h : findSatisfier alg s ⟨p, r⟩ none = .ok o) : ∃ a, o = some a := by
  cases o with
  | some a => exact ⟨a, rfl⟩
  | none =>
    have h1 := find_none (t := ⟨p, r⟩) hl h
    have := (hx.allowsAll _ _ _ v h1 ((he v).2 rfl)).2 (by
      intro u hu
      rw [(he u).1 hu]; exact hr)
    simp at this

/-- The check of an incompatibility of a dependency of a decided version. -/
theorem jlike_check (hx : Exact alg) {s : St P V S} (hI : IInv s) {p q : P} {v : V} {c acc : S} (hl : s.lastAcc p = some acc)
    (he : Exactly alg acc v) {i : Nat} (hj : JLike alg p v q c (s.inc i).terms) {res : Sat P S} (h : check alg s i = .ok res) :
    (∃ sat prev, res = .full sat prev) ∨ (∃ t, res = .almost t ∧ t.package = q ∧ ∀ u, alg.allows t.constraint u = true ↔ ¬ alg.allows c u = true) ∨
      (res = .unsatisfied ∧ Limited alg s q c) := by
  obtain ⟨n, r, hts, hn, hr⟩ := hj
  have any : ∀ accq, s.lastAcc q = some accq → alg.allowsAny accq n = .ok false → Limited alg s q c := by
    intro accq h1 h2
    refine .inr ⟨accq, h1, ?_⟩
    intro u hu
    apply Classical.byContradiction
    intro hc
    have := (hx.allowsAny _ _ _ h2).2 ⟨u, hu, (hn u).2 hc⟩
    simp at this
  -- the answer for the other term
  have other : ∀ o, findSatisfier alg s ⟨q, n⟩ none = .ok o → (∃ a, o = some a) ∨
      (o = none ∧ ∀ b, reachable alg s ⟨q, n⟩ = .ok b → b = true ∨ Limited alg s q c) := by
    intro o ho
    cases o with
    | some a => exact .inl ⟨a, rfl⟩
    | none =>
      refine .inr ⟨rfl, ?_⟩
      intro b hb
      unfold reachable at hb
      simp only at hb
      cases hq : s.lastAcc q with
      | none => exact .inr (.inl hq)
      | some accq =>
        rw [hq] at hb
        cases b with
        | true => exact .inl rfl
        | false => exact .inr (any accq hq hb)
  have plain : checkPlain alg s (s.inc i).terms = .ok res → (∃ sat prev, res = .full sat prev) ∨
      (∃ t, res = .almost t ∧ t.package = q ∧ ∀ u, alg.allows t.constraint u = true ↔ ¬ alg.allows c u = true) ∨
      (res = .unsatisfied ∧ Limited alg s q c) := by
    intro h
    have full : ∀ sats terms, createFull alg s terms sats = .ok res → ∃ sat prev, res = .full sat prev := by
      intro sats terms h
      obtain ⟨a, b, h1, -⟩ := createFull_mem (fun _ => True) (fun _ _ _ => trivial) (fun _ _ => trivial) (fun _ _ => trivial) h
      exact ⟨a, b, h1⟩
    unfold checkPlain at h
    split at h
    · rename_i hany
      refine .inr (.inr ⟨(pure_ok h).symm, ?_⟩)
      rw [List.any_eq_true] at hany
      obtain ⟨t, h1, h2⟩ := hany
      have hcase : t.package = q ∨ t.package = p := by
        rcases hts with hts | hts <;> rw [hts] at h1 <;> simp at h1 <;> rcases h1 with rfl | rfl <;> simp
      rcases hcase with e | e
      · cases hq : s.lastAcc q with
        | none => exact .inl hq
        | some accq =>
          rw [e, hq] at h2
          simp at h2
          exact .inr ⟨accq, hq, fun u hu => absurd hu (hx.isNone _ u h2)⟩
      · rw [e, hl] at h2
        simp at h2
        exact absurd ((he v).2 rfl) (hx.isNone _ v h2)
    · rcases hts with hts | hts
      · rw [hts] at h
        rw [checkTerms.eq_def] at h
        simp only at h
        obtain ⟨o, h1, h2⟩ := bind_ok h
        rcases other o h1 with ⟨a, rfl⟩ | ⟨rfl, ho⟩
        · simp only at h2
          rw [checkTerms.eq_def] at h2
          simp only at h2
          obtain ⟨o2, h3, h4⟩ := bind_ok h2
          obtain ⟨a2, rfl⟩ := find_point hx hl he hr h3
          simp only [checkTerms] at h4
          exact .inl (full _ _ h4)
        · simp only at h2
          obtain ⟨b, h3, h4⟩ := bind_ok h2
          cases b with
          | false =>
            simp at h4
            rcases ho false h3 with hb | hb
            · simp at hb
            · exact .inr (.inr ⟨(pure_ok h4).symm, hb⟩)
          | true =>
            simp only [Bool.not_true, Bool.false_eq_true, if_false] at h4
            rw [checkTerms.eq_def] at h4
            simp only at h4
            obtain ⟨o2, h5, h6⟩ := bind_ok h4
            obtain ⟨a2, rfl⟩ := find_point hx hl he hr h5
            simp only [checkTerms] at h6
            exact .inr (.inl ⟨_, (pure_ok h6).symm, rfl, hn⟩)
      · rw [hts] at h
        rw [checkTerms.eq_def] at h
        simp only at h
        obtain ⟨o2, h3, h4⟩ := bind_ok h
        obtain ⟨a2, rfl⟩ := find_point hx hl he hr h3
        simp only at h4
        rw [checkTerms.eq_def] at h4
        simp only at h4
        obtain ⟨o, h1, h2⟩ := bind_ok h4
        rcases other o h1 with ⟨a, rfl⟩ | ⟨rfl, ho⟩
        · simp only [checkTerms] at h2
          exact .inl (full _ _ h2)
        · simp only at h2
          obtain ⟨b, h5, h6⟩ := bind_ok h2
          cases b with
          | false =>
            simp at h6
            rcases ho false h5 with hb | hb
            · simp at hb
            · exact .inr (.inr ⟨(pure_ok h6).symm, hb⟩)
          | true =>
            simp only [Bool.not_true, Bool.false_eq_true, if_false, checkTerms] at h6
            exact .inr (.inl ⟨_, (pure_ok h6).symm, rfl, hn⟩)
  unfold check at h
  split at h
  · exact plain h
  · rename_i d e f hd
    have hmem := hI.deps i d e f hd
    have hcase : d = ⟨q, n⟩ ∨ d = ⟨p, r⟩ := by
      rcases hts with hts | hts <;> rw [hts] at hmem <;> simp at hmem <;> rcases hmem with rfl | rfl <;> simp
    rcases hcase with rfl | rfl
    · split at h
      · rename_i hq
        exact .inr (.inr ⟨(pure_ok h).symm, .inl hq⟩)
      · rename_i accq hq
        obtain ⟨go, h1, h2⟩ := bind_ok h
        cases go with
        | true => exact plain (by simpa using h2)
        | false =>
          simp at h2
          refine .inr (.inr ⟨(pure_ok h2).symm, ?_⟩)
          unfold mayApply at h1
          obtain ⟨b, h3, h4⟩ := bind_ok h1
          cases b with
          | true => simp [pure, Except.pure] at h4
          | false => exact any accq hq h3
    · simp only [hl] at h
      obtain ⟨go, h1, h2⟩ := bind_ok h
      cases go with
      | true => exact plain (by simpa using h2)
      | false =>
        unfold mayApply at h1
        obtain ⟨b, h3, h4⟩ := bind_ok h1
        have := (hx.allowsAny _ _ _ h3).2 ⟨v, (he v).2 rfl, hr⟩
        subst this
        simp [pure, Except.pure] at h4

/-! ### Propagation -/

/-- The last decision is for `v` of `p`; all others are settled, and the incompatibilities of its dependencies
are listed for both packages. -/
structure Top (alg : Alg V S) (prob : Problem P V S) (s : St P V S) (p : P) (a : Asg P S) (v : V) (ds : List (P × S)) : Prop where
  decided : (p, a, v) ∈ s.decisions
  level : a.level = s.decisionLevel
  others : ∀ p' a' v', (p', a', v') ∈ s.decisions → p' ≠ p → a'.level < a.level
  deps : prob.deps p v = some ds
  below : GoodBelow alg prob s a.level
  listed : ∀ q c, (q, c) ∈ ds → (∃ j ∈ s.incsOf p, JLike alg p v q c (s.inc j).terms) ∧ ∃ j ∈ s.incsOf q, JLike alg p v q c (s.inc j).terms

/-- What is left to do for the last decision. -/
def Pend (alg : Alg V S) (s : St P V S) (p : P) (v : V) (ds : List (P × S)) (is : List Nat) (changed : List P) : Prop :=
  ∀ q c, (q, c) ∈ ds → Limited alg s q c ∨ q ∈ changed ∨ p ∈ changed ∨ ∃ j ∈ is, JLike alg p v q c (s.inc j).terms

def Work (alg : Alg V S) (prob : Problem P V S) (s : St P V S) (is : List Nat) (changed : List P) : Prop :=
  AllGood alg prob s ∨ ∃ p a v ds, Top alg prob s p a v ds ∧ Pend alg s p v ds is changed

theorem mem_addChanged {changed : List P} {p x : P} : x ∈ addChanged changed p ↔ x ∈ changed ∨ x = p := by
  unfold addChanged
  split
  · rename_i h
    simp at h
    constructor
    · exact .inl
    · rintro (h1 | rfl)
      · exact h1
      · exact h
  · simp

theorem Work.below {s : St P V S} {is : List Nat} {changed : List P} (h : Work alg prob s is changed) : GoodBelow alg prob s s.decisionLevel := by
  rcases h with h | ⟨p, a, v, ds, h, -⟩
  · exact h.below _
  · rw [← h.level]; exact h.below

theorem propagateOne_good (hx : Exact alg) {fuel : Nat} : ∀ (is : List Nat) (s s' : St P V S) (changed changed' : List P), SInv alg prob s →
    (∀ i ∈ is, i < s.incs.length) → Work alg prob s is changed →
    propagateOne alg prob ch fuel is s changed = .ok (s', changed') → SInv alg prob s' ∧ Work alg prob s' [] changed' := by
  intro is
  induction is with
  | nil =>
    intro s s' changed changed' hi hv hw h
    rw [propagateOne] at h
    have := pure_ok h
    simp only [Prod.mk.injEq] at this
    obtain ⟨rfl, rfl⟩ := this
    exact ⟨hi, hw⟩
  | cons i is ih =>
    intro s s' changed changed' hi hv hw h
    rw [propagateOne] at h
    obtain ⟨r, h1, h2⟩ := bind_ok h
    cases r with
    | full sat prev =>
      simp only at h2
      obtain ⟨⟨u, p⟩, h3, h4⟩ := bind_ok h2
      simp only at h4
      obtain ⟨k1, k2, k3⟩ := resolveConflict_good hx _ _ _ _ _ _ _ hi (hv i (by simp)) (.inr h1) hw.below h3
      exact ih _ _ _ _ k1 (fun j hj => Nat.lt_of_lt_of_le (hv j (by simp [hj])) k3) (.inl k2) h4
    | almost t =>
      simp only at h2
      obtain ⟨n, h3, h4⟩ := bind_ok h2
      obtain ⟨u, h5, h6⟩ := bind_ok h4
      obtain ⟨m1, m2, m3, m4, m5, m6, acc, m7, m8, m9⟩ := derive_sinv hx hi h1 h3 h5
      refine ih _ _ _ _ m1 (fun j hj => Nat.lt_of_lt_of_le (hv j (by simp [hj])) m2.length) ?_ h6
      rcases hw with hw | ⟨p, a, v, ds, ht, hp⟩
      · exact .inl (m3 hw)
      · right
        refine ⟨p, a, v, ds, ⟨?_, ?_, ?_, ht.deps, m4 _ ht.below, ?_⟩, ?_⟩
        · rw [m5]; exact ht.decided
        · rw [ht.level]; unfold St.decisionLevel; rw [m5]
        · rw [m5]; exact ht.others
        · intro q c hq
          obtain ⟨⟨j, j1, j2⟩, j', j3, j4⟩ := ht.listed q c hq
          refine ⟨⟨j, m2.lists _ _ j1, ?_⟩, j', m2.lists _ _ j3, ?_⟩
          · rw [← (m2.same j (hi.incs.valid _ _ j1)).1]; exact j2
          · rw [← (m2.same j' (hi.incs.valid _ _ j3)).1]; exact j4
        · intro q c hq
          rcases hp q c hq with hp | hp | hp | ⟨j, hj, hjl⟩
          · by_cases e : q = t.package
            · right; left; rw [mem_addChanged]; exact .inr e
            · left; unfold Limited; rw [m6 q e]; exact hp
          · right; left; rw [mem_addChanged]; exact .inl hp
          · right; right; left; rw [mem_addChanged]; exact .inl hp
          · rcases List.mem_cons.1 hj with rfl | hj
            · obtain ⟨accp, hl, hex⟩ := hi.part.last hi.inv ht.decided
              rcases jlike_check hx hi.incs hl hex hjl h1 with ⟨_, _, e⟩ | ⟨t', e, e2, -⟩ | ⟨e, -⟩
              · simp at e
              · simp at e
                subst e
                right; left; rw [mem_addChanged]; exact .inr e2.symm
              · simp at e
            · refine .inr (.inr (.inr ⟨j, hj, ?_⟩))
              rw [← (m2.same j (hv j (by simp [hj]))).1]; exact hjl
    | unsatisfied =>
      refine ih _ _ _ _ hi (fun j hj => hv j (by simp [hj])) ?_ h2
      rcases hw with hw | ⟨p, a, v, ds, ht, hp⟩
      · exact .inl hw
      · refine .inr ⟨p, a, v, ds, ht, ?_⟩
        intro q c hq
        rcases hp q c hq with hp | hp | hp | ⟨j, hj, hjl⟩
        · exact .inl hp
        · exact .inr (.inl hp)
        · exact .inr (.inr (.inl hp))
        · rcases List.mem_cons.1 hj with rfl | hj
          · obtain ⟨accp, hl, hex⟩ := hi.part.last hi.inv ht.decided
            rcases jlike_check hx hi.incs hl hex hjl h1 with ⟨_, _, e⟩ | ⟨t', e, e2, -⟩ | ⟨-, e⟩
            · simp at e
            · simp at e
            · exact .inl e
          · exact .inr (.inr (.inr ⟨j, hj, hjl⟩))

theorem mem_eraseIdx_or {α : Type} (l : List α) (k : Nat) (x : α) (hx : x ∈ l) : l[k]? = some x ∨ x ∈ l.eraseIdx k := by
  induction l generalizing k with
  | nil => simp at hx
  | cons a l ih =>
    cases k with
    | zero =>
      rcases List.mem_cons.1 hx with rfl | h
      · simp
      · right; simpa using h
    | succ k =>
      rcases List.mem_cons.1 hx with rfl | h
      · right; simp
      · rcases ih k h with h | h
        · left; simpa using h
        · right; simp [h]

theorem propagate_good (hx : Exact alg) {fuel : Nat} : ∀ (n : Nat) (s s' : St P V S) (changed : List P), SInv alg prob s →
    Work alg prob s [] changed → propagate alg prob ch fuel n s changed = .ok s' → SInv alg prob s' ∧ Work alg prob s' [] [] := by
  intro n
  induction n with
  | zero => intro s s' changed hi hw h; rw [propagate] at h; simp at h
  | succ n ih =>
    intro s s' changed hi hw h
    cases changed with
    | nil => rw [propagate] at h; rw [← pure_ok h]; exact ⟨hi, hw⟩
    | cons c cs =>
      rw [propagate] at h
      simp only at h
      obtain ⟨⟨u, ch'⟩, h1, h2⟩ := bind_ok h
      simp only at h2
      have k : Keeps s { s with tick := s.tick + 1 } := ⟨rfl, rfl, rfl, rfl, rfl⟩
      have hi1 : SInv alg prob { s with tick := s.tick + 1 } := hi.keeps k (hi.incs.of_eq rfl rfl rfl)
      generalize hk : ch.pop s.tick (c :: cs) % (c :: cs).length = kk at h1
      generalize hp0 : ((c :: cs)[kk]?).getD c = p0 at h1
      have hcover : ∀ x ∈ c :: cs, x = p0 ∨ x ∈ (c :: cs).eraseIdx kk := by
        intro x hx
        rcases mem_eraseIdx_or (c :: cs) kk x hx with h | h
        · left; rw [← hp0, h]; rfl
        · exact .inr h
      obtain ⟨k1, k2⟩ := propagateOne_good hx _ _ _ _ _ hi1 (fun i hi' => hi.incs.valid p0 i (List.mem_reverse.1 hi')) (by
        rcases hw with hw | ⟨p, a, v, ds, ht, hp⟩
        · exact .inl (hw.congr k.same)
        · refine .inr ⟨p, a, v, ds, ⟨ht.decided, ht.level, ht.others, ht.deps, ht.below.congr k.same, ht.listed⟩, ?_⟩
          intro q c' hq
          obtain ⟨l1, l2⟩ := ht.listed q c' hq
          rcases hp q c' hq with hp | hp | hp | ⟨j, hj, hjl⟩
          · exact .inl hp
          · rcases hcover q hp with rfl | h
            · obtain ⟨j, j1, j2⟩ := l2
              exact .inr (.inr (.inr ⟨j, List.mem_reverse.2 j1, j2⟩))
            · exact .inr (.inl h)
          · rcases hcover p hp with rfl | h
            · obtain ⟨j, j1, j2⟩ := l1
              exact .inr (.inr (.inr ⟨j, List.mem_reverse.2 j1, j2⟩))
            · exact .inr (.inr (.inl h))
          · simp at hj) h1
      exact ih _ _ _ k1 k2 h2

/-- Each dependency of each decision limits its package, if that has assignments. -/
def Settled (alg : Alg V S) (prob : Problem P V S) (s : St P V S) : Prop :=
  ∀ p a v ds, (p, a, v) ∈ s.decisions → prob.deps p v = some ds → ∀ q c, (q, c) ∈ ds → s.lastAcc q = none ∨ GoodDep alg s a.level q c

theorem Work.settled {s : St P V S} (hi : SInv alg prob s) (h : Work alg prob s [] []) : Settled alg prob s := by
  rcases h with h | ⟨p, a, v, ds, ht, hp⟩
  · exact fun p a v ds h1 h2 q c h3 => .inr (h p a v ds h1 h2 q c h3)
  · intro p' a' v' ds' h1 h2 q c h3
    by_cases e : p' = p
    · subst e
      have e1 := Dict.mem_get _ _ _ hi.inv.wfD h1
      have e2 := Dict.mem_get _ _ _ hi.inv.wfD ht.decided
      rw [e1] at e2
      simp at e2
      obtain ⟨rfl, rfl⟩ := e2
      rw [ht.deps] at h2
      simp at h2
      subst h2
      rcases hp q c h3 with hp | hp | hp | ⟨j, hj, -⟩
      · rcases hp with hp | ⟨acc, hl, hs⟩
        · exact .inl hp
        · right
          obtain ⟨z, hz, rfl⟩ := lastAcc_mem hl
          refine ⟨z, ?_, hs⟩
          rw [filter_all _ _ (fun x hx => by
            have := asgsOf_level hi.inv hx
            rw [ht.level]; simpa using this)]
          exact hz
      · simp at hp
      · simp at hp
      · simp at hj
    · exact .inr (ht.below p' a' v' ds' h1 (ht.others p' a' v' h1 e) h2 q c h3)

end Solver
end Pkm
