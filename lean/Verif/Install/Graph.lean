import Verif.Install.Lemmas
set_option linter.unusedVariables false
set_option linter.unusedSimpArgs false
set_option linter.unusedSectionVars false
/-
Property C23: orphan packages and installation trees.
-/
namespace Pkm
open Install

namespace Spec

/-- The packages that are needed: the user-requested ones and, again and again, the installed
dependencies of needed ones. -/
inductive Needed (site : SiteG) : Text → Prop
  | requested {k : Text} {p : GNode} : Dict.get site k = some p → p.requested = true → Needed site k
  | dependency {k d : Text} {b : Bool} {p q : GNode} : Needed site k → Dict.get site k = some p →
      (d, b) ∈ p.deps → Dict.get site d = some q → Needed site d

/-- `k` can be reached from `root` through installed dependencies that apply to the environment. -/
inductive ReachedFrom (site : SiteG) (root : Text) : Text → Prop
  | root : ReachedFrom site root root
  | dependency {k d : Text} {p q : GNode} : ReachedFrom site root k → Dict.get site k = some p →
      (d, true) ∈ p.deps → Dict.get site d = some q → ReachedFrom site root d

/-- A site as `_scan_packages` builds it: a dictionary that stores every package under its name key. -/
def SiteOk (site : SiteG) : Prop := Dict.Wf site ∧ ∀ k p, Dict.get site k = some p → p.key = k

end Spec
open Spec

namespace Install

theorem values_get (site : SiteG) (hs : SiteOk site) (p : GNode) :
    p ∈ Dict.values site ↔ Dict.get site p.key = some p := by
  unfold Dict.values
  rw [List.mem_map]
  constructor
  · rintro ⟨⟨k, q⟩, he, rfl⟩
    have := Dict.mem_get _ _ _ hs.1 he
    have hk := hs.2 _ _ this
    dsimp only at hk ⊢
    rw [hk]; exact this
  · intro h; exact ⟨_, Dict.get_mem _ _ _ h, rfl⟩

theorem values_key_inj (site : SiteG) (hs : SiteOk site) (k : Text) (p : GNode) (h : Dict.get site k = some p) :
    p ∈ Dict.values site ∧ p.key = k := by
  have hk := hs.2 _ _ h
  exact ⟨(values_get site hs p).2 (by rw [hk]; exact h), hk⟩

theorem values_keys_nodup (site : SiteG) (hs : SiteOk site) : ((Dict.values site).map GNode.key).Nodup := by
  have : (Dict.values site).map GNode.key = Dict.keys site := by
    unfold Dict.values Dict.keys
    rw [List.map_map]
    apply List.map_congr_left
    intro e he
    exact hs.2 _ _ (Dict.mem_get _ _ _ hs.1 he)
  rw [this]; exact hs.1

theorem sum_filter_lt (l : List GNode) (f : GNode → Nat) (p p' : GNode → Bool) (x : GNode) (hx : x ∈ l)
    (hpx : p x = true) (hp'x : p' x = false) (himp : ∀ y, p' y = true → p y = true) :
    ((l.filter p').map f).sum + f x ≤ ((l.filter p).map f).sum := by
  have hle : ∀ l : List GNode, ((l.filter p').map f).sum ≤ ((l.filter p).map f).sum := by
    intro l
    induction l with
    | nil => simp
    | cons y l ih =>
      cases h' : p' y with
      | true => simp [List.filter_cons, h', himp y h']; omega
      | false => cases h : p y <;> simp [List.filter_cons, h', h] <;> omega
  induction l with
  | nil => simp at hx
  | cons y l ih =>
    rcases List.mem_cons.1 hx with rfl | hx
    · have := hle l
      simp [List.filter_cons, hpx, hp'x]; omega
    · have := ih hx
      cases h' : p' y with
      | true => simp [List.filter_cons, h', himp y h']; omega
      | false => cases h : p y <;> simp [List.filter_cons, h', h] <;> omega

/-- Work left in `orphanLoop`. -/
def weight (site : SiteG) (done : List Text) : Nat :=
  (((Dict.values site).filter (fun p => decide (p.key ∉ done))).map (fun p => 1 + p.deps.length)).sum

theorem orphanLoop_spec (site : SiteG) (hs : SiteOk site) : ∀ (fuel : Nat) (stack : List GNode)
    (done : List Text) (orphans : Dict Text GNode),
    stack.length + weight site done < fuel →
    (∀ p ∈ stack, Dict.get site p.key = some p ∧ Needed site p.key) →
    (∀ k ∈ done, Needed site k) →
    (∀ k p d b q, k ∈ done → Dict.get site k = some p → (d, b) ∈ p.deps → Dict.get site d = some q →
      d ∈ done ∨ q ∈ stack) →
    (∀ k p, Dict.get site k = some p → p.requested = true → k ∈ done ∨ p ∈ stack) →
    Dict.Wf orphans → (∀ k, orphans.get k = if k ∈ done then none else Dict.get site k) →
    ∃ r, orphanLoop site fuel stack done orphans = some r ∧ Dict.Wf r ∧
      ∀ k p, r.get k = some p ↔ Dict.get site k = some p ∧ ¬ Needed site k := by
  intro fuel
  induction fuel with
  | zero => intro stack done orphans h; omega
  | succ fuel ih =>
    intro stack done orphans hf hst hdone hcl hreq hw ho
    cases stack with
    | nil =>
      refine ⟨orphans, rfl, hw, ?_⟩
      have hall : ∀ k, Needed site k → k ∈ done := by
        intro k hk
        induction hk with
        | requested h1 h2 => rcases hreq _ _ h1 h2 with h | h
                             · exact h
                             · simp at h
        | dependency hn h1 h2 h3 ih => rcases hcl _ _ _ _ _ ih h1 h2 h3 with h | h
                                       · exact h
                                       · simp at h
      intro k p
      rw [ho]
      by_cases hk : k ∈ done
      · simp [hk, hdone k hk]
      · simp [hk]
        intro _ hn
        exact hk (hall k hn)
    | cons next rest =>
      obtain ⟨hg, hn⟩ := hst next (by simp)
      unfold orphanLoop
      dsimp only
      by_cases hd : next.key ∈ done
      · rw [if_pos hd]
        refine ih rest done orphans (by simp at hf; omega) (fun p hp => hst p (by simp [hp])) hdone ?_ ?_ hw ho
        · intro k p d b q hk hp hdep hq
          rcases hcl k p d b q hk hp hdep hq with h | h
          · exact Or.inl h
          · rcases List.mem_cons.1 h with rfl | h
            · left; rw [← hs.2 _ _ hq]; exact hd
            · exact Or.inr h
        · intro k p hk hr
          rcases hreq k p hk hr with h | h
          · exact Or.inl h
          · rcases List.mem_cons.1 h with rfl | h
            · left; rw [← hs.2 _ _ hk]; exact hd
            · exact Or.inr h
      · rw [if_neg hd]
        have hfound : ∀ q, q ∈ next.deps.filterMap (fun d => Dict.get site d.1) ↔
            ∃ d b, (d, b) ∈ next.deps ∧ Dict.get site d = some q := by
          intro q
          rw [List.mem_filterMap]
          constructor
          · rintro ⟨⟨d, b⟩, h1, h2⟩; exact ⟨d, b, h1, h2⟩
          · rintro ⟨d, b, h1, h2⟩; exact ⟨(d, b), h1, h2⟩
        have hlen : (next.deps.filterMap (fun d => Dict.get site d.1)).length ≤ next.deps.length :=
          List.length_filterMap_le _ _
        have hwt : weight site (next.key :: done) + (1 + next.deps.length) ≤ weight site done := by
          unfold weight
          exact sum_filter_lt _ (fun p => 1 + p.deps.length) _ _ next ((values_get site hs next).2 hg) (by simpa using hd) (by simp)
            (by intro y; simp)
        refine ih _ _ _ ?_ ?_ ?_ ?_ ?_ (Dict.wf_del _ _ hw) ?_
        · simp only [List.length_append, List.length_reverse, List.length_cons] at hf ⊢
          omega
        · intro p hp
          rcases List.mem_append.1 hp with hp | hp
          · obtain ⟨d, b, h1, h2⟩ := (hfound p).1 (List.mem_reverse.1 hp)
            have hk := hs.2 _ _ h2
            rw [hk]
            exact ⟨h2, .dependency hn hg h1 h2⟩
          · exact hst p (by simp [hp])
        · intro k hk
          rcases List.mem_cons.1 hk with rfl | hk
          · exact hn
          · exact hdone k hk
        · intro k p d b q hk hp hdep hq
          rcases List.mem_cons.1 hk with rfl | hk
          · rw [hg] at hp
            simp at hp; subst hp
            right
            exact List.mem_append_left _ (List.mem_reverse.2 ((hfound q).2 ⟨d, b, hdep, hq⟩))
          · rcases hcl k p d b q hk hp hdep hq with h | h
            · left; simp [h]
            · rcases List.mem_cons.1 h with rfl | h
              · left; rw [← hs.2 _ _ hq]; simp
              · right; exact List.mem_append_right _ h
        · intro k p hk hr
          rcases hreq k p hk hr with h | h
          · left; simp [h]
          · rcases List.mem_cons.1 h with rfl | h
            · left; rw [← hs.2 _ _ hk]; simp
            · right; exact List.mem_append_right _ h
        · intro k
          rw [Dict.get_del, ho]
          by_cases hk : next.key = k
          · simp [hk]
          · have : ¬ k = next.key := fun e => hk e.symm
            simp [hk, this]

theorem dictBy_values (site : SiteG) (hs : SiteOk site) (k : Text) :
    (dictBy GNode.key (Dict.values site)).get k = Dict.get site k := by
  cases h : Dict.get site k with
  | none =>
    rw [dictBy_get_none]
    intro p hp e
    rw [values_get site hs, e, h] at hp
    simp at hp
  | some p =>
    obtain ⟨h1, h2⟩ := values_key_inj site hs k p h
    rw [← h2]
    exact dictBy_get_nodup _ _ (values_keys_nodup site hs) p h1

end Install

/-! ## C23 -/

/-- C23: `find_orphan_packages` stops on every dependency graph (cyclic ones included) and returns
exactly the installed packages that are not needed, each once. -/
theorem find_orphans_exact (site : SiteG) (hs : SiteOk site) :
    ∃ orphans, findOrphans site = some orphans ∧ (orphans.map GNode.key).Nodup ∧
      ∀ p, p ∈ orphans ↔ Dict.get site p.key = some p ∧ ¬ Needed site p.key := by
  have hw0 : weight site [] + ((Dict.values site).filter (·.requested)).reverse.length < orphanFuel site := by
    unfold weight orphanFuel
    rw [List.length_reverse]
    have h1 := List.length_filter_le (fun p : GNode => p.requested) (Dict.values site)
    have h2 : (Dict.values site).filter (fun p => decide (p.key ∉ ([] : List Text))) = Dict.values site := by
      rw [List.filter_eq_self]; simp
    rw [h2]
    have h3 : ∀ l : List GNode, (l.map (fun p => 2 + p.deps.length)).sum =
        (l.map (fun p => 1 + p.deps.length)).sum + l.length := by
      intro l
      induction l with
      | nil => rfl
      | cons x l ih => simp [ih]; omega
    rw [h3]; omega
  obtain ⟨r, h1, h2, h3⟩ := orphanLoop_spec site hs (orphanFuel site)
    ((Dict.values site).filter (·.requested)).reverse [] (dictBy GNode.key (Dict.values site))
    (by omega)
    (by
      intro p hp
      rw [List.mem_reverse, List.mem_filter] at hp
      have := (values_get site hs p).1 hp.1
      exact ⟨this, .requested this hp.2⟩)
    (by simp) (by simp)
    (by
      intro k p hk hr
      right
      rw [List.mem_reverse, List.mem_filter]
      exact ⟨(values_key_inj site hs k p hk).1, hr⟩)
    (dictBy_wf _ _)
    (by intro k; rw [dictBy_values site hs]; simp)
  have hsr : SiteOk r := ⟨h2, fun k p hk => hs.2 k p ((h3 k p).1 hk).1⟩
  refine ⟨Dict.values r, by simp [findOrphans, h1], values_keys_nodup r hsr, ?_⟩
  intro p
  rw [values_get r hsr, h3]

namespace Install

theorem has_iff (c : Dict Text GNode) (k : Text) : Dict.has c k = true ↔ ∃ p, c.get k = some p := by
  unfold Dict.has
  exact Option.isSome_iff_exists

/-- How many packages of the site are not collected yet. -/
def uncollected (site : SiteG) (c : Dict Text GNode) : Nat :=
  (((Dict.values site).filter (fun p => !Dict.has c p.key)).map (fun _ => 1)).sum

/-- What a call of `collect` guarantees. -/
structure Collected (site : SiteG) (roots : List Text) (c c' : Dict Text GNode) : Prop where
  wf : Dict.Wf c'
  sub : ∀ k p, c'.get k = some p → Dict.get site k = some p
  mono : ∀ k p, c.get k = some p → c'.get k = some p
  closed : ∀ k p d q, c.get k = none → c'.get k = some p → (d, true) ∈ p.deps → Dict.get site d = some q →
    ∃ r, c'.get d = some r
  reach : ∀ k p, c.get k = none → c'.get k = some p → ∃ r ∈ roots, ReachedFrom site r k

theorem uncollected_mono (site : SiteG) (c c' : Dict Text GNode)
    (h : ∀ k p, c.get k = some p → c'.get k = some p) : uncollected site c' ≤ uncollected site c := by
  unfold uncollected
  generalize Dict.values site = l
  induction l with
  | nil => simp
  | cons x l ih =>
    cases hc : Dict.has c x.key with
    | true =>
      obtain ⟨p, hp⟩ := (has_iff _ _).1 hc
      have : Dict.has c' x.key = true := (has_iff _ _).2 ⟨p, h _ _ hp⟩
      simp [List.filter_cons, hc, this]; simpa using ih
    | false =>
      cases hc' : Dict.has c' x.key <;> simp only [List.filter_cons, hc, hc', Bool.not_false, Bool.not_true, if_true, Bool.false_eq_true, if_false, List.map_cons, List.sum_cons] <;> omega

theorem reached_trans (site : SiteG) (a b c : Text) (h1 : ReachedFrom site a b) (h2 : ReachedFrom site b c) :
    ReachedFrom site a c := by
  induction h2 with
  | root => exact h1
  | dependency _ h3 h4 h5 ih => exact .dependency ih h3 h4 h5

theorem collect_fold (site : SiteG) (fuel : Nat)
    (ih : ∀ (c : Dict Text GNode) (p : GNode), uncollected site c < fuel → Dict.Wf c →
      (∀ k q, c.get k = some q → Dict.get site k = some q) → Dict.get site p.key = some p →
      ∃ c', collect site fuel c p = some c' ∧ Collected site [p.key] c c' ∧ c'.get p.key = some p) :
    ∀ (ps : List GNode) (c : Dict Text GNode), uncollected site c < fuel → Dict.Wf c →
      (∀ k q, c.get k = some q → Dict.get site k = some q) → (∀ p ∈ ps, Dict.get site p.key = some p) →
      ∃ c', ps.foldlM (collect site fuel) c = some c' ∧ Collected site (ps.map GNode.key) c c' ∧
        ∀ p ∈ ps, c'.get p.key = some p := by
  intro ps
  induction ps with
  | nil =>
    intro c hu hw hsub _
    exact ⟨c, rfl, ⟨hw, hsub, fun _ _ h => h, fun k p d q h1 h2 => by rw [h1] at h2; simp at h2,
      fun k p h1 h2 => by rw [h1] at h2; simp at h2⟩, by simp⟩
  | cons p ps ihps =>
    intro c hu hw hsub hps
    obtain ⟨c1, e1, k1, g1⟩ := ih c p hu hw hsub (hps p (by simp))
    obtain ⟨c2, e2, k2, g2⟩ := ihps c1 (Nat.lt_of_le_of_lt (uncollected_mono site c c1 k1.mono) hu) k1.wf k1.sub
      (fun q hq => hps q (by simp [hq]))
    refine ⟨c2, by simp [List.foldlM_cons, e1, e2], ⟨k2.wf, k2.sub, fun k q h => k2.mono _ _ (k1.mono _ _ h), ?_, ?_⟩, ?_⟩
    · intro k q d r hn hk hd hr
      cases hc1 : c1.get k with
      | some q' =>
        have hq' := k2.mono _ _ hc1
        rw [hk] at hq'; simp at hq'; subst hq'
        obtain ⟨x, hx⟩ := k1.closed k q d r hn hc1 hd hr
        exact ⟨x, k2.mono _ _ hx⟩
      | none => exact k2.closed k q d r hc1 hk hd hr
    · intro k q hn hk
      cases hc1 : c1.get k with
      | some q' =>
        obtain ⟨r, hr, h⟩ := k1.reach k q' hn hc1
        simp at hr; subst hr
        exact ⟨_, by simp, h⟩
      | none =>
        obtain ⟨r, hr, h⟩ := k2.reach k q hc1 hk
        exact ⟨r, by simp at hr ⊢; exact Or.inr hr, h⟩
    · intro q hq
      rcases List.mem_cons.1 hq with rfl | hq
      · exact k2.mono _ _ g1
      · exact g2 q hq

theorem collect_spec (site : SiteG) (hs : SiteOk site) : ∀ (fuel : Nat) (c : Dict Text GNode) (p : GNode),
    uncollected site c < fuel → Dict.Wf c → (∀ k q, c.get k = some q → Dict.get site k = some q) →
    Dict.get site p.key = some p →
    ∃ c', collect site fuel c p = some c' ∧ Collected site [p.key] c c' ∧ c'.get p.key = some p := by
  intro fuel
  induction fuel with
  | zero => intro c p h; omega
  | succ fuel ih =>
    intro c p hu hw hsub hp
    unfold collect
    cases hc : Dict.has c p.key with
    | true =>
      obtain ⟨q, hq⟩ := (has_iff _ _).1 hc
      have hqp := hsub _ _ hq
      rw [hp] at hqp; simp at hqp; subst hqp
      exact ⟨c, by simp, ⟨hw, hsub, fun _ _ h => h, fun k p d q h1 h2 => by rw [h1] at h2; simp at h2,
        fun k p h1 h2 => by rw [h1] at h2; simp at h2⟩, hq⟩
    | false =>
      have hnone : c.get p.key = none := by
        cases h : c.get p.key with
        | none => rfl
        | some q => rw [(has_iff _ _).2 ⟨q, h⟩] at hc; simp at hc
      simp only [Bool.false_eq_true, if_false]
      have hfound : ∀ q, q ∈ (p.deps.filter (·.2)).filterMap (fun d => Dict.get site d.1) ↔
          ∃ d, (d, true) ∈ p.deps ∧ Dict.get site d = some q := by
        intro q
        rw [List.mem_filterMap]
        constructor
        · rintro ⟨⟨d, b⟩, h1, h2⟩
          rw [List.mem_filter] at h1
          simp at h1
          obtain ⟨h1, rfl⟩ := h1
          exact ⟨d, h1, h2⟩
        · rintro ⟨d, h1, h2⟩; exact ⟨(d, true), by simp [List.mem_filter, h1], h2⟩
      have hlt : uncollected site (c.put p.key p) + 1 ≤ uncollected site c := by
        unfold uncollected
        refine sum_filter_lt _ (fun _ => 1) _ _ p ((values_get site hs p).2 hp) (by simp [hc]) ?_ ?_
        · have : Dict.has (c.put p.key p) p.key = true := (has_iff _ _).2 ⟨p, by simp [Dict.get_put]⟩
          simp [this]
        · intro y hy
          cases hcy : Dict.has c y.key with
          | false => rfl
          | true =>
            obtain ⟨q, hq⟩ := (has_iff _ _).1 hcy
            have : Dict.has (c.put p.key p) y.key = true := by
              rw [has_iff]
              by_cases e : p.key = y.key
              · exact ⟨p, by simp [Dict.get_put, e]⟩
              · exact ⟨q, by simp [Dict.get_put, e, hq]⟩
            rw [this] at hy; simp at hy
      obtain ⟨c', e, k, g⟩ := collect_fold site fuel ih
        ((p.deps.filter (·.2)).filterMap (fun d => Dict.get site d.1)) (c.put p.key p) (by omega)
        (Dict.wf_put _ _ _ hw)
        (by
          intro k q hk
          rw [Dict.get_put] at hk
          split at hk
          · rename_i hkk; simp at hk; subst hk; rw [← hkk]; exact hp
          · exact hsub _ _ hk)
        (by
          intro q hq
          obtain ⟨d, _, h2⟩ := (hfound q).1 hq
          rw [hs.2 _ _ h2]; exact h2)
      have hpc' : c'.get p.key = some p := k.mono _ _ (by simp [Dict.get_put])
      refine ⟨c', e, ⟨k.wf, k.sub, ?_, ?_, ?_⟩, hpc'⟩
      · intro j q hj
        apply k.mono
        rw [Dict.get_put]
        split
        · rename_i hh; subst hh; rw [hnone] at hj; simp at hj
        · exact hj
      · intro j q d r hn hj hd hr
        by_cases hjp : p.key = j
        · subst hjp
          rw [hpc'] at hj; simp at hj; subst hj
          have hr' := g r ((hfound r).2 ⟨d, hd, hr⟩)
          rw [hs.2 _ _ hr] at hr'
          exact ⟨r, hr'⟩
        · exact k.closed j q d r (by simp [Dict.get_put, hjp, hn]) hj hd hr
      · intro j q hn hj
        refine ⟨p.key, by simp, ?_⟩
        by_cases hjp : p.key = j
        · subst hjp; exact .root
        · obtain ⟨r, hr, h⟩ := k.reach j q (by simp [Dict.get_put, hjp, hn]) hj
          obtain ⟨x, hx, rfl⟩ := List.mem_map.1 hr
          obtain ⟨d, h1, h2⟩ := (hfound x).1 hx
          have hxk := hs.2 _ _ h2
          rw [hxk] at h
          exact reached_trans site _ _ _ (.dependency .root hp h1 h2) h

end Install

/-- C23: `installation_tree_of` stops on every dependency graph and returns exactly the installed
packages that can be reached from the given one through installed and applicable dependencies, each
once; nothing if the package is not installed. -/
theorem installation_tree_exact (site : SiteG) (hs : SiteOk site) (root : Text) :
    ∃ tree, installationTree site root = some tree ∧ (tree.map GNode.key).Nodup ∧
      ∀ p, p ∈ tree ↔ (∃ r, Dict.get site root = some r) ∧ Dict.get site p.key = some p ∧
        ReachedFrom site root p.key := by
  unfold installationTree
  cases hr : Dict.get site root with
  | none => exact ⟨[], rfl, by simp, by simp⟩
  | some r =>
    have hk := hs.2 _ _ hr
    have hr' : Dict.get site r.key = some r := by rw [hk]; exact hr
    obtain ⟨c, e, k, g⟩ := collect_spec site hs (site.length + 1) [] r (by
      unfold uncollected
      have h1 := List.length_filter_le (fun p : GNode => !Dict.has ([] : Dict Text GNode) p.key) (Dict.values site)
      have h2 : ∀ l : List GNode, (l.map (fun _ => 1)).sum = l.length := by
        intro l
        induction l with
        | nil => rfl
        | cons x l ih => simp [ih]; omega
      rw [h2]
      have h3 : (Dict.values site).length = site.length := by simp [Dict.values]
      omega) (by simp [Dict.Wf, Dict.keys]) (by simp [Dict.get]) hr'
    have hsc : SiteOk c := ⟨k.wf, fun j p hj => hs.2 _ _ (k.sub _ _ hj)⟩
    refine ⟨Dict.values c, by simp [e], values_keys_nodup c hsc, ?_⟩
    intro p
    rw [values_get c hsc]
    constructor
    · intro h
      refine ⟨⟨r, rfl⟩, k.sub _ _ h, ?_⟩
      obtain ⟨x, hx, hreach⟩ := k.reach _ _ rfl h
      simp at hx; subst hx
      rw [hk] at hreach
      exact hreach
    · rintro ⟨_, hp, hreach⟩
      have : ∀ j, ReachedFrom site root j → ∃ q, c.get j = some q := by
        intro j hj
        induction hj with
        | root => exact ⟨r, by rw [← hk]; exact g⟩
        | dependency _ h1 h2 h3 ih =>
          obtain ⟨q, hq⟩ := ih
          have := k.sub _ _ hq
          rw [h1] at this; simp at this; subst this
          exact k.closed _ _ _ _ rfl hq h2 h3
      obtain ⟨q, hq⟩ := this _ hreach
      have := k.sub _ _ hq
      rw [hp] at this; simp at this; subst this
      exact hq

section
private def t (c : Char) : Text := [c]
/-- a (requested) needs b, b and c need each other, d and e need each other, d needs an absent package. -/
private def siteEx : SiteG :=
  [(t 'a', ⟨t 'a', true, [(t 'b', true), (t 'x', true)]⟩), (t 'b', ⟨t 'b', false, [(t 'c', false)]⟩),
   (t 'c', ⟨t 'c', false, [(t 'b', true)]⟩), (t 'd', ⟨t 'd', false, [(t 'e', true), (t 'y', true)]⟩),
   (t 'e', ⟨t 'e', false, [(t 'd', true)]⟩)]

example : SiteOk siteEx := by
  refine ⟨by unfold Dict.Wf; decide, ?_⟩
  intro k p h
  have := Dict.get_mem _ _ _ h
  simp [siteEx] at this
  rcases this with ⟨rfl, rfl⟩ | ⟨rfl, rfl⟩ | ⟨rfl, rfl⟩ | ⟨rfl, rfl⟩ | ⟨rfl, rfl⟩ <;> rfl

example : (findOrphans siteEx).map (List.map GNode.key) = some [t 'd', t 'e'] := by decide
/-- The dependency of b on c does not apply to this environment: c is in no tree of a, but is no orphan. -/
example : (installationTree siteEx (t 'a')).map (List.map GNode.key) = some [t 'a', t 'b'] := by decide
end

end Pkm
