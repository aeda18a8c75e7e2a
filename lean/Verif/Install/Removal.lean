import Verif.Install.Props
set_option linter.unusedVariables false
set_option linter.unusedSimpArgs false
set_option linter.unusedSectionVars false
/-
Property C53: `uninstall(names)`.
-/
namespace Pkm
open Install

variable {D : Type} [DecidableEq D]

namespace Spec

/-- The user requests that remain when the packages with the given names are taken out, in the order of
the installed packages. -/
def remainingRequests (nameOf : Text → Text) (installed : List (Inst D)) (remove : List Text) : List D :=
  (installed.filter (fun i => decide (nameOf i.key ∉ remove))).filterMap (fun i => i.request)

end Spec
open Spec

namespace Install

theorem put_new {K V : Type} [DecidableEq K] (d : Dict K V) (k : K) (v : V) (h : k ∉ Dict.keys d) :
    Dict.put d k v = d ++ [(k, v)] := by
  induction d with
  | nil => rfl
  | cons e d ih =>
    obtain ⟨a, w⟩ := e
    simp [Dict.keys] at h
    have h1 : ¬ a = k := fun e => h.1 e.symm
    simp only [Dict.put, h1, if_false, List.cons_append]
    rw [ih (by simpa [Dict.keys] using h.2)]

theorem requestedDeps_eq (nameOf : Text → Text) (installed : List (Inst D))
    (hn : (installed.map (fun i => nameOf i.key)).Nodup) :
    requestedDeps nameOf installed =
      installed.filterMap (fun i => i.request.map (fun r => (nameOf i.key, r))) := by
  unfold requestedDeps
  suffices ∀ (l : List (Inst D)) (d : Dict Text D), (l.map (fun i => nameOf i.key)).Nodup →
      (∀ i ∈ l, nameOf i.key ∉ Dict.keys d) →
      l.foldl (fun d p =>
        match p.request with
        | some r => Dict.put d (nameOf p.key) r
        | none => d) d =
      d ++ l.filterMap (fun i => i.request.map (fun r => (nameOf i.key, r))) by
    exact (this installed [] hn (by simp [Dict.keys])).trans (by simp)
  intro l
  induction l with
  | nil => intro d _ _; simp
  | cons x l ih =>
    intro d hn hd
    rw [List.map_cons, List.nodup_cons] at hn
    rw [List.foldl_cons]
    cases hr : x.request with
    | none =>
      refine (ih d hn.2 (fun i hi => hd i (by simp [hi]))).trans ?_
      simp [List.filterMap_cons, hr]
    | some r =>
      refine (ih (Dict.put d (nameOf x.key) r) hn.2 ?_).trans ?_
      · intro i hi
        rw [Dict.keys_put, if_neg (hd x (by simp))]
        intro hm
        rcases List.mem_append.1 hm with hm | hm
        · exact hd i (by simp [hi]) hm
        · simp at hm
          exact hn.1 (List.mem_map.2 ⟨i, hi, hm⟩)
      · rw [put_new _ _ _ (hd x (by simp))]
        simp [List.filterMap_cons, hr]

theorem foldl_del (remove : List Text) : ∀ (d : Dict Text D),
    remove.foldl Dict.del d = d.filter (fun e => decide (e.1 ∉ remove)) := by
  induction remove with
  | nil => intro d; simp only [List.foldl_nil]; symm; rw [List.filter_eq_self]; simp
  | cons x remove ih =>
    intro d
    rw [List.foldl_cons, ih, Dict.del_eq_filter, List.filter_filter]
    apply List.filter_congr
    intro e _
    simp [Bool.and_comm]

theorem remaining_eq (nameOf : Text → Text) (installed : List (Inst D)) (remove : List Text)
    (hn : (installed.map (fun i => nameOf i.key)).Nodup) :
    Dict.values (remove.foldl Dict.del (requestedDeps nameOf installed)) =
      remainingRequests nameOf installed remove := by
  rw [requestedDeps_eq nameOf installed hn, foldl_del]
  unfold Dict.values remainingRequests
  clear hn
  induction installed with
  | nil => rfl
  | cons x l ih =>
    cases hr : x.request <;> by_cases hx : nameOf x.key ∈ remove <;>
      simp [List.filterMap_cons, List.filter_cons, hr, hx] <;> simpa using ih

theorem unmark_fold (normal nameOf : Text → Text) (kept : List Text) : ∀ (remove : List Text) (site : Dict Text (Inst D)),
    (∀ k ∈ kept, normal (nameOf k) = k ∧ ∃ i, site.get k = some i) →
    ∃ site', remove.foldlM (unmark normal (kept.map nameOf)) site = some site' ∧
      ∀ k, site'.get k = if k ∈ kept ∧ nameOf k ∈ remove then (site.get k).map (fun i => { i with request := none })
        else site.get k := by
  intro remove
  induction remove with
  | nil => intro site _; exact ⟨site, rfl, by simp⟩
  | cons n remove ih =>
    intro site hk
    by_cases hn : n ∈ kept.map nameOf
    · obtain ⟨k, hkk, rfl⟩ := List.mem_map.1 hn
      obtain ⟨e, i, hi⟩ := hk k hkk
      have hstep : unmark normal (kept.map nameOf) site (nameOf k) = some (Dict.put site k { i with request := none }) := by
        unfold unmark
        rw [if_pos (by simpa using ⟨k, hkk, rfl⟩), e, hi]
      obtain ⟨site', h1, h2⟩ := ih (Dict.put site k { i with request := none }) (by
        intro j hj
        refine ⟨(hk j hj).1, ?_⟩
        rw [Dict.get_put]
        split
        · exact ⟨_, rfl⟩
        · exact (hk j hj).2)
      refine ⟨site', by rw [List.foldlM_cons, hstep]; exact h1, ?_⟩
      intro j
      rw [h2, Dict.get_put]
      by_cases hj : k = j
      · subst hj
        simp [hkk, hi]
      · by_cases hjk : j ∈ kept
        · have : nameOf j ≠ nameOf k := by
            intro e'
            have := (hk j hjk).1
            rw [e', e] at this
            exact hj this
          simp [hj, this, hjk]
        · simp [hj, hjk]
    · have hstep : unmark normal (kept.map nameOf) site n = some site := by
        unfold unmark
        rw [if_neg (by simpa using hn)]
      obtain ⟨site', h1, h2⟩ := ih site hk
      refine ⟨site', by rw [List.foldlM_cons, hstep]; exact h1, ?_⟩
      intro j
      rw [h2]
      by_cases hjk : j ∈ kept
      · have : nameOf j ≠ n := fun e => hn (List.mem_map.2 ⟨j, hjk, e⟩)
        simp [this]
      · simp [hjk]

theorem planned_kept (before : Dict Text (Inst D)) (hko : ∀ k i, before.get k = some i → i.key = k)
    (kept : List Text) (k : Text) :
    planned (kept.filterMap (fun k => (Dict.get before k).map Pkg.installed)) k =
      if k ∈ kept then (before.get k).map Pkg.installed else none := by
  unfold planned
  have hf : (kept.filterMap (fun k => (Dict.get before k).map Pkg.installed)).filter
      (fun p => !p.isUserRequest && decide (p.key = k)) =
      (kept.filter (fun j => decide (j = k))).filterMap (fun k => (Dict.get before k).map Pkg.installed) := by
    induction kept with
    | nil => rfl
    | cons j kept ih =>
      cases hj : Dict.get before j with
      | none =>
        by_cases e : j = k <;> simp [List.filterMap_cons, List.filter_cons, hj, e] <;> try simpa using ih
        subst e; simp [hj]; simpa using ih
      | some i =>
        have := hko j i hj
        by_cases e : j = k
        · subst e
          have h1 : (Pkg.installed i).key = j := this
          have h2 : (Pkg.installed i).isUserRequest = false := rfl
          simp [List.filterMap_cons, List.filter_cons, hj, h1, h2]; simpa using ih
        · have h1 : ¬ (Pkg.installed i).key = k := by intro h; exact e (this.symm.trans h)
          simp [List.filterMap_cons, List.filter_cons, hj, e, h1]; simpa using ih
  rw [hf]
  have hrep : kept.filter (fun j => decide (j = k)) = List.replicate (kept.count k) k := by
    rw [← List.filter_beq]
    apply List.filter_congr
    intro x _
    by_cases e : x = k <;> simp [e]
  rw [hrep]
  by_cases hk : k ∈ kept
  · obtain ⟨n, hn⟩ : ∃ n, kept.count k = n + 1 := by
      have := List.count_pos_iff.2 hk
      exact ⟨kept.count k - 1, by omega⟩
    rw [hn, if_pos hk, List.replicate_succ']
    cases hb : Dict.get before k <;> simp [List.filterMap_append, List.filterMap_cons, hb]
  · rw [if_neg hk, List.count_eq_zero_of_not_mem hk]; rfl

end Install

/-! ## C53 -/

/-- C53: whatever `kept` the resolver answers for the remaining user requests, `uninstall` succeeds and
leaves exactly the packages of `kept`, unchanged except that the packages given by name lose their user
request; it returns exactly the given names that no kept package has. -/
theorem uninstall_keeps (resolve : List D → Option (List Text)) (nameOf normal : Text → Text)
    (auto : Text → StoreMode) (installed : List (Inst D)) (remove kept : List Text)
    (hk : (installed.map Inst.key).Nodup)
    (hname : ∀ i ∈ installed, normal (nameOf i.key) = i.key)
    (hres : resolve (remainingRequests nameOf installed remove) = some kept)
    (hin : ∀ k ∈ kept, ∃ i ∈ installed, i.key = k) :
    ∃ site removed, uninstall resolve nameOf normal auto installed remove = some (site, removed) ∧
      (∀ k, k ∉ kept → site.get k = none) ∧
      (∀ i ∈ installed, i.key ∈ kept →
        site.get i.key = some (if nameOf i.key ∈ remove then { i with request := none } else i)) ∧
      (∀ n, n ∈ removed ↔ n ∈ remove ∧ ∀ k ∈ kept, nameOf k ≠ n) := by
  have hn : (installed.map (fun i => nameOf i.key)).Nodup := by
    have : (installed.map (fun i => normal (nameOf i.key))).Nodup := by
      rw [show installed.map (fun i => normal (nameOf i.key)) = installed.map Inst.key from
        List.map_congr_left hname]
      exact hk
    rw [show (fun i : Inst D => normal (nameOf i.key)) = normal ∘ (fun i => nameOf i.key) from rfl,
      ← List.map_map] at this
    rw [List.nodup_iff_pairwise_ne] at this ⊢
    rw [List.pairwise_map] at this
    exact this.imp (fun h e => h (by rw [e]))
  have hget : ∀ i ∈ installed, (dictBy Inst.key installed).get i.key = some i := fun i hi =>
    dictBy_get_nodup _ _ hk i hi
  have hko : ∀ k i, (dictBy Inst.key installed).get k = some i → i.key = k := fun k i h =>
    (dictBy_get_key _ _ _ _ h).1
  have hpl := planned_kept (dictBy Inst.key installed) hko kept
  generalize hplan : (⟨kept.filterMap (fun k => (Dict.get (dictBy Inst.key installed) k).map Pkg.installed), [], []⟩ : Plan D) = plan
  have hpk : plan.packages = kept.filterMap (fun k => (Dict.get (dictBy Inst.key installed) k).map Pkg.installed) := by
    rw [← hplan]
  have hr0 : plan.requests = [] := by rw [← hplan]
  have hs0 : plan.storeModes = [] := by rw [← hplan]
  rw [← hpk] at hpl
  have hinst : ∀ i, Pkg.installed i ∈ plan.packages → (dictBy Inst.key installed).get i.key = some i := by
    intro i hi
    rw [hpk, List.mem_filterMap] at hi
    obtain ⟨k, _, h⟩ := hi
    cases hb : Dict.get (dictBy Inst.key installed) k with
    | none => rw [hb] at h; simp at h
    | some j =>
      rw [hb] at h; simp at h; subst h
      rw [hko _ _ hb]; exact hb
  obtain ⟨site, hrun, h1, h2⟩ := run_any_order auto plan installed hinst _ (List.Perm.refl _)
  have hsite : ∀ i ∈ installed, i.key ∈ kept → site.get i.key = some i := by
    intro i hi hik
    obtain ⟨site2, e, h⟩ := plan_keeps_untouched auto plan installed hinst _ (List.Perm.refl _) i (.installed i)
      (hget i hi) (by rw [hpl, if_pos hik, hget i hi]; rfl) (version_eq_equivalence.1 _)
      (by intro m hm; rw [hs0] at hm; simp [Dict.get] at hm) (by intro m hm; rw [hr0] at hm; simp [Dict.get] at hm)
    rw [hrun] at e; simp at e; subst e
    exact h
  have hnone : ∀ k, k ∉ kept → site.get k = none := fun k hkk => h2 k (by rw [hpl, if_neg hkk])
  obtain ⟨site', hu, hu'⟩ := unmark_fold normal nameOf kept remove site (by
    intro k hkk
    obtain ⟨i, hi, rfl⟩ := hin k hkk
    exact ⟨hname i hi, i, hsite i hi hkk⟩)
  refine ⟨site', remove.filter (fun p => !(kept.map nameOf).contains p), ?_, ?_, ?_, ?_⟩
  · unfold uninstall
    dsimp only
    rw [remaining_eq nameOf installed remove hn, hres]
    dsimp only
    rw [hplan, hrun]
    dsimp only
    rw [hu]
  · intro k hkk
    rw [hu', hnone k hkk]; simp [hkk]
  · intro i hi hik
    rw [hu', hsite i hi hik]
    by_cases hr : nameOf i.key ∈ remove <;> simp [hik, hr]
  · intro n
    rw [List.mem_filter]
    simp

/-- C53 (restricted to names that are written as the installed packages write them): the returned names
are exactly the given ones whose package is gone. -/
theorem uninstall_reports_partial (resolve : List D → Option (List Text)) (nameOf normal : Text → Text)
    (auto : Text → StoreMode) (installed : List (Inst D)) (remove kept : List Text)
    (hk : (installed.map Inst.key).Nodup)
    (hname : ∀ i ∈ installed, normal (nameOf i.key) = i.key)
    (hres : resolve (remainingRequests nameOf installed remove) = some kept)
    (hin : ∀ k ∈ kept, ∃ i ∈ installed, i.key = k)
    (hrem : ∀ n ∈ remove, ∃ i ∈ installed, nameOf i.key = n) :
    ∃ site removed, uninstall resolve nameOf normal auto installed remove = some (site, removed) ∧
      ∀ n ∈ remove, n ∈ removed ↔ site.get (normal n) = none := by
  obtain ⟨site, removed, h, h1, h2, h3⟩ := uninstall_keeps resolve nameOf normal auto installed remove kept hk hname hres hin
  refine ⟨site, removed, h, ?_⟩
  intro n hnr
  obtain ⟨i, hi, rfl⟩ := hrem n hnr
  rw [hname i hi, h3]
  by_cases hik : i.key ∈ kept
  · rw [h2 i hi hik]
    simp only [hnr, true_and, reduceCtorEq, iff_false]
    intro h; exact h _ hik rfl
  · rw [h1 _ hik]
    simp only [hnr, true_and, iff_true]
    intro k hkk e
    obtain ⟨j, hj, rfl⟩ := hin k hkk
    have h1 := hname j hj
    rw [e, hname i hi] at h1
    rw [h1] at hik
    exact hik hkk

section
private def v1 : Ver := .std ⟨[1], Option.none, Option.none, Option.none, Option.none, Option.none⟩
private def ka : Text := "a_b".toList
private def nA : Text := "A-b".toList
private def kc : Text := "c".toList
private def kd : Text := "d".toList
/-- `A-b` and `c` were requested, `c` needs `d`. -/
private def inst : List (Inst Nat) := [⟨ka, v1, .copy, some 0⟩, ⟨kc, v1, .copy, some 1⟩, ⟨kd, v1, .copy, Option.none⟩]
private def nameOf (k : Text) : Text := if k = ka then nA else k
private def normal (n : Text) : Text := n.map (fun c => if c = '-' then '_' else if c = 'A' then 'a' else c)
/-- What the resolver selects out of the installed packages. -/
private def res (l : List Nat) : Option (List Text) :=
  some ((if 0 ∈ l then [ka] else []) ++ (if 1 ∈ l then [kc, kd] else []))

example : (inst.map Inst.key).Nodup ∧ (∀ i ∈ inst, normal (nameOf i.key) = i.key) ∧
    res (remainingRequests nameOf inst [kc]) = some [ka] := by decide
example : uninstall res nameOf normal (fun _ => .copy) inst [nA] =
    some ([(kc, ⟨kc, v1, .copy, some 1⟩), (kd, ⟨kd, v1, .copy, Option.none⟩)], [nA]) := by decide
example : uninstall res nameOf normal (fun _ => .copy) inst [kd] = some (dictBy Inst.key inst, []) := by decide

/-- C53 fails: the installed package `A-b` asked for under the equivalent name `a-b` stays installed
(and requested), and is reported as removed. -/
theorem uninstall_violated : normal "a-b".toList = ka ∧
    uninstall res nameOf normal (fun _ => .copy) inst ["a-b".toList] =
      some (dictBy Inst.key inst, ["a-b".toList]) := by decide
end

end Pkm
