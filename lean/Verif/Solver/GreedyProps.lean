import Verif.Solver.GreedySpecifiers
import Verif.Solver.SearchProps
set_option linter.unusedVariables false
set_option linter.unusedSimpArgs false
/-
C59: the solver finds the preferred versions if they are compatible.
-/
namespace Pkm
open Solver Spec

variable {P : Type} [DecidableEq P]

namespace Spec

/-- `u` is before `v` in the list. -/
def Before (vs : List Ver) (u v : Ver) : Prop := ∃ a b c, vs = a ++ u :: b ++ v :: c

/-- The versions `sel` of the packages `R` can be found without taking back a decision: they include the root at its first
version and all their dependencies, whose constraints are `==v`, `*` or a range with final ends; every dependency allows
the selected version, and rejects the versions that are offered before it (or these are malformed), unless the dependency
is shared by a package through which every way from the root to the dependant leads. The offered
versions are different standard versions without local label and none is a post release. -/
structure Preferred (prob : Problem P Ver VSpec) (R : List P) (sel : P → Ver) : Prop where
  root : prob.root ∈ R
  first : (prob.versions prob.root).head? = some (sel prob.root)
  offered : ∀ p ∈ R, sel p ∈ prob.versions p
  standard : ∀ p ∈ R, ∀ v ∈ prob.versions p, Offered v
  distinct : ∀ p ∈ R, (prob.versions p).Pairwise (fun a b => a.eqv b = false)
  deps : ∀ p ∈ R, ∃ ds, prob.deps p (sel p) = some ds ∧ ∀ q c, (q, c) ∈ ds →
    q ∈ R ∧ Wanted c ∧ c.allows (sel q) = true ∧
      ((∀ u, Before (prob.versions q) u (sel q) → c.allows u = false ∨ prob.deps q u = none) ∨
        ∃ d, Dominates prob sel d p ∧ DependsOn prob d (sel d) q)

end Spec

namespace Greedy

/-! ### The versions of a package and their ranges -/

theorem insertBy_congr {α} {le le' : α → α → Bool} (x : α) : ∀ (l : List α), (∀ y ∈ l, le x y = le' x y) →
    insertBy le x l = insertBy le' x l := by
  intro l
  induction l with
  | nil => intro _; rfl
  | cons y ys ih =>
    intro h
    simp only [insertBy, h y (by simp), ih (fun z hz => h z (by simp [hz]))]

theorem sortBy_congr {α} {le le' : α → α → Bool} : ∀ (l : List α), (∀ x ∈ l, ∀ y ∈ l, le x y = le' x y) →
    sortBy le l = sortBy le' l := by
  intro l
  induction l with
  | nil => intro _; rfl
  | cons x xs ih =>
    intro h
    have e := ih (fun a ha b hb => h a (by simp [ha]) b (by simp [hb]))
    simp only [sortBy, List.foldr_cons] at e ⊢
    rw [e]
    refine insertBy_congr x _ (fun y hy => h x (by simp) y ?_)
    exact List.mem_cons_of_mem _ ((sortBy_perm le' xs).mem_iff.1 hy)

/-- The version as a standard version. -/
def svOf : Ver → SV
  | .std s => s
  | _ => ⟨[0], none, none, none, none, none⟩

theorem sorted_strict {vs : List Ver} (hs : ∀ v ∈ vs, Offered v) (hd : vs.Pairwise (fun a b => a.eqv b = false)) :
    (sortBy (fun (a b : Nat × Ver) => !b.2.lt a.2) (vs.zipIdx.map (fun e => (e.2, e.1)))).Pairwise (fun a b => a.2.lt b.2 = true) := by
  obtain ⟨f, hf⟩ := ranks (vs.map svOf) (by
    intro v hv
    obtain ⟨w, h1, rfl⟩ := List.mem_map.1 hv
    obtain ⟨s, rfl, h2⟩ := hs w h1
    exact h2.1)
  have key : ∀ a ∈ vs, ∀ b ∈ vs, a.lt b = decide (f (svOf a) < f (svOf b)) ∧ a.eqv b = decide (f (svOf a) = f (svOf b)) := by
    intro a ha b hb
    have := hf (svOf a) (svOf b) (List.mem_map.2 ⟨a, ha, rfl⟩) (List.mem_map.2 ⟨b, hb, rfl⟩)
    obtain ⟨s, rfl, _⟩ := hs a ha
    obtain ⟨t, rfl, _⟩ := hs b hb
    exact this
  generalize hi : vs.zipIdx.map (fun e => (e.2, e.1)) = indexed
  have hmap : indexed.map (·.2) = vs := by rw [← hi, List.map_map]; simp [Function.comp_def]
  have hin : ∀ e ∈ indexed, e.2 ∈ vs := by intro e he; rw [← hmap]; exact List.mem_map.2 ⟨e, he, rfl⟩
  have hsort : sortBy (fun (a b : Nat × Ver) => !b.2.lt a.2) indexed =
      sortBy (fun (a b : Nat × Ver) => decide (f (svOf a.2) ≤ f (svOf b.2))) indexed := by
    refine sortBy_congr _ (fun x hx y hy => ?_)
    rw [(key y.2 (hin y hy) x.2 (hin x hx)).1]
    by_cases h : f (svOf x.2) ≤ f (svOf y.2)
    · simp [h]
    · simp [h]
      omega
  rw [hsort]
  have hsorted := sortBy_sorted (fun (a b : Nat × Ver) => decide (f (svOf a.2) ≤ f (svOf b.2)))
    (by intro a b; simp; omega) (by intro a b c; simp; omega) indexed
  have hperm := sortBy_perm (fun (a b : Nat × Ver) => decide (f (svOf a.2) ≤ f (svOf b.2))) indexed
  have hne : (sortBy (fun (a b : Nat × Ver) => decide (f (svOf a.2) ≤ f (svOf b.2))) indexed).Pairwise
      (fun a b => f (svOf a.2) ≠ f (svOf b.2)) := by
    refine (hperm.pairwise_iff (fun {x y} h => Ne.symm h)).2 ?_
    have h1 : (indexed.map (·.2)).Pairwise (fun a b => a.eqv b = false) := by rw [hmap]; exact hd
    have h2 := List.pairwise_map.1 h1
    refine List.Pairwise.imp_of_mem ?_ h2
    intro a b ha hb h
    rw [(key a.2 (hin a ha) b.2 (hin b hb)).2] at h
    simpa using h
  refine List.Pairwise.imp_of_mem ?_ (hsorted.and hne)
  rintro a b ha hb ⟨h1, h2⟩
  rw [(key a.2 (hin a (hperm.mem_iff.1 ha)) b.2 (hin b (hperm.mem_iff.1 hb))).1]
  simp at h1 ⊢
  omega

theorem mapM_map {α β γ : Type} {f : α → Except Solver.Err β} (g : β → γ) (k : α → γ) (h : ∀ a b, f a = .ok b → g b = k a) :
    ∀ (l : List α) (r : List β), l.mapM f = .ok r → r.map g = l.map k := by
  intro l
  induction l with
  | nil => intro r hr; simp [pure, Except.pure] at hr; subst hr; rfl
  | cons a l ih =>
    intro r hr
    rw [List.mapM_cons] at hr
    obtain ⟨b, h1, h2⟩ := bind_ok hr
    obtain ⟨bs, h3, h4⟩ := bind_ok h2
    have := pure_ok h4
    subst this
    simp [h a b h1, ih bs h3]

theorem range_of {lo : Option SV} {v : SV} (hv : Candidate v) (hlo : ∀ l, lo = some l → Plain l ∧ l.lt v = true) :
    (∃ r, VSpec.createRange lo Option.none false false = .ok r ∧ Block r ∧ r.allows (.std v) = true) ∧
    (∃ r, VSpec.createRange lo (some v) false true = .ok r ∧ Block r ∧ r.allows (.std v) = true) := by
  constructor
  · obtain ⟨r, h1, h2, h3⟩ := VSpec.createRange_spec lo Option.none false false (fun s hs => (hlo s hs).1) (by simp) (by simp) (by simp)
      (by simp)
    have h4 := (h3 v hv).2 ⟨fun x hx => .inl (hlo x hx).2, by intro x hx; simp at hx⟩
    rcases h2 with rfl | h2
    · simp [VSpec.allows] at h4
    · exact ⟨r, h1, h2, h4⟩
  · obtain ⟨r, h1, h2, h3⟩ := VSpec.createRange_spec lo (some v) false true (fun s hs => (hlo s hs).1)
      (by intro s hs; simp at hs; subst hs; exact hv.1) (by simp) (by simp)
      (by intro a b ha hb; simp at hb; subst hb; exact .inl (hlo a ha).2)
    have h4 := (h3 v hv).2 ⟨fun x hx => .inl (hlo x hx).2, by
      intro x hx; simp at hx; subst hx; exact .inr ⟨rfl, SV.eqv_stage.refl v⟩⟩
    rcases h2 with rfl | h2
    · simp [VSpec.allows] at h4
    · exact ⟨r, h1, h2, h4⟩

theorem packageVersions_wanted {prob : Problem P Ver VSpec} {p : P} (hs : ∀ v ∈ prob.versions p, Offered v)
    (hd : (prob.versions p).Pairwise (fun a b => a.eqv b = false)) :
    ∃ pvs, packageVersions specifiers prob p = .ok pvs ∧ pvs.map (·.version) = prob.versions p ∧
      ∀ pv ∈ pvs, pv.index ≠ none ∧ Block pv.range ∧ specifiers.allows pv.range pv.version = true ∧ pv.next ≠ pv.index := by
  have hst := sorted_strict hs hd
  have hperm := sortBy_perm (fun (a b : Nat × Ver) => !b.2.lt a.2) ((prob.versions p).zipIdx.map (fun e => (e.2, e.1)))
  have hlt : (fun (a b : Nat × Ver) => !specifiers.lt b.2 a.2) = (fun (a b : Nat × Ver) => !b.2.lt a.2) := rfl
  unfold packageVersions
  simp only
  rw [hlt]
  generalize hsd : sortBy (fun (a b : Nat × Ver) => !b.2.lt a.2) ((prob.versions p).zipIdx.map (fun e => (e.2, e.1))) = sorted at *
  have hget : ∀ e, e ∈ sorted ↔ (prob.versions p)[e.1]? = some e.2 := by
    intro e
    rw [hperm.mem_iff, List.mem_map]
    constructor
    · rintro ⟨⟨v, k⟩, h1, rfl⟩
      rw [List.mem_zipIdx_iff_getElem?] at h1
      simpa using h1
    · intro h1
      refine ⟨(e.2, e.1), ?_, rfl⟩
      rw [List.mem_zipIdx_iff_getElem?]
      simpa using h1
  have mono : ∀ i j (hi : i < sorted.length) (hj : j < sorted.length), i < j → (sorted[i]).2.lt (sorted[j]).2 = true :=
    fun i j hi hj hij => List.pairwise_iff_getElem.1 hst i j hi hj hij
  have hoff : ∀ e ∈ sorted, Offered e.2 := fun e he => hs _ (List.mem_of_getElem? ((hget e).1 he))
  have hat : ∀ e ∈ sorted, ∃ hk : sorted.findIdx (fun x => x.1 == e.1) < sorted.length,
      sorted[sorted.findIdx (fun x => x.1 == e.1)] = e := by
    intro e he
    have hfind : sorted.findIdx (fun x => x.1 == e.1) < sorted.length := List.findIdx_lt_length_of_exists ⟨e, he, by simp⟩
    have h1 : ((sorted[sorted.findIdx (fun x => x.1 == e.1)]'hfind).1 == e.1) = true :=
      List.findIdx_getElem (xs := sorted) (p := fun x => x.1 == e.1) (w := hfind)
    refine ⟨hfind, ?_⟩
    generalize hk : sorted.findIdx (fun x => x.1 == e.1) = k at hfind h1
    have h5 := (hget sorted[k]).1 (List.getElem_mem hfind)
    have h6 : sorted[k].1 = e.1 := by simpa using h1
    rw [h6, (hget e).1 he] at h5
    simp at h5
    exact Prod.ext h6 h5.symm
  have hrange : ∀ e ∈ sorted, ∃ r, effectiveRange specifiers sorted (sorted.findIdx (fun x => x.1 == e.1)) e.2 = .ok r ∧
      Block r ∧ r.allows e.2 = true := by
    intro e he
    obtain ⟨hk, hek⟩ := hat e he
    generalize sorted.findIdx (fun x => x.1 == e.1) = k at hk hek
    obtain ⟨v, hv, hcv⟩ := hoff e he
    unfold effectiveRange
    split
    · exact ⟨.all, rfl, .all, rfl⟩
    · simp only
      have hprev : ∀ l, stdOf (if k = 0 then none else (sorted[k - 1]?).map (·.2)) = some l → Plain l ∧ l.lt v = true := by
        intro l hl
        split at hl
        · simp [stdOf] at hl
        · rw [List.getElem?_eq_getElem (by omega)] at hl
          have hm := mono (k - 1) k (by omega) hk (by omega)
          obtain ⟨u, hu, hcu⟩ := hoff _ (List.getElem_mem (show k - 1 < sorted.length by omega))
          simp [hu, stdOf] at hl
          subst hl
          rw [hek, hv, hu] at hm
          exact ⟨hcu.1, hm⟩
      obtain ⟨⟨r1, a1, a2, a3⟩, ⟨r2, b1, b2, b3⟩⟩ := range_of hcv hprev
      split
      · exact ⟨r1, by simp only [specifiers, stdOf] at a1 ⊢; simp only [a1, liftSpec], a2, by rw [hv]; exact a3⟩
      · exact ⟨r2, by simp only [specifiers, hv, stdOf] at b1 ⊢; simp only [b1, liftSpec], b2, by rw [hv]; exact b3⟩
  obtain ⟨pvs, hpvs⟩ := mapM_runs (f := fun (e : Nat × Ver) => do
      let r ← effectiveRange specifiers sorted (sorted.findIdx (fun x => x.1 == e.1)) e.2
      pure (⟨some e.1, e.2, r, (sorted[sorted.findIdx (fun x => x.1 == e.1) + 1]?).map (·.1)⟩ : PV Ver VSpec))
    ((prob.versions p).zipIdx.map (fun e => (e.2, e.1))) (by
      intro e he
      obtain ⟨r, h1, _⟩ := hrange e (hperm.mem_iff.2 he)
      exact ⟨_, by simp only [h1, bind, Except.bind, pure, Except.pure]; rfl⟩)
  refine ⟨pvs, hpvs, ?_, ?_⟩
  · have := mapM_map (fun (pv : PV Ver VSpec) => pv.version) (fun (e : Nat × Ver) => e.2) (by
      intro e b hb
      obtain ⟨r, _, h2⟩ := bind_ok hb
      rw [← pure_ok h2]) _ _ hpvs
    rw [this, List.map_map]
    simp [Function.comp_def]
  · intro pv hpv
    obtain ⟨e, h1, h2⟩ := (mapM_ok _ _ hpvs).2 pv hpv
    have he := hperm.mem_iff.2 h1
    obtain ⟨r, h3, h4⟩ := bind_ok h2
    have := pure_ok h4
    subst this
    obtain ⟨r', g1, g2, g3⟩ := hrange e he
    rw [g1] at h3
    simp at h3
    subst h3
    refine ⟨by simp, g2, g3, ?_⟩
    simp only
    obtain ⟨hk, hek⟩ := hat e he
    generalize sorted.findIdx (fun x => x.1 == e.1) = k at hk hek
    intro hn
    have hlt : k + 1 < sorted.length := by
      apply Classical.byContradiction
      intro hn'
      rw [List.getElem?_eq_none (by omega)] at hn
      simp at hn
    rw [List.getElem?_eq_getElem hlt] at hn
    simp at hn
    have hm := mono k (k + 1) hk hlt (by omega)
    have h5 := (hget sorted[k + 1]).1 (List.getElem_mem hlt)
    rw [hn, (hget e).1 he] at h5
    simp at h5
    rw [hek, ← h5] at hm
    obtain ⟨v, hv, _⟩ := hoff e he
    rw [hv] at hm
    have : v.lt v = true := hm
    rw [SV.eqv_stage.irrefl] at this
    simp at this

/-! ### The plan -/

open Classical in
/-- The versions before the selected one. -/
noncomputable def before (prob : Problem P Ver VSpec) (sel : P → Ver) (p : P) : List Ver :=
  if h : sel p ∈ prob.versions p ∧ p ≠ prob.root then Classical.choose (List.append_of_mem h.1) else []

theorem plan_of {prob : Problem P Ver VSpec} {R : List P} {sel : P → Ver} (h : Preferred prob R sel) :
    Plan specifiers prob Wanted Offered Block R sel (before prob sel) := by
  have hsplit : ∀ p ∈ R, ∃ rest, prob.versions p = before prob sel p ++ sel p :: rest := by
    intro p hp
    by_cases hr : p = prob.root
    · subst hr
      have := h.first
      cases hv : prob.versions prob.root with
      | nil => rw [hv] at this; simp at this
      | cons v rest =>
        rw [hv] at this
        simp at this
        exact ⟨rest, by simp [before, this]⟩
    · unfold before
      rw [dif_pos ⟨h.offered p hp, hr⟩]
      exact Classical.choose_spec (List.append_of_mem (h.offered p hp))
  refine ⟨h.root, by simp [before], hsplit, h.standard, ?_, fun p hp => packageVersions_wanted (h.standard p hp) (h.distinct p hp)⟩
  intro p hp
  obtain ⟨ds, h1, h2⟩ := h.deps p hp
  refine ⟨ds, h1, fun q c hq => ?_⟩
  obtain ⟨h3, h4, h5, h6⟩ := h2 q c hq
  refine ⟨h3, h4, h5, h6.imp (fun h6 => fun u hu => h6 u ?_) id⟩
  obtain ⟨rest, h7⟩ := hsplit q h3
  obtain ⟨a, b, hab⟩ := List.append_of_mem hu
  exact ⟨a, b, rest, by rw [h7, hab]⟩

end Greedy

/-! ### C59 -/

/-- C59 where nothing has to be taken back: if the selected versions are compatible and no other version is preferred by a
constraint, then the solver ends with these versions and they solve the problem, whatever the order in which sets
are iterated. Missing: problems with conflicts (false, `resolution_ends_violated`, `resolution_fails_violated`), other
constraints, and post releases (false, `resolution_post_violated`). -/
theorem resolution_found_partial {prob : Problem P Ver VSpec} {R : List P} {sel : P → Ver} (h : Preferred prob R sel)
    (ch : Choices P VSpec) :
    ∃ n, ∀ fuel, n ≤ fuel → ∃ sol, solve specifiers prob ch fuel = .ok sol ∧ Solves specifiers prob sol ∧
      ∀ p v, (p, v) ∈ sol → v = sel p := by
  obtain ⟨n, hn⟩ := plan_runs Greedy.specifiers_adequate (Greedy.plan_of h) ch
  refine ⟨n, fun fuel hf => ?_⟩
  obtain ⟨sol, h1, h2⟩ := hn fuel hf
  refine ⟨sol, h1, ?_, h2⟩
  obtain ⟨⟨v, hv⟩, hc⟩ := resolution_closed_partial h1
  have hR : ∀ p, Reached prob sol p → p ∈ R := by
    intro p hp
    induction hp with
    | root => exact h.root
    | dependency hp hs hd ih =>
      rename_i p q v
      obtain ⟨ds, h3, h4⟩ := h.deps p ih
      have e := h2 p v hs
      subst e
      obtain ⟨ds', h5, h6⟩ := hd
      rw [h3] at h5
      simp at h5
      subst h5
      obtain ⟨⟨q', c⟩, h7, rfl⟩ := List.mem_map.1 h6
      exact (h4 _ c h7).1
  refine ⟨?_, ⟨v, ?_, hv⟩, fun p w hp => (hc p w hp).1, ?_⟩
  · obtain ⟨s0, s, -, -, hi, -, rfl⟩ := solve_search h1
    unfold Dict.Wf Dict.keys St.solution
    rw [List.map_map]
    exact hi.wfD
  · rw [h.first, h2 _ _ hv]
  · intro p w hp
    obtain ⟨-, ds, h3, h4⟩ := hc p w hp
    refine ⟨ds, h3, fun q c hq => ?_⟩
    obtain ⟨x, hx⟩ := h4 q c hq
    refine ⟨x, hx, ?_⟩
    have e := h2 q x hx
    subst e
    have e' := h2 p w hp
    subst e'
    obtain ⟨ds', h5, h6⟩ := h.deps p (hR p (resolution_needed h1 p _ hp))
    rw [h3] at h5
    simp at h5
    subst h5
    exact (h6 q c hq).2.2.1

namespace SolverExample

/-- `<n` -/
def lt (n : Nat) : VSpec := .range none (some (ver n)) false false

/-- The root needs 1, and 2 below version 2; version 2 of 1 needs 3 and `2>=1`, version 1 of 2 needs `3==0`. -/
def tableGreedy : List (List (List (Nat × VSpec))) :=
  [[[(1, .all), (2, lt 2)]], [[], [], [(2, ge 1), (3, lt 1)]], [[], [(3, eq 0)], [(1, eq 0)]], [[], [(2, eq 0)]]]

/-- The selected versions. -/
def selGreedy (p : Nat) : Ver := .std (ver (([0, 2, 1, 0][p]?).getD 0))

theorem ver_bare (n : Nat) : Bare (ver n) := by simp [Bare, Plain, ver]

theorem ge_wanted (n : Nat) : Wanted (ge n) :=
  .range _ _ _ _ (VSpec.from_ok _ _ (ver_bare n).1) (by intro s hs; simp at hs; subst hs; exact ver_bare n) (by simp)

theorem lt_wanted (n : Nat) : Wanted (lt n) :=
  .range _ _ _ _ (VSpec.upto_ok _ _ (ver_bare n).1) (by simp) (by intro s hs; simp at hs; subst hs; exact ver_bare n)

theorem eq_wanted (n : Nat) : Wanted (eq n) := .one _ (Greedy.Bare.candidate (ver_bare n))

theorem before_split {vs : List Ver} {u v : Ver} (h : Before vs u v) (hv : vs.Pairwise (fun a b => a.eqv b = false)) {a c : List Ver}
    (e : vs = a ++ v :: c) : u ∈ a := by
  obtain ⟨x, y, z, hxy⟩ := h
  have hr : v.eqv v = true := by
    cases v <;> simp [Ver.eqv, SV.eqv_stage.refl]
  have hnd : vs.Nodup := hv.imp (by
    intro s t hst e
    subst e
    cases s <;> simp [Ver.eqv, SV.eqv_stage.refl] at hst)
  have hlen : (x ++ u :: y) = a := by
    have h1 : x ++ u :: y ++ v :: z = a ++ v :: c := hxy.symm.trans e
    rcases List.append_eq_append_iff.1 h1 with ⟨w, h2, h3⟩ | ⟨w, h2, h3⟩
    · cases w with
      | nil => simpa using h2.symm
      | cons b w =>
        simp at h3
        obtain ⟨rfl, h4⟩ := h3
        rw [e, h2] at hnd
        simp [List.nodup_append] at hnd
    · cases w with
      | nil => simpa using h2
      | cons b w =>
        simp at h3
        obtain ⟨rfl, h4⟩ := h3
        rw [hxy, h2] at hnd
        simp [List.nodup_append] at hnd
  rw [← hlen]; simp

theorem problem_standard (table : List (List (List (Nat × VSpec)))) (p : Nat) : ∀ v ∈ (problem table).versions p, Offered v := by
  intro v hv
  obtain ⟨n, _, rfl⟩ := List.mem_map.1 hv
  exact ⟨_, rfl, Greedy.Bare.candidate (ver_bare n)⟩

theorem ver_eqv (m n : Nat) : (ver m).eqv (ver n) = true ↔ m = n := by
  constructor
  · intro h
    have := ((SV.eqv_iff _ _).1 h).1.2.1 0
    simpa [relAt, ver] using this
  · rintro rfl; exact SV.eqv_stage.refl _

theorem problem_distinct (table : List (List (List (Nat × VSpec)))) (p : Nat) :
    ((problem table).versions p).Pairwise (fun a b => a.eqv b = false) := by
  refine List.pairwise_map.2 ?_
  rw [List.pairwise_reverse]
  refine (List.pairwise_lt_range).imp ?_
  intro a b h
  cases hx : (Ver.std (ver b)).eqv (Ver.std (ver a)) with
  | false => rfl
  | true => have := (ver_eqv b a).1 hx; omega

theorem greedy_preferred : Preferred (problem tableGreedy) [0, 1, 2, 3] selGreedy where
  root := by decide
  first := rfl
  offered := by decide +kernel
  standard p _ := problem_standard _ p
  distinct p _ := problem_distinct _ p
  deps := by
    have h1 : ∀ u, Before ((problem tableGreedy).versions 1) u (selGreedy 1) → False := by
      intro u hu
      have := before_split hu (problem_distinct _ _) (a := []) (c := [.std (ver 1), .std (ver 0)]) rfl
      simp at this
    have h2 : ∀ u, Before ((problem tableGreedy).versions 2) u (selGreedy 2) → u = .std (ver 2) := by
      intro u hu
      have := before_split hu (problem_distinct _ _) (a := [.std (ver 2)]) (c := [.std (ver 0)]) rfl
      simpa using this
    have h3 : ∀ u, Before ((problem tableGreedy).versions 3) u (selGreedy 3) → u = .std (ver 1) := by
      intro u hu
      have := before_split hu (problem_distinct _ _) (a := [.std (ver 1)]) (c := []) rfl
      simpa using this
    intro p hp
    simp only [List.mem_cons, List.not_mem_nil, or_false] at hp
    rcases hp with rfl | rfl | rfl | rfl
    · refine ⟨[(1, .all), (2, lt 2)], rfl, ?_⟩
      intro q c hq
      simp only [List.mem_cons, List.not_mem_nil, or_false, Prod.mk.injEq] at hq
      rcases hq with ⟨rfl, rfl⟩ | ⟨rfl, rfl⟩
      · exact ⟨by decide, .all, rfl, .inl fun u hu => (h1 u hu).elim⟩
      · exact ⟨by decide, lt_wanted 2, by decide +kernel, .inl fun u hu => by rw [h2 u hu]; left; decide +kernel⟩
    · refine ⟨[(2, ge 1), (3, lt 1)], rfl, ?_⟩
      intro q c hq
      simp only [List.mem_cons, List.not_mem_nil, or_false, Prod.mk.injEq] at hq
      rcases hq with ⟨rfl, rfl⟩ | ⟨rfl, rfl⟩
      · refine ⟨by decide, ge_wanted 1, by decide +kernel, .inr ⟨0, ⟨by decide, ?_⟩, _, rfl, by decide⟩⟩
        intro hav
        have : ∀ x, Avoiding (problem tableGreedy) selGreedy 0 x → False := by
          intro x hx
          induction hx with
          | root h => exact h rfl
          | step _ _ _ ih => exact ih
        exact this _ hav
      · exact ⟨by decide, lt_wanted 1, by decide +kernel, .inl fun u hu => by rw [h3 u hu]; left; decide +kernel⟩
    · refine ⟨[(3, eq 0)], rfl, ?_⟩
      intro q c hq
      simp only [List.mem_cons, List.not_mem_nil, or_false, Prod.mk.injEq] at hq
      obtain ⟨rfl, rfl⟩ := hq
      exact ⟨by decide, eq_wanted 0, by decide +kernel, .inl fun u hu => by rw [h3 u hu]; left; decide +kernel⟩
    · exact ⟨[], rfl, by simp⟩

/-- The solver finds the versions. -/
example (ch : Choices Nat VSpec) : ∃ n, ∀ fuel, n ≤ fuel → ∃ sol, solve specifiers (problem tableGreedy) ch fuel = .ok sol ∧
    Solves specifiers (problem tableGreedy) sol ∧ ∀ p v, (p, v) ∈ sol → v = selGreedy p := resolution_found_partial greedy_preferred ch

end SolverExample

end Pkm
