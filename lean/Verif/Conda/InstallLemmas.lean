import Verif.Conda.Install
set_option linter.unusedVariables false
set_option linter.unusedSimpArgs false
/-
C90: lemmas about the loop over the files of a conda artifact.
-/
namespace Pkm.Conda
open Tags Files Files.FS Spec

variable {C S : Type}

/-! ### directories -/

theorem addDirs_get (fs : FS C) : ∀ (p q : Path), q ≠ [] → Dict.get (addDirs fs p) q =
    if Dict.get fs q = none ∧ q <:+ p then some .dir else Dict.get fs q
  | [], q, hq => by
    simp only [addDirs]
    rw [if_neg]
    rintro ⟨_, h⟩
    exact hq (List.suffix_nil.mp h)
  | x :: p, q, hq => by
    have ih := addDirs_get fs p q hq
    have hx := addDirs_get fs p (x :: p) (by simp)
    rw [if_neg (by rintro ⟨_, h⟩; exact not_cons_suffix x p h)] at hx
    simp only [addDirs]
    by_cases he : (addDirs fs p).ex (x :: p) = true
    · rw [if_pos he, ih]
      have hne : Dict.get fs (x :: p) ≠ none := by
        obtain ⟨n, hn⟩ := (ex_iff _ _).mp he
        rw [hx] at hn
        rw [hn]; simp
      by_cases hqx : q = x :: p
      · subst hqx
        rw [if_neg (by rintro ⟨h, _⟩; exact hne h), if_neg (by rintro ⟨h, _⟩; exact hne h)]
      · have : q <:+ x :: p ↔ q <:+ p := by
          rw [← suffix_cons_iff' x p q]
          exact ⟨fun h => ⟨h, hqx⟩, fun h => h.1⟩
        simp only [this]
    · rw [if_neg he, Dict.get_put]
      have hn : Dict.get fs (x :: p) = none := by
        rw [← hx]
        cases h : Dict.get (addDirs fs p) (x :: p) with
        | none => rfl
        | some n => exact absurd ((ex_iff _ _).mpr ⟨n, h⟩) he
      by_cases hqx : q = x :: p
      · subst hqx
        rw [if_pos rfl, if_pos ⟨hn, List.suffix_refl _⟩]
      · rw [if_neg (fun h => hqx h.symm), ih]
        have : q <:+ x :: p ↔ q <:+ p := by
          rw [← suffix_cons_iff' x p q]
          exact ⟨fun h => ⟨h, hqx⟩, fun h => h.1⟩
        simp only [this]

theorem addDirs_root (fs : FS C) (h : Dict.get fs [] = some .dir) : ∀ (p : Path), Dict.get (addDirs fs p) [] = some .dir
  | [] => h
  | x :: p => by
    simp only [addDirs]
    split
    · exact addDirs_root fs h p
    · rw [Dict.get_put, if_neg (by simp)]
      exact addDirs_root fs h p

theorem addDirs_get' (fs : FS C) (hg : Good fs) (p q : Path) : Dict.get (addDirs fs p) q =
    if Dict.get fs q = none ∧ q <:+ p then some .dir else Dict.get fs q := by
  by_cases hq : q = []
  · subst hq
    rw [addDirs_root fs hg.root, hg.root, if_neg (by simp)]
  · exact addDirs_get fs p q hq

theorem addDirs_wf (fs : FS C) (h : Dict.Wf fs) : ∀ (p : Path), Dict.Wf (addDirs fs p)
  | [] => h
  | x :: p => by
    simp only [addDirs]
    split
    · exact addDirs_wf fs h p
    · exact Dict.wf_put _ _ _ (addDirs_wf fs h p)

theorem throughFile_iff (fs : FS C) : ∀ (p : Path), throughFile fs p = false ↔
    ∀ q, q ≠ [] → q <:+ p → ∀ c, Dict.get fs q ≠ some (.file c)
  | [] => by
    simp only [throughFile, true_iff]
    intro q hq h
    exact absurd (List.suffix_nil.mp h) hq
  | x :: p => by
    simp only [throughFile, Bool.or_eq_false_iff, throughFile_iff fs p]
    have h1 : (fs.ex (x :: p) && !fs.isDir (x :: p)) = false ↔ ∀ c, Dict.get fs (x :: p) ≠ some (.file c) := by
      simp only [ex, isDir]
      cases h : Dict.get fs (x :: p) with
      | none => simp
      | some n => cases n <;> simp
    rw [h1]
    constructor
    · rintro ⟨h, ih⟩ q hq hs
      rcases List.suffix_cons_iff.mp hs with e | e
      · rw [e]; exact h
      · exact ih q hq e
    · intro h
      exact ⟨h _ (by simp) (List.suffix_refl _), fun q hq hs => h q hq (hs.trans (List.suffix_cons x p))⟩

theorem addDirs_good (fs : FS C) (hg : Good fs) (p : Path) (hf : throughFile fs p = false) : Good (addDirs fs p) := by
  refine ⟨?_, addDirs_root fs hg.root p, addDirs_wf fs hg.wf p⟩
  intro x q n h
  rw [addDirs_get' fs hg] at h ⊢
  have hdir : ∀ q, q <:+ p → Dict.get fs q = none ∨ Dict.get fs q = some .dir := by
    intro q hq
    by_cases he : q = []
    · subst he; exact .inr hg.root
    · cases h : Dict.get fs q with
      | none => exact .inl rfl
      | some n =>
        cases n with
        | dir => exact .inr rfl
        | file c => exact absurd h ((throughFile_iff fs p).mp hf q he hq c)
  split at h
  · rename_i hc
    have hs : q <:+ p := (List.suffix_cons x q).trans hc.2
    rcases hdir q hs with e | e
    · rw [if_pos ⟨e, hs⟩]
    · rw [if_neg (by simp [e]), e]
  · have := hg.tree x q n h
    rw [if_neg (by simp [this])]
    exact this

theorem throughFile_congr (fs gs : FS C) (p : Path) (h : ∀ q, q <:+ p → Dict.get gs q = Dict.get fs q) :
    throughFile gs p = throughFile fs p := by
  have : throughFile gs p = false ↔ throughFile fs p = false := by
    rw [throughFile_iff, throughFile_iff]
    constructor
    · intro hh q hq hs c; rw [← h q hs]; exact hh q hq hs c
    · intro hh q hq hs c; rw [h q hs]; exact hh q hq hs c
  cases h1 : throughFile gs p <;> cases h2 : throughFile fs p <;> simp_all

/-! ### the loop -/

/-- What holds at every point of the loop: the state before, with some directories added, is what a rollback restores. -/
structure Linked (fs0 : FS C) (done : List Path) (t : Txn C) (parents : List Path) : Prop where
  base : ∃ fs1, Good fs1 ∧ RInv fs1 t ∧ ∀ q, Dict.get fs1 q = Dict.get fs0 q ∨
    (Dict.get fs0 q = none ∧ Dict.get fs1 q = some .dir ∧ ∃ d ∈ done, q <:+ parent d)
  copied : ∀ q ∈ t.copied, q ∈ done
  saved : ∀ q ∈ savedPaths t, q ∈ done
  parents : ∀ d ∈ parents, Dict.get t.fs d = some .dir ∧ ∃ q ∈ done, d = parent q

/-- No target is above another one. -/
def Apart (done : List Path) (tg : Path) : Prop := ∀ q ∈ done, ¬ q <:+ tg ∧ ¬ tg <:+ q

theorem Linked.start (fs0 : FS C) (hg : Good fs0) : Linked fs0 [] ⟨fs0, [], []⟩ [] :=
  ⟨⟨fs0, hg, rinv_start hg, fun q => .inl rfl⟩, by simp, by simp [savedPaths], by simp⟩

theorem parent_suffix (p : Path) : parent p <:+ p := by
  cases p with
  | nil => exact List.suffix_refl _
  | cons x p => exact List.suffix_cons x p

theorem Linked.more {fs0 : FS C} {done : List Path} {t : Txn C} {ps : List Path} (h : Linked fs0 done t ps) (tg : Path) :
    Linked fs0 (done ++ [tg]) t ps := by
  obtain ⟨fs1, h1, h2, h3⟩ := h.base
  refine ⟨⟨fs1, h1, h2, fun q => ?_⟩, fun q hq => by simp [h.copied q hq], fun q hq => by simp [h.saved q hq], fun d hd => ?_⟩
  · rcases h3 q with e | ⟨a, b, d, hd, e⟩
    · exact .inl e
    · exact .inr ⟨a, b, d, by simp [hd], e⟩
  · obtain ⟨a, q, hq, e⟩ := h.parents d hd
    exact ⟨a, q, by simp [hq], e⟩

/-- Directories for a target. -/
theorem Linked.mkdir {fs0 : FS C} {done : List Path} {t : Txn C} {ps : List Path} (h : Linked fs0 done t ps) (tg : Path)
    (ha : Apart done tg) (fs2 : FS C) (hp : plainMkdir t.fs (parent tg) = some fs2) :
    Linked fs0 (done ++ [tg]) { t with fs := fs2 } (parent tg :: ps) ∧
    (∀ q, Dict.get fs2 q = Dict.get t.fs q ∨ (Dict.get t.fs q = none ∧ Dict.get fs2 q = some .dir ∧ q <:+ parent tg)) ∧
    Dict.get fs2 (parent tg) = some .dir := by
  obtain ⟨fs1, h1, h2, h3⟩ := h.base
  unfold plainMkdir at hp
  split at hp
  · cases hp
  · rename_i hf
    simp only [Option.some.injEq] at hp
    have hf : throughFile t.fs (parent tg) = false := by simpa using hf
    have hdone : ∀ q, q <:+ parent tg → q ∉ done := fun q hq hd => (ha q hd).1 (hq.trans (parent_suffix tg))
    have heq : ∀ q, q <:+ parent tg → Dict.get fs1 q = Dict.get t.fs q := fun q hq =>
      (h2.other q (fun hc => hdone q hq (h.copied q hc)) (fun hc => hdone q hq (h.saved q hc))).symm
    have hg2 := addDirs_get' t.fs h2.good (parent tg)
    have hg1 := addDirs_get' fs1 h1 (parent tg)
    rw [hp] at hg2
    have hpar : Dict.get fs2 (parent tg) = some .dir := by
      rw [hg2]
      by_cases hn : Dict.get t.fs (parent tg) = none
      · rw [if_pos ⟨hn, List.suffix_refl _⟩]
      · rw [if_neg (by rintro ⟨e, _⟩; exact hn e)]
        by_cases he : parent tg = []
        · rw [he]; exact h2.good.root
        · cases hc : Dict.get t.fs (parent tg) with
          | none => exact absurd hc hn
          | some n =>
            cases n with
            | dir => rfl
            | file c => exact absurd hc ((throughFile_iff _ _).mp hf _ he (List.suffix_refl _) c)
    refine ⟨⟨⟨addDirs fs1 (parent tg), ?_, ?_, ?_⟩, fun q hq => by simp [h.copied q hq],
      fun q hq => by simp [h.saved q hq], ?_⟩, ?_, hpar⟩
    · exact addDirs_good fs1 h1 _ (by rw [throughFile_congr t.fs fs1 _ heq]; exact hf)
    · refine ⟨?_, ?_, ?_, ?_, h2.nodup, by rw [← hp]; exact addDirs_good t.fs h2.good _ hf⟩
      · intro q hq hs
        simp only
        rw [hg2, hg1, h2.other q hq hs]
      · intro q hq hs
        rw [hg1, if_neg]
        · exact h2.fresh q hq hs
        · rintro ⟨_, e⟩; exact hdone q e (h.copied q hq)
      · intro e he
        obtain ⟨a, c, b, d⟩ := h2.savedFile e he
        refine ⟨a, c, ?_, d⟩
        rw [hg1, if_neg (by simp [b])]
        exact b
      · intro q hq
        simp only
        rw [hg2, if_neg]
        · exact h2.savedNow q hq
        · rintro ⟨_, e⟩; exact hdone q e (h.saved q hq)
    · intro q
      rw [hg1]
      by_cases hc : Dict.get fs1 q = none ∧ q <:+ parent tg
      · rw [if_pos hc]
        right
        refine ⟨?_, rfl, tg, by simp, hc.2⟩
        rcases h3 q with e | ⟨a, _⟩
        · rw [← e]; exact hc.1
        · exact a
      · rw [if_neg hc]
        rcases h3 q with e | ⟨a, b, d, hd, e⟩
        · exact .inl e
        · exact .inr ⟨a, b, d, by simp [hd], e⟩
    · intro d hd
      rcases List.mem_cons.mp hd with e | e
      · subst e
        exact ⟨hpar, tg, by simp, rfl⟩
      · obtain ⟨a, q, hq, e⟩ := h.parents d e
        refine ⟨?_, q, by simp [hq], e⟩
        simp only
        rw [hg2, if_neg (by simp [a])]
        exact a
    · intro q
      rw [hg2]
      by_cases hc : Dict.get t.fs q = none ∧ q <:+ parent tg
      · rw [if_pos hc]; exact .inr ⟨hc.1, rfl, hc.2⟩
      · rw [if_neg hc]; exact .inl rfl

/-- A copy into an existing directory. -/
theorem Linked.copy {fs0 : FS C} {done : List Path} {t : Txn C} {ps : List Path} (tg : Path)
    (h : Linked fs0 (done ++ [tg]) t ps) (hc : ∀ q ∈ t.copied, q ∈ done) (hs : ∀ q ∈ savedPaths t, q ∈ done)
    (ha : Apart done tg) (htg : tg ≠ []) (hd : Dict.get fs0 tg ≠ some .dir) (hpar : Dict.get t.fs (parent tg) = some .dir)
    (src : Txn.Src C) :
    (∃ t' c, t.copy src tg = .ok t' ∧ src = .file c ∧ Linked fs0 (done ++ [tg]) t' ps ∧ Dict.get t'.fs tg = some (.file c) ∧
      tg ∈ t'.copied ∧ (∀ q ∈ t.copied, q ∈ t'.copied) ∧
      ∀ q, ¬ tg <:+ q → Dict.get t'.fs q = Dict.get t.fs q) ∨
    (∃ t', t.copy src tg = .raised t' ∧ Linked fs0 (done ++ [tg]) t' ps) := by
  obtain ⟨fs1, h1, h2, h3⟩ := h.base
  have hpn : ∀ q, q <:+ tg → q ≠ tg → Dict.get t.fs q ≠ none := by
    intro q hq hne
    have hq' : q <:+ parent tg := by
      cases tg with
      | nil => exact absurd (List.suffix_nil.mp hq) hne
      | cons x p => exact (suffix_cons_iff' x p q).mp ⟨hq, hne⟩
    by_cases he : q = parent tg
    · rw [he, hpar]; simp
    · rw [h2.good.ancestors _ _ hpar q hq' he]; simp
  have hnd1 : Dict.get fs1 tg ≠ some .dir := by
    rcases h3 tg with e | ⟨_, _, d, hdm, e⟩
    · rw [e]; exact hd
    · rcases List.mem_append.mp hdm with hm | hm
      · exact absurd (e.trans (parent_suffix d)) (ha d hm).2
      · simp only [List.mem_singleton] at hm
        subst hm
        exfalso
        cases d with
        | nil => exact htg rfl
        | cons x p => exact not_cons_suffix x p e
  have hlink : ∀ (t' : Txn C) rmd mk new, Moves t t' tg rmd mk new → new ≠ some .dir → Linked fs0 (done ++ [tg]) t' ps := by
    intro t' rmd mk new m hnew
    refine ⟨⟨fs1, h1, rinv_moves h2 m (fun _ => ⟨fun hm => (ha tg (hc tg hm)).1 (List.suffix_refl _), hnd1⟩)
      (fun q hq => (ha q (hs q hq)).1) (fun _ => hnew), h3⟩, ?_, ?_, ?_⟩
    · intro q hq
      rw [m.copied] at hq
      rcases hq with hq | ⟨rfl, _⟩ | ⟨_, hn, a, b⟩
      · simp [hc q hq]
      · simp
      · exact absurd hn (hpn q a b)
    · intro q hq
      unfold savedPaths at hq
      rw [m.saved, List.map_append, List.mem_append] at hq
      rcases hq with hq | hq
      · simp [hs q hq]
      · cases hr : rmd with
        | false => rw [hr] at hq; simp at hq
        | true => rw [hr] at hq; simp at hq; simp [hq]
    · intro d hd'
      obtain ⟨a, q, hq, e⟩ := h.parents d hd'
      refine ⟨?_, q, hq, e⟩
      have hns : ¬ tg <:+ d := by
        intro hsuf
        rw [e] at hsuf
        rcases List.mem_append.mp hq with hm | hm
        · exact (ha q hm).2 (hsuf.trans (parent_suffix q))
        · simp only [List.mem_singleton] at hm
          subst hm
          cases q with
          | nil => exact htg rfl
          | cons x p => exact not_cons_suffix x p hsuf
      rw [m.fs, if_neg (by rintro ⟨rfl, _⟩; exact hns (List.suffix_refl _)), if_neg (by rintro ⟨_, e⟩; exact hns e),
        if_neg (by rintro ⟨_, e, _⟩; rw [a] at e; cases e)]
      exact a
  rcases copy_moves t h2.good tg src with ⟨t', c, e, hsrc, m⟩ | ⟨t', rmd, mk, e, m⟩
  · left
    refine ⟨t', c, e, hsrc, hlink _ _ _ _ m (by simp), by rw [m.fs]; simp, by rw [m.copied]; simp,
      fun q hq => by rw [m.copied]; exact .inl hq, fun q hq => ?_⟩
    rw [m.fs, if_neg (by rintro ⟨rfl, _⟩; exact hq (List.suffix_refl _)), if_neg (by rintro ⟨_, e⟩; exact hq e),
      if_neg (by rintro ⟨_, e, a, b⟩; exact hpn q a b e)]
  · right
    exact ⟨t', e, hlink _ _ _ _ m (by simp)⟩

/-- What the loop has done for a list of files. -/
structure Copied (sigs : Dict Path S) (tree : FS C) (move : Path → Path) (data lib : Path) (done : List Path)
    (st : LoopState C S) : Prop where
  files : ∀ f ∈ done, ∃ s c, Dict.get sigs f = some s ∧ Dict.get tree (move f) = some (.file c) ∧
    Dict.get st.t.fs (move f ++ data) = some (.file c) ∧ move f ++ data ∈ st.t.copied
  hashes : ∀ t s, Dict.get st.hashes t = some s → ∃ f ∈ done, Dict.get sigs f = some s ∧ pathIn lib (move f) = some t

/-- One round. -/
theorem linkFile_spec {sigs : Dict Path S} {tree : FS C} {move : Path → Path} {data lib : Path} {fs0 : FS C}
    {st : LoopState C S} {done : List Path} {f : Path}
    (h : Linked fs0 (done.map (fun g => move g ++ data)) st.t st.parents) (hcp : Copied sigs tree move data lib done st)
    (ha : Apart (done.map (fun g => move g ++ data)) (move f ++ data)) (htg : move f ++ data ≠ [])
    (hd : Dict.get fs0 (move f ++ data) ≠ some .dir) :
    (∃ st', linkFile sigs tree move data lib st f = .ok st' ∧
      Linked fs0 ((done ++ [f]).map (fun g => move g ++ data)) st'.t st'.parents ∧ Copied sigs tree move data lib (done ++ [f]) st') ∨
    (∃ st', linkFile sigs tree move data lib st f = .raised st' ∧
      Linked fs0 ((done ++ [f]).map (fun g => move g ++ data)) st'.t st'.parents) := by
  have hmap : (done ++ [f]).map (fun g => move g ++ data) = done.map (fun g => move g ++ data) ++ [move f ++ data] := by simp
  rw [hmap]
  simp only [linkFile]
  cases hsg : Dict.get sigs f with
  | none => right; exact ⟨st, rfl, h.more _⟩
  | some s =>
    simp only
    generalize hhs : (match pathIn lib (move f) with
      | some t => Dict.put st.hashes t s
      | none => st.hashes) = hs'
    have hhash : ∀ t s', Dict.get hs' t = some s' → ∃ g ∈ done ++ [f], Dict.get sigs g = some s' ∧ pathIn lib (move g) = some t := by
      intro t s' ht
      cases hp : pathIn lib (move f) with
      | none =>
        simp only [hp] at hhs
        subst hhs
        obtain ⟨g, hg, a, b⟩ := hcp.hashes t s' ht
        exact ⟨g, by simp [hg], a, b⟩
      | some k =>
        simp only [hp] at hhs
        subst hhs
        rw [Dict.get_put] at ht
        split at ht
        · rename_i e
          subst e
          cases ht
          exact ⟨f, by simp, hsg, hp⟩
        · obtain ⟨g, hg, a, b⟩ := hcp.hashes t s' ht
          exact ⟨g, by simp [hg], a, b⟩
    -- the directories
    have hdirs : (∃ fs2, (if st.parents.contains (parent (move f ++ data)) = true then some st.t.fs
        else plainMkdir st.t.fs (parent (move f ++ data))) = some fs2 ∧
        Linked fs0 (done.map (fun g => move g ++ data) ++ [move f ++ data]) { st.t with fs := fs2 } (parent (move f ++ data) :: st.parents) ∧
        (∀ q, Dict.get fs2 q = Dict.get st.t.fs q ∨ Dict.get st.t.fs q = none) ∧
        Dict.get fs2 (parent (move f ++ data)) = some .dir) ∨
        (if st.parents.contains (parent (move f ++ data)) = true then some st.t.fs
        else plainMkdir st.t.fs (parent (move f ++ data))) = none := by
      by_cases hp : st.parents.contains (parent (move f ++ data)) = true
      · left
        rw [if_pos hp]
        have hp' := (h.parents _ (List.contains_iff_mem.mp hp)).1
        have hm := h.more (move f ++ data)
        refine ⟨_, rfl, ⟨hm.base, hm.copied, hm.saved, ?_⟩, fun q => .inl rfl, hp'⟩
        intro d hd'
        rcases List.mem_cons.mp hd' with e | e
        · subst e; exact ⟨hp', _, by simp, rfl⟩
        · exact hm.parents d e
      · rw [if_neg hp]
        cases hm : plainMkdir st.t.fs (parent (move f ++ data)) with
        | none => exact .inr rfl
        | some fs2 =>
          left
          obtain ⟨a, b, c⟩ := h.mkdir _ ha fs2 hm
          refine ⟨fs2, rfl, a, fun q => ?_, c⟩
          rcases b q with e | ⟨e, _⟩
          · exact .inl e
          · exact .inr e
    rcases hdirs with ⟨fs2, e, hl, hget, hpar⟩ | e
    · rw [e]
      simp only
      rcases hl.copy _ h.copied h.saved ha htg hd hpar (sourceOf tree (move f)) with
        ⟨t', c, e2, hsrc, hl', hnew, hin, hmono, hother⟩ | ⟨t', e2, hl'⟩
      · left
        rw [e2]
        refine ⟨_, rfl, hl', ?_, fun t s' ht => hhash t s' (by rw [← hhs]; exact ht)⟩
        intro g hg
        rcases List.mem_append.mp hg with hm | hm
        · obtain ⟨s', c', a1, a2, a3, a4⟩ := hcp.files g hm
          refine ⟨s', c', a1, a2, ?_, hmono _ a4⟩
          simp only
          rw [hother _ (ha _ (List.mem_map_of_mem hm)).2]
          rcases hget (move g ++ data) with e3 | e3
          · simp only; rw [e3]; exact a3
          · rw [a3] at e3; cases e3
        · simp only [List.mem_singleton] at hm
          subst hm
          refine ⟨s, c, hsg, ?_, hnew, hin⟩
          unfold sourceOf at hsrc
          split at hsrc
          · rename_i c' hc'
            cases hsrc
            exact hc'
          · cases hsrc
          · cases hsrc
      · right
        rw [e2]
        exact ⟨_, rfl, hl'⟩
    · right
      rw [e]
      exact ⟨_, rfl, h.more _⟩

/-- The targets of the files are apart. -/
def AllApart (targets : List Path) : Prop := targets.Pairwise (fun a b => ¬ a <:+ b ∧ ¬ b <:+ a)

theorem linkFiles_spec {sigs : Dict Path S} {tree : FS C} {move : Path → Path} {data lib : Path} {fs0 : FS C} :
    ∀ (files done : List Path) (st : LoopState C S),
    Linked fs0 (done.map (fun g => move g ++ data)) st.t st.parents → Copied sigs tree move data lib done st →
    AllApart ((done ++ files).map (fun g => move g ++ data)) → (∀ f ∈ files, move f ++ data ≠ []) →
    (∀ f ∈ files, Dict.get fs0 (move f ++ data) ≠ some .dir) →
    (∃ st', linkFiles sigs tree move data lib st files = .ok st' ∧
      Linked fs0 ((done ++ files).map (fun g => move g ++ data)) st'.t st'.parents ∧ Copied sigs tree move data lib (done ++ files) st') ∨
    (∃ st' now, linkFiles sigs tree move data lib st files = .raised st' ∧ now <+: done ++ files ∧
      Linked fs0 (now.map (fun g => move g ++ data)) st'.t st'.parents) := by
  intro files
  induction files with
  | nil => intro done st h hc _ _ _; left; exact ⟨st, rfl, by simpa using h, by simpa using hc⟩
  | cons f files ih =>
    intro done st h hc ha htg hd
    have ha' : Apart (done.map (fun g => move g ++ data)) (move f ++ data) := by
      intro q hq
      unfold AllApart at ha
      rw [List.map_append, List.pairwise_append] at ha
      exact ha.2.2 q hq (move f ++ data) (by simp)
    simp only [linkFiles]
    rcases linkFile_spec h hc ha' (htg f (by simp)) (hd f (by simp)) with ⟨st', e, hl, hc'⟩ | ⟨st', e, hl⟩
    · rw [e]
      simp only
      have := ih (done ++ [f]) st' hl hc' (by simpa using ha) (fun g hg => htg g (by simp [hg])) (fun g hg => hd g (by simp [hg]))
      simpa using this
    · rw [e]
      right
      exact ⟨st', done ++ [f], rfl, by simp, hl⟩

end Pkm.Conda
