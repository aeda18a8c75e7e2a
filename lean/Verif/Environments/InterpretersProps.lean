import Verif.Environments.Interpreters
import Verif.Repos.IndexProps
import Verif.VersionText.Props
/-
C81: which interpreter a new environment gets.
-/
set_option linter.unusedVariables false
set_option linter.unusedSimpArgs false
namespace Pkm

namespace Spec
open Pythons

/-- Run, the program `p` says that it is version `v` and that its executable is `e`. -/
def Says (w : World) (p : Pythons.Path) (v : Ver) (e : Pythons.Path) : Prop :=
  ∃ a b, w.run p = .out [a, b] ∧ parseVersion w.env a = v ∧ w.resolve b = e

/-- The program answers as an interpreter does, or fails. -/
def Answering (w : World) (p : Pythons.Path) : Prop := w.run p = .failed ∨ ∃ a b, w.run p = .out [a, b]

/-- All programs with one executable are of one version. -/
def OneVersion (w : World) : Prop := ∀ p q v u e, Says w p v e → Says w q u e → v = u

/-- The versions that the programs `ps` give have no local label. -/
def Unlabelled (w : World) (ps : List Pythons.Path) : Prop := ∀ p ∈ ps, ∀ v e, Says w p v e → NoLabel v

/-- `python`, `python3`, `python-3.10`, `python3.11.exe`, .. -/
def PythonName (n : Text) : Prop :=
  ∃ dash num exe : Text, n = t!"python" ++ (dash ++ (num ++ exe)) ∧ (dash = [] ∨ dash = ['-']) ∧
    (∀ c ∈ num, isDigit c = true ∨ c = '.') ∧ (exe = [] ∨ exe = t!".exe")

end Spec

namespace Pythons
open Spec

/-! ### the loop -/

theorem says_fun (w : World) (p : Path) (v u : Ver) (e f : Path) (h : Says w p v e) (h' : Says w p u f) :
    v = u ∧ e = f := by
  obtain ⟨a, b, h1, rfl, rfl⟩ := h
  obtain ⟨a', b', h2, rfl, rfl⟩ := h'
  rw [h1] at h2
  simp only [Run.out.injEq, List.cons.injEq, and_true] at h2
  rw [h2.1, h2.2]; exact ⟨rfl, rfl⟩

theorem scan_none (w : World) (ps : List Path) (acc : List Inst) :
    scan w ps acc = none ↔ ∃ p ∈ ps, ¬ Answering w p := by
  induction ps generalizing acc with
  | nil => simp [scan]
  | cons p ps ih =>
    have hh : (∃ q ∈ p :: ps, ¬ Answering w q) ↔ (¬ Answering w p ∨ ∃ q ∈ ps, ¬ Answering w q) := by simp
    rw [hh]
    simp only [scan]
    split
    · rename_i h
      have ha : Answering w p := Or.inl h
      rw [ih]; simp [ha]
    · rename_i h
      simp only [true_iff]
      left; rintro (h' | ⟨a, b, h'⟩) <;> rw [h] at h' <;> simp at h'
    · rename_i v e h
      have ha : Answering w p := Or.inr ⟨v, e, h⟩
      split <;> rw [ih] <;> simp [ha]
    · rename_i ls hne h
      simp only [true_iff]
      left; rintro (h' | ⟨a, b, h'⟩) <;> rw [h] at h'
      · simp at h'
      · simp only [Run.out.injEq] at h'; exact hne a b h'

theorem scan_some (w : World) (ps : List Path) (acc l : List Inst) (h : scan w ps acc = some l)
    (hn : acc.Pairwise (fun a b => a.exe ≠ b.exe)) :
    l.Pairwise (fun a b => a.exe ≠ b.exe) ∧
    (∀ i ∈ acc, i ∈ l) ∧
    (∀ i ∈ l, i ∈ acc ∨ ∃ p ∈ ps, Says w p i.version i.exe) ∧
    (∀ p ∈ ps, ∀ v e, Says w p v e → ∃ i ∈ l, i.exe = e) := by
  induction ps generalizing acc with
  | nil =>
    simp only [scan, Option.some.injEq] at h
    subst h
    refine ⟨hn, fun i hi => hi, fun i hi => Or.inl hi, ?_⟩
    intro p hp; simp at hp
  | cons p ps ih =>
    simp only [scan] at h
    split at h
    · rename_i hr
      obtain ⟨h1, h2, h3, h4⟩ := ih _ h hn
      refine ⟨h1, h2, fun i hi => ?_, ?_⟩
      · rcases h3 i hi with k | ⟨q, hq, k⟩
        · exact Or.inl k
        · exact Or.inr ⟨q, List.mem_cons_of_mem _ hq, k⟩
      · intro q hq v e hs
        rcases List.mem_cons.mp hq with rfl | hq
        · obtain ⟨a, b, k, _⟩ := hs; rw [hr] at k; simp at k
        · exact h4 q hq v e hs
    · simp at h
    · rename_i v e hr
      have hsays : Says w p (parseVersion w.env v) (w.resolve e) := ⟨v, e, hr, rfl, rfl⟩
      split at h
      · rename_i hany
        obtain ⟨h1, h2, h3, h4⟩ := ih _ h hn
        refine ⟨h1, h2, fun i hi => ?_, ?_⟩
        · rcases h3 i hi with k | ⟨q, hq, k⟩
          · exact Or.inl k
          · exact Or.inr ⟨q, List.mem_cons_of_mem _ hq, k⟩
        · intro q hq u f hs
          rcases List.mem_cons.mp hq with rfl | hq
          · obtain ⟨_, rfl⟩ := says_fun w _ _ _ _ _ hs hsays
            obtain ⟨i, hi, k⟩ := List.any_eq_true.mp hany
            exact ⟨i, h2 i hi, by simpa using k⟩
          · exact h4 q hq u f hs
      · rename_i hany
        have hn' : (acc ++ [⟨w.resolve e, parseVersion w.env v⟩] : List Inst).Pairwise (fun a b => a.exe ≠ b.exe) := by
          rw [List.pairwise_append]
          refine ⟨hn, by simp, ?_⟩
          intro a ha b hb
          simp only [List.mem_singleton] at hb
          subst hb
          intro k
          exact hany (List.any_eq_true.mpr ⟨a, ha, by simpa using k⟩)
        obtain ⟨h1, h2, h3, h4⟩ := ih _ h hn'
        refine ⟨h1, fun i hi => h2 i (List.mem_append_left _ hi), fun i hi => ?_, ?_⟩
        · rcases h3 i hi with k | ⟨q, hq, k⟩
          · rcases List.mem_append.mp k with k | k
            · exact Or.inl k
            · simp only [List.mem_singleton] at k
              subst k
              exact Or.inr ⟨p, List.mem_cons_self .., hsays⟩
          · exact Or.inr ⟨q, List.mem_cons_of_mem _ hq, k⟩
        · intro q hq u f hs
          rcases List.mem_cons.mp hq with rfl | hq
          · obtain ⟨_, rfl⟩ := says_fun w _ _ _ _ _ hs hsays
            exact ⟨_, h2 _ (List.mem_append_right _ (List.mem_singleton.mpr rfl)), rfl⟩
          · exact h4 q hq u f hs
    · simp at h

theorem sortDown_mem (l : List Inst) (i : Inst) : i ∈ sortDown l ↔ i ∈ l := (sortBy_perm _ l).mem_iff

theorem sortDown_sorted (l : List Inst) (h : ∀ p ∈ l, NoLabel p.version) :
    (sortDown l).Pairwise (fun a b => a.version.lt b.version = false) := by
  have e : sortDown l = sortBy (fun a b : Inst => !((Index.clean a.version).lt (Index.clean b.version))) l := by
    apply Index.sortBy_congr
    intro a ha b hb
    rw [Index.clean_id _ (h a ha), Index.clean_id _ (h b hb)]
  have hs := sortBy_sorted (fun a b : Inst => !((Index.clean a.version).lt (Index.clean b.version)))
    (fun a b => by
      cases hab : (Index.clean a.version).lt (Index.clean b.version) with
      | false => left; rfl
      | true => right; rw [version_lt_asymm _ _ hab]; rfl)
    (fun a b c hab hbc => by
      simp only [Bool.not_eq_true'] at *
      exact Index.clean_neg_trans _ _ _ hab hbc) l
  rw [e]
  refine List.Pairwise.imp_of_mem ?_ hs
  intro a b ha hb hab
  have ha := (sortBy_perm _ l).mem_iff.mp ha
  have hb := (sortBy_perm _ l).mem_iff.mp hb
  simp only [Bool.not_eq_true'] at hab
  rwa [Index.clean_id _ (h a ha), Index.clean_id _ (h b hb)] at hab

theorem allInstalled_some (w : World) (ps : List Path) (l : List Inst) (h : allInstalled w ps = some l) :
    ∃ m, scan w ps [] = some m ∧ l = sortDown m := by
  simp only [allInstalled, Option.map_eq_some_iff] at h
  obtain ⟨m, h1, h2⟩ := h
  exact ⟨m, h1, h2.symm⟩

/-! ### C81 -/

/-- The search raises iff one of the programs it tries does not answer like an interpreter and does not fail either. -/
theorem installed_fails_iff (w : World) (ps : List Path) :
    allInstalled w ps = none ↔ ∃ p ∈ ps, ¬ Answering w p := by
  simp only [allInstalled, Option.map_eq_none_iff, scan_none]

/-- What is listed: every executable once, newest first, each with a version that some program gave for it, and no
executable of a program that answers is left out. -/
theorem installed_list (w : World) (ps : List Path) (l : List Inst) (h : allInstalled w ps = some l)
    (hl : Unlabelled w ps) :
    l.Pairwise (fun a b => a.exe ≠ b.exe) ∧
    l.Pairwise (fun a b => a.version.lt b.version = false) ∧
    (∀ i ∈ l, ∃ p ∈ ps, Says w p i.version i.exe) ∧
    (∀ p ∈ ps, ∀ v e, Says w p v e → ∃ i ∈ l, i.exe = e) := by
  obtain ⟨m, hm, rfl⟩ := allInstalled_some w ps l h
  obtain ⟨h1, -, h3, h4⟩ := scan_some w ps [] m hm List.Pairwise.nil
  have h3' : ∀ i ∈ m, ∃ p ∈ ps, Says w p i.version i.exe := by
    intro i hi
    rcases h3 i hi with k | k
    · simp at k
    · exact k
  refine ⟨?_, sortDown_sorted m ?_, ?_, ?_⟩
  · exact ((sortBy_perm _ m).pairwise_iff (fun {a b} k => fun e => k e.symm)).mpr h1
  · intro i hi
    obtain ⟨p, hp, k⟩ := h3' i hi
    exact hl p hp _ _ k
  · intro i hi
    exact h3' i ((sortDown_mem m i).mp hi)
  · intro p hp v e hs
    obtain ⟨i, hi, k⟩ := h4 p hp v e hs
    exact ⟨i, (sortDown_mem m i).mpr hi, k⟩

theorem listed_iff (w : World) (ps : List Path) (l : List Inst) (h : allInstalled w ps = some l) (ho : OneVersion w)
    (i : Inst) : i ∈ l ↔ ∃ p ∈ ps, Says w p i.version i.exe := by
  obtain ⟨m, hm, rfl⟩ := allInstalled_some w ps l h
  obtain ⟨-, -, h3, h4⟩ := scan_some w ps [] m hm List.Pairwise.nil
  rw [sortDown_mem]
  constructor
  · intro hi
    rcases h3 i hi with k | k
    · simp at k
    · exact k
  · rintro ⟨p, hp, k⟩
    obtain ⟨j, hj, e⟩ := h4 p hp _ _ k
    rcases h3 j hj with k' | ⟨q, hq, k'⟩
    · simp at k'
    · rw [e] at k'
      have hv := ho _ _ _ _ _ k k'
      have : i = j := by cases i; cases j; simp_all
      rw [this]; exact hj

theorem choose_fresh (w : World) (ps : List Path) (s : VSpec) :
    choose w ps s none = match allInstalled w ps with
      | none => .error .search
      | some l => match sortDown (l.filter (fun i => s.allows i.version)) with
        | [] => .error .noSuchElement
        | i :: _ => .ok i := by
  simp only [choose, matching]
  cases allInstalled w ps with
  | none => rfl
  | some l => simp only; split <;> simp_all

/-- The interpreter of a new environment is one that was found, the specifier allows its version, and it allows no
newer one of those that were found. -/
theorem chosen_best (w : World) (ps : List Path) (s : VSpec) (i : Inst) (ho : OneVersion w) (hl : Unlabelled w ps)
    (h : choose w ps s none = .ok i) :
    (∃ p ∈ ps, Says w p i.version i.exe) ∧ s.allows i.version = true ∧
    ∀ p ∈ ps, ∀ v e, Says w p v e → s.allows v = true → i.version.lt v = false := by
  rw [choose_fresh] at h
  split at h
  · simp at h
  · rename_i l hal
    split at h
    · simp at h
    · rename_i j r hj
      simp only [Except.ok.injEq] at h
      subst h
      have hmem : ∀ x, x ∈ j :: r ↔ x ∈ l ∧ s.allows x.version = true := by
        intro x
        rw [← hj, sortDown_mem, List.mem_filter]
      have hji := (hmem j).mp (List.mem_cons_self ..)
      refine ⟨(listed_iff w ps l hal ho j).mp hji.1, hji.2, ?_⟩
      intro p hp v e hs ha
      have hx : (⟨e, v⟩ : Inst) ∈ j :: r := (hmem _).mpr ⟨(listed_iff w ps l hal ho _).mpr ⟨p, hp, hs⟩, ha⟩
      have hsrt : (j :: r).Pairwise (fun a b => a.version.lt b.version = false) := by
        rw [← hj]
        apply sortDown_sorted
        intro q hq
        obtain ⟨p', hp', k⟩ := (listed_iff w ps l hal ho q).mp (List.mem_filter.mp hq).1
        exact hl p' hp' _ _ k
      rcases List.mem_cons.mp hx with k | k
      · have : v = j.version := by rw [← k]
        rw [this]
        cases hv : j.version.lt j.version with
        | false => rfl
        | true => have := version_lt_asymm _ _ hv; rw [hv] at this; exact this
      · exact (List.pairwise_cons.mp hsrt).1 _ k

/-- An interpreter is chosen iff one that was found is allowed, and "no such element" is raised iff none is — if all
programs answer or fail. -/
theorem chosen_iff (w : World) (ps : List Path) (s : VSpec) (ho : OneVersion w) (ha : ∀ p ∈ ps, Answering w p) :
    ((∃ i, choose w ps s none = .ok i) ↔ ∃ p ∈ ps, ∃ v e, Says w p v e ∧ s.allows v = true) ∧
    (choose w ps s none = .error .noSuchElement ↔ ¬ ∃ p ∈ ps, ∃ v e, Says w p v e ∧ s.allows v = true) := by
  have hns : allInstalled w ps ≠ none := by
    intro k
    obtain ⟨p, hp, k⟩ := (installed_fails_iff w ps).mp k
    exact k (ha p hp)
  obtain ⟨l, hal⟩ := Option.ne_none_iff_exists'.mp hns
  have key : (∃ p ∈ ps, ∃ v e, Says w p v e ∧ s.allows v = true) ↔ ∃ i, i ∈ sortDown (l.filter (fun i => s.allows i.version)) := by
    constructor
    · rintro ⟨p, hp, v, e, hs, hv⟩
      refine ⟨⟨e, v⟩, (sortDown_mem _ _).mpr (List.mem_filter.mpr ⟨(listed_iff w ps l hal ho _).mpr ⟨p, hp, hs⟩, hv⟩)⟩
    · rintro ⟨i, hi⟩
      have hi := List.mem_filter.mp ((sortDown_mem _ _).mp hi)
      obtain ⟨p, hp, hs⟩ := (listed_iff w ps l hal ho i).mp hi.1
      exact ⟨p, hp, _, _, hs, hi.2⟩
  rw [key, choose_fresh, hal]
  simp only
  cases sortDown (l.filter (fun i => s.allows i.version)) with
  | nil => simp
  | cons i r => simpa using (⟨i, Or.inl rfl⟩ : ∃ x, x = i ∨ x ∈ r)

/-- The order in which a set gives its elements does not matter for the version: with the same programs in another
order the search raises as well, finds nothing as well, or the chosen version is neither older nor newer. -/
theorem chosen_any_order (w : World) (ps qs : List Path) (s : VSpec) (ho : OneVersion w) (hl : Unlabelled w ps)
    (hm : ∀ p, p ∈ ps ↔ p ∈ qs) :
    (∀ e, choose w ps s none = .error e ↔ choose w qs s none = .error e) ∧
    ∀ i j, choose w ps s none = .ok i → choose w qs s none = .ok j →
      i.version.lt j.version = false ∧ j.version.lt i.version = false := by
  have hl' : Unlabelled w qs := fun p hp => hl p ((hm p).mpr hp)
  refine ⟨?_, ?_⟩
  · have hcase : (∀ p ∈ ps, Answering w p) ↔ ∀ p ∈ qs, Answering w p := by simp only [hm]
    by_cases ha : ∀ p ∈ ps, Answering w p
    · have hb := hcase.mp ha
      have e1 := (chosen_iff w ps s ho ha).2
      have e2 := (chosen_iff w qs s ho hb).2
      simp only [hm] at e1
      have notSearch : ∀ rs : List Path, (∀ p ∈ rs, Answering w p) → choose w rs s none ≠ .error .search := by
        intro rs hrs k
        rw [choose_fresh] at k
        split at k
        · rename_i hn
          obtain ⟨p, hp, k'⟩ := (installed_fails_iff w rs).mp hn
          exact k' (hrs p hp)
        · split at k <;> simp at k
      intro e
      cases e with
      | noSuchElement => exact e1.trans e2.symm
      | search => exact ⟨fun k => absurd k (notSearch ps ha), fun k => absurd k (notSearch qs hb)⟩
    · have hb := fun k => ha (hcase.mpr k)
      have search : ∀ rs : List Path, (¬ ∀ p ∈ rs, Answering w p) → choose w rs s none = .error .search := by
        intro rs hrs
        have hn : allInstalled w rs = none := by
          rw [installed_fails_iff]
          false_or_by_contra
          rename_i k
          exact hrs (fun p hp => by
            false_or_by_contra
            rename_i k'
            exact k ⟨p, hp, k'⟩)
        rw [choose_fresh, hn]
      intro e
      rw [search ps ha, search qs hb]
  · intro i j hi hj
    obtain ⟨⟨p, hp, h1⟩, h2, h3⟩ := chosen_best w ps s i ho hl hi
    obtain ⟨⟨q, hq, k1⟩, k2, k3⟩ := chosen_best w qs s j ho hl' hj
    exact ⟨h3 q ((hm q).mpr hq) _ _ k1 k2, k3 p ((hm p).mp hp) _ _ h1 h2⟩

/-- A later call answers from the list of the first one, whatever happened to the machine in between. -/
theorem chosen_later (w w' : World) (ps ps' : List Path) (s s' : VSpec) (l : List Inst)
    (h : allInstalled w ps = some l) :
    choose w' ps' s' (matching w ps s none).2 = choose w ps s' none := by
  simp only [choose, matching, h]

/-! ### the programs that are tried -/

theorem allDigits_iff (t : Text) : allDigits t = true ↔ ∀ c ∈ t, isDigit c = true ∨ c = '.' := by
  simp [allDigits, List.all_eq_true]

theorem tailOk_num (num exe : Text) (h : ∀ c ∈ num, isDigit c = true ∨ c = '.') (he : exe = [] ∨ exe = t!".exe") :
    tailOk (num ++ exe) = true := by
  rcases he with rfl | rfl
  · rw [List.append_nil, tailOk, (allDigits_iff num).mpr h]; rfl
  · have : (num ++ t!".exe").reverse = 'e' :: 'x' :: 'e' :: '.' :: num.reverse := by simp
    rw [tailOk, this]
    simp only [List.reverse_reverse, (allDigits_iff num).mpr h]
    simp

theorem nameOk_python (n : Text) (h : PythonName n) : nameOk n = true := by
  obtain ⟨dash, num, exe, rfl, hd, hn, he⟩ := h
  have ht := tailOk_num num exe hn he
  show dashOk (dash ++ (num ++ exe)) = true
  rcases hd with rfl | rfl
  · show dashOk (num ++ exe) = true
    unfold dashOk
    split
    · rename_i heq; rw [heq] at ht; rw [ht]; rfl
    · exact ht
  · show (tailOk ('-' :: (num ++ exe)) || tailOk (num ++ exe)) = true
    rw [ht, Bool.or_true]

theorem lookupEnvPath_mem (path : List Elem) (l : List Path) (h : lookupEnvPath path = some l) (t : Path) :
    t ∈ l ↔ ∃ es, Elem.dir es ∈ path ∧ ∃ e ∈ es, asPython e = some t := by
  induction path generalizing l with
  | nil => simp only [lookupEnvPath, Option.some.injEq] at h; subst h; simp
  | cons x r ih =>
    cases x with
    | missing => rw [ih l h]; simp
    | file => simp [lookupEnvPath] at h
    | dir fs =>
      simp only [lookupEnvPath, Option.map_eq_some_iff] at h
      obtain ⟨m, hm, rfl⟩ := h
      rw [List.mem_append, ih m hm, List.mem_filterMap]
      constructor
      · rintro (k | ⟨es, h1, h2⟩)
        · exact ⟨fs, List.mem_cons_self .., k⟩
        · exact ⟨es, List.mem_cons_of_mem _ h1, h2⟩
      · rintro ⟨es, h1, h2⟩
        rcases List.mem_cons.mp h1 with k | k
        · simp only [Elem.dir.injEq] at k; subst k; exact Or.inl h2
        · exact Or.inr ⟨es, k, h2⟩

/-- Every executable file with the name of a Python, in upper or lower case, in a directory of `PATH` is tried, and so
are those named `python` anywhere below the configured directories and the interpreter that runs pkm. -/
theorem pythons_tried (path : List Elem) (search : List (List Entry)) (self : Path) (cs : List Path)
    (h : candidates path search self = some cs) :
    self ∈ cs ∧
    (∀ es, Elem.dir es ∈ path → ∀ e ∈ es, ∀ t, PythonName (lower e.name) → e.isDir = false → e.executable = true →
      e.target = some t → t ∈ cs) ∧
    (∀ es ∈ search, ∀ e ∈ es, ∀ t, e.name = t!"python" → e.isDir = false → e.executable = true →
      e.target = some t → t ∈ cs) := by
  simp only [candidates, Option.map_eq_some_iff] at h
  obtain ⟨l, hl, rfl⟩ := h
  refine ⟨by simp, ?_, ?_⟩
  · intro es hes e he t hn hd hx ht
    refine List.mem_append_left _ (List.mem_append_left _ ?_)
    have hp : asPython e = some t := by simp [asPython, hd, hx, ht, nameOk_python _ hn]
    exact (lookupEnvPath_mem path l hl t).mpr ⟨es, hes, e, he, hp⟩
  · intro es hes e he t hn hd hx ht
    have hok : nameOk (lower e.name) = true := by rw [hn]; rfl
    have hp : asPython e = some t := by simp [asPython, hd, hx, ht, hok]
    refine List.mem_append_left _ (List.mem_append_right _ (List.mem_flatMap.mpr ⟨es, hes, ?_⟩))
    exact List.mem_filterMap.mpr ⟨e, List.mem_filter.mpr ⟨he, by rw [hn]; rfl⟩, hp⟩

/-- Nothing else is tried than executable files whose name begins with `python`. -/
theorem tried_only (path : List Elem) (search : List (List Entry)) (self : Path) (cs : List Path)
    (h : candidates path search self = some cs) (t : Path) (ht : t ∈ cs) :
    t = self ∨ ∃ es e, (Elem.dir es ∈ path ∨ es ∈ search) ∧ e ∈ es ∧ e.target = some t ∧ e.isDir = false ∧
      e.executable = true ∧ t!"python" <+: lower e.name := by
  simp only [candidates, Option.map_eq_some_iff] at h
  obtain ⟨l, hl, rfl⟩ := h
  have py : ∀ e u, asPython e = some u → e.target = some u ∧ e.isDir = false ∧ e.executable = true ∧
      t!"python" <+: lower e.name := by
    intro e u k
    simp only [asPython] at k
    split at k
    · rename_i hc
      simp only [Bool.and_eq_true, Bool.not_eq_true'] at hc
      refine ⟨k, hc.1.1, hc.2, ?_⟩
      have := hc.1.2
      unfold nameOk at this
      split at this
      · rename_i r heq; exact ⟨r, by rw [heq]; rfl⟩
      · simp at this
    · simp at k
  rcases List.mem_append.mp ht with ht | ht
  · right
    rcases List.mem_append.mp ht with ht | ht
    · obtain ⟨es, h1, e, he, k⟩ := (lookupEnvPath_mem path l hl t).mp ht
      exact ⟨es, e, Or.inl h1, he, py e t k⟩
    · obtain ⟨es, hes, k⟩ := List.mem_flatMap.mp ht
      obtain ⟨e, he, k⟩ := List.mem_filterMap.mp k
      exact ⟨es, e, Or.inr hes, (List.mem_filter.mp he).1, py e t k⟩
  · left; simpa using ht

/-! ### concrete machines -/

/-- `/usr/bin/python3.10` and its other name `/usr/bin/python3`, `/opt/python3.9`, a program that fails. -/
def sampleWorld : World where
  env := ⟨fun _ => none, id⟩
  run p := if p = [t!"opt", t!"python3.9"] then .out [t!"3.9.2", t!"/opt/python3.9"]
    else if p = [t!"usr", t!"bin", t!"python3"] ∨ p = [t!"usr", t!"bin", t!"python3.10"] then .out [t!"3.10.4", t!"/usr/bin/python3.10"]
    else .failed
  resolve t := if t = t!"/opt/python3.9" then [t!"opt", t!"python3.9"] else [t!"usr", t!"bin", t!"python3.10"]

def v392 : Ver := .std { release := [3, 9, 2] }
def v3104 : Ver := .std { release := [3, 10, 4] }
def opt39 : Path := [t!"opt", t!"python3.9"]
def usr310 : Path := [t!"usr", t!"bin", t!"python3.10"]
def usr3 : Path := [t!"usr", t!"bin", t!"python3"]
def usr2 : Path := [t!"usr", t!"bin", t!"python2"]

theorem sample_parse : parseVersion sampleWorld.env t!"3.9.2" = v392 ∧ parseVersion sampleWorld.env t!"3.10.4" = v3104 :=
  ⟨rfl, rfl⟩

theorem sample_says (p : Path) (v : Ver) (e : Path) (h : Says sampleWorld p v e) :
    (v = v392 ∧ e = opt39) ∨ (v = v3104 ∧ e = usr310) := by
  obtain ⟨a, b, h1, h2, h3⟩ := h
  simp only [sampleWorld] at h1
  split at h1
  · simp only [Run.out.injEq, List.cons.injEq, and_true] at h1
    obtain ⟨rfl, rfl⟩ := h1
    exact Or.inl ⟨h2.symm.trans sample_parse.1, h3.symm⟩
  · split at h1
    · simp only [Run.out.injEq, List.cons.injEq, and_true] at h1
      obtain ⟨rfl, rfl⟩ := h1
      exact Or.inr ⟨h2.symm.trans sample_parse.2, h3.symm⟩
    · simp at h1

theorem sample_one : OneVersion sampleWorld := by
  intro p q v u e h k
  rcases sample_says p v e h with ⟨rfl, h2⟩ | ⟨rfl, h2⟩ <;> rcases sample_says q u e k with ⟨rfl, k2⟩ | ⟨rfl, k2⟩ <;>
    first
    | rfl
    | (exfalso; rw [h2] at k2; exact absurd k2 (by decide))

theorem sample_unlabelled (ps : List Path) : Unlabelled sampleWorld ps := by
  intro p _ v e h
  rcases sample_says p v e h with ⟨rfl, _⟩ | ⟨rfl, _⟩ <;> rfl

theorem sample_answers (p : Path) : Answering sampleWorld p := by
  simp only [Answering, sampleWorld]
  split
  · right; exact ⟨_, _, rfl⟩
  · split
    · right; exact ⟨_, _, rfl⟩
    · left; rfl

/-- `==3.9.*`, as a range. -/
def spec39 : VSpec := .range (some { release := [3, 9] }) (some { release := [3, 10] }) true false
def atLeast39 : VSpec := .range (some { release := [3, 9] }) none true false

/-- The hypotheses of the theorems above are met by this machine. -/
example : allInstalled sampleWorld [opt39, usr3, usr2, usr310] = some [⟨usr310, v3104⟩, ⟨opt39, v392⟩] ∧
    choose sampleWorld [opt39, usr3, usr2, usr310] spec39 none = .ok ⟨opt39, v392⟩ ∧
    choose sampleWorld [opt39, usr3, usr2, usr310] atLeast39 none = .ok ⟨usr310, v3104⟩ ∧
    choose sampleWorld [usr3, usr2] spec39 none = .error .noSuchElement := ⟨rfl, rfl, rfl, rfl⟩

example : OneVersion sampleWorld ∧ Unlabelled sampleWorld [opt39, usr3] ∧ ∀ p ∈ [opt39, usr3], Answering sampleWorld p :=
  ⟨sample_one, sample_unlabelled _, fun p _ => sample_answers p⟩

example : candidates [.missing, .dir [⟨t!"python3", false, true, some usr310⟩, ⟨t!"pip", false, true, some usr2⟩]]
    [[⟨t!"python", false, true, some opt39⟩]] usr3 = some [usr310, opt39, usr3] := by decide

example : PythonName t!"python3.10" := ⟨[], t!"3.10", [], rfl, Or.inl rfl, by decide, Or.inl rfl⟩
example : PythonName t!"python-3.exe" := ⟨['-'], t!"3", t!".exe", rfl, Or.inr rfl, by decide, Or.inr rfl⟩

/-! ### what fails -/

/-- One program that cannot be run (or that prints something else) among those of `PATH` spoils every search, whatever
interpreters there are besides. -/
theorem chosen_broken_violated (w : World) (ps : List Path) (s : VSpec) (p : Path) (hp : p ∈ ps)
    (h : w.run p = .unusable ∨ ∃ ls, w.run p = .out ls ∧ ls.length ≠ 2) : choose w ps s none = .error .search := by
  have hn : allInstalled w ps = none := by
    rw [installed_fails_iff]
    refine ⟨p, hp, ?_⟩
    rintro (k | ⟨a, b, k⟩)
    · rcases h with h | ⟨ls, h, _⟩ <;> rw [h] at k <;> simp at k
    · rcases h with h | ⟨ls, h, hne⟩ <;> rw [h] at k
      · simp at k
      · simp only [Run.out.injEq] at k; subst k; exact hne rfl
  rw [choose_fresh, hn]

/-- A file among the elements of `PATH` does the same. -/
theorem path_file_violated (path : List Elem) (search : List (List Entry)) (self : Path) (h : Elem.file ∈ path) :
    candidates path search self = none := by
  have : lookupEnvPath path = none := by
    induction path with
    | nil => simp at h
    | cons x r ih =>
      cases x with
      | file => rfl
      | missing => exact ih (by simpa using h)
      | dir es => simp only [lookupEnvPath, ih (by simpa using h), Option.map_none]
  rw [candidates, this]; rfl

/-- Two interpreters of one version: the one that is chosen depends on the order in which the set gives them. -/
theorem chosen_tie_violated : ∃ (w : World) (p q : Path) (s : VSpec),
    (∀ x, Answering w x) ∧ OneVersion w ∧ choose w [p, q] s none ≠ choose w [q, p] s none := by
  let w : World := {
    env := ⟨fun _ => none, id⟩
    run := fun p => if p = opt39 then .out [t!"3.9.2", t!"/opt/python3.9"] else .out [t!"3.9.2", t!"/usr/bin/python3"]
    resolve := fun t => if t = t!"/opt/python3.9" then opt39 else usr3 }
  have hp : ∀ p v e, Says w p v e → v = v392 := by
    rintro p v e ⟨a, b, h1, h2, h3⟩
    simp only [w] at h1
    split at h1 <;>
    · simp only [Run.out.injEq, List.cons.injEq, and_true] at h1
      obtain ⟨rfl, rfl⟩ := h1
      exact h2.symm.trans rfl
  refine ⟨w, opt39, usr3, spec39, ?_, ?_, ?_⟩
  · intro x
    right
    simp only [w]
    split <;> exact ⟨_, _, rfl⟩
  · intro p q v u e h k
    rw [hp _ _ _ h, hp _ _ _ k]
  · have h1 : choose w [opt39, usr3] spec39 none = .ok ⟨opt39, v392⟩ := rfl
    have h2 : choose w [usr3, opt39] spec39 none = .ok ⟨usr3, v392⟩ := rfl
    rw [h1, h2]
    intro k
    simp only [Except.ok.injEq, Inst.mk.injEq] at k
    exact absurd k.1 (by decide)

/-- A preview of the next Python is preferred to the released one, though the specifier mentions no preview. -/
theorem chosen_preview_violated : ∃ (w : World) (p q : Path) (s : VSpec) (i : Inst),
    s.allowsPre = false ∧ Says w p (.std { release := [3, 12, 1] }) p ∧ s.allows (.std { release := [3, 12, 1] }) = true ∧
    choose w [p, q] s none = .ok i ∧ i.version.isPreOrDev = true := by
  refine ⟨{
    env := ⟨fun _ => none, id⟩
    run := fun p => if p = opt39 then .out [t!"3.12.1", t!"/opt/python3.9"] else .out [t!"3.13.0a2", t!"/usr/bin/python3"]
    resolve := fun t => if t = t!"/opt/python3.9" then opt39 else usr3 }, opt39, usr3, atLeast39,
    ⟨usr3, .std { release := [3, 13, 0], pre := some (t!"a", 2) }⟩, rfl, ⟨t!"3.12.1", t!"/opt/python3.9", rfl, rfl, rfl⟩,
    rfl, rfl, rfl⟩

/-- A program is run although its name is none of a Python: the dot of the pattern stands for any character. -/
theorem tried_name_violated : ∃ n, nameOk n = true ∧ ¬ PythonName n := by
  refine ⟨t!"python_exe", rfl, ?_⟩
  rintro ⟨dash, num, exe, h, hd, hn, he⟩
  have h' : t!"_exe" = dash ++ (num ++ exe) := by simpa using h
  rcases hd with rfl | rfl
  · cases num with
    | nil => rcases he with rfl | rfl <;> simp at h'
    | cons c r =>
      simp only [List.nil_append, List.cons_append, List.cons.injEq] at h'
      have := hn c (List.mem_cons_self ..)
      rw [← h'.1] at this
      exact absurd this (by decide)
  · simp at h'

/-- An interpreter named `python3` below a configured directory is not found. -/
theorem search_paths_violated (path : List Elem) (es : List Entry) (self : Path)
    (h : ∀ e ∈ es, e.name ≠ t!"python") : candidates path [es] self = candidates path [] self := by
  have : lookupBelow es = [] := by
    simp only [lookupBelow]
    have : es.filter (fun e => e.name == t!"python") = [] := by
      rw [List.filter_eq_nil_iff]
      intro e he
      simpa using h e he
    rw [this]; rfl
  simp [candidates, this]

end Pythons
end Pkm
