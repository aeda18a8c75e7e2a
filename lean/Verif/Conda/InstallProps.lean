import Verif.Conda.InstallLemmas
set_option linter.unusedVariables false
set_option linter.unusedSimpArgs false
/-
C90: what the installation of a conda artifact does to an environment.
-/
namespace Pkm
open Tags Files Files.FS

namespace Spec

variable {C S : Type}

/-- The name of a directory of a version of Python: `python`, digits, a dot, digits, and anything. -/
def PythonDir (n : Text) : Prop := ∃ a b rest : Text, a ≠ [] ∧ b ≠ [] ∧ (∀ c ∈ a, isDigit c = true) ∧ (∀ c ∈ b, isDigit c = true) ∧
  n = t!"python" ++ a ++ t!"." ++ b ++ rest

/-- Where a file of the archive belongs in an environment whose data directory is `data` and whose modules are in
`data/lib/python`: what the archive has in a directory of a version of Python goes to that directory, other files keep their
relative path. -/
inductive CondaGoes (tree : FS C) (data : Path) (python : Text) : Path → Path → Prop
  | module (r : Path) (n : Text) : r ≠ [] → PythonDir n → Dict.get tree [n, t!"lib"] ≠ none →
      CondaGoes tree data python (r ++ [n, t!"lib"]) (r ++ ([python, t!"lib"] ++ data))
  | plain (f : Path) : (∀ r n, r ≠ [] → PythonDir n → Dict.get tree [n, t!"lib"] ≠ none → f ≠ r ++ [n, t!"lib"]) →
      CondaGoes tree data python f (f ++ data)

/-- The archives and environments considered. -/
structure CondaCase (a : Conda.Archive C S) (pl : Conda.Place C S) (fs : FS C) (files : List Path) (site python : Text) : Prop where
  /-- both trees are trees -/
  archive : Good a.tree
  target : Good fs
  /-- the modules of the environment are in `data/lib/python/site` -/
  purelib : pl.purelib = site :: python :: t!"lib" :: pl.data
  notLib : python ≠ t!"lib"
  /-- the modules of the archive are for one version of Python -/
  one : ∀ n m, Dict.get a.tree [n, t!"lib"] ≠ none → Dict.get a.tree [m, t!"lib"] ≠ none → PythonDir n → (PythonDir m ∨ m = python) → n = m
  listed : a.files = some files
  named : [] ∉ files
  /-- the files have places of their own -/
  apart : files.Pairwise (fun f g => ∀ p q, CondaGoes a.tree pl.data python f p → CondaGoes a.tree pl.data python g q → ¬ p <:+ q ∧ ¬ q <:+ p)
  /-- no file is to replace a directory -/
  noDir : ∀ f ∈ files, ∀ p, CondaGoes a.tree pl.data python f p → Dict.get fs p ≠ some .dir

end Spec
open Spec

namespace Conda

variable {C S : Type}

theorem isPythonDir_iff (n : Text) : isPythonDir n = true ↔ PythonDir n := by
  have split : ∀ t : Text, t = t.takeWhile isDigit ++ t.dropWhile isDigit := fun t => List.takeWhile_append_dropWhile.symm
  have ad : ∀ t r, afterDigits t = some r → ∃ a, a ≠ [] ∧ (∀ c ∈ a, isDigit c = true) ∧ t = a ++ r := by
    intro t r h
    cases t with
    | nil => cases h
    | cons c t =>
      simp only [afterDigits] at h
      split at h
      · rename_i hc
        cases h
        refine ⟨c :: t.takeWhile isDigit, by simp, ?_, by simp⟩
        intro x hx
        rcases List.mem_cons.mp hx with e | e
        · rw [e]; exact hc
        · exact List.all_eq_true.mp List.all_takeWhile x e
      · cases h
  have da : ∀ a r : Text, a ≠ [] → (∀ c ∈ a, isDigit c = true) → afterDigits (a ++ r) = some (r.dropWhile isDigit) := by
    intro a r ha hd
    cases a with
    | nil => exact absurd rfl ha
    | cons c a =>
      simp only [List.cons_append, afterDigits, hd c (by simp), if_true]
      congr 1
      rw [List.dropWhile_append_of_pos]
      intro x hx
      exact hd x (by simp [hx])
  unfold isPythonDir PythonDir
  constructor
  · intro h
    split at h
    · rename_i hp
      obtain ⟨m, rfl⟩ := List.isPrefixOf_iff_prefix.mp hp
      have hdrop : List.drop 6 (t!"python" ++ m) = m := rfl
      rw [hdrop] at h
      split at h
      · rename_i r hr
        obtain ⟨a, ha, hda, e⟩ := ad _ _ hr
        rw [Option.isSome_iff_exists] at h
        obtain ⟨s, hs⟩ := h
        obtain ⟨b, hb, hdb, e2⟩ := ad _ _ hs
        refine ⟨a, b, s, ha, hb, hda, hdb, ?_⟩
        rw [e, e2]
        simp
      · cases h
    · cases h
  · rintro ⟨a, b, rest, ha, hb, hda, hdb, rfl⟩
    have hp : t!"python".isPrefixOf (t!"python" ++ a ++ t!"." ++ b ++ rest) = true := by
      rw [List.isPrefixOf_iff_prefix]
      exact ⟨a ++ t!"." ++ b ++ rest, by simp⟩
    rw [if_pos hp]
    have hdrop : List.drop 6 (t!"python" ++ a ++ t!"." ++ b ++ rest) = a ++ ('.' :: (b ++ rest)) := by
      simp
    rw [hdrop, da a _ ha hda]
    have : List.dropWhile isDigit ('.' :: (b ++ rest)) = '.' :: (b ++ rest) := by
      rw [List.dropWhile_cons, if_neg (by decide)]
    rw [this]
    simp only
    rw [da b _ hb hdb]
    rfl

theorem mem_libNames (tree : FS C) (hg : Good tree) (n : Text) : n ∈ libNames tree ↔ Dict.get tree [n, t!"lib"] ≠ none := by
  unfold libNames
  rw [List.mem_filterMap]
  constructor
  · rintro ⟨e, he, h⟩
    split at h
    · rename_i m l hk
      split at h
      · rename_i hl
        cases h
        subst hl
        rw [← hk, Dict.mem_get _ _ _ hg.wf he]
        simp
      · cases h
    · cases h
  · intro h
    cases hn : Dict.get tree [n, t!"lib"] with
    | none => exact absurd hn h
    | some x => exact ⟨_, Dict.get_mem _ _ _ hn, by simp⟩

theorem get_map_key {K V : Type} [DecidableEq K] (g : K → K) (p : K) : ∀ (d : Dict K V), (∀ e ∈ d, g e.1 = g p → e.1 = p) →
    Dict.get (d.map (fun e => (g e.1, e.2))) (g p) = Dict.get d p
  | [], _ => rfl
  | e :: d, h => by
    have ih := get_map_key g p d (fun e he => h e (by simp [he]))
    simp only [List.map_cons, Dict.get]
    by_cases hk : e.1 = p
    · rw [if_pos (by rw [hk]), if_pos hk]
    · rw [if_neg (fun hh => hk (h e (by simp) hh)), if_neg hk]
      exact ih

/-- The place of a file in the moved tree. -/
def shifted (a b p : Path) : Path := if a.isSuffixOf p then p.take (p.length - a.length) ++ b else p

theorem rename_eq (tree : FS C) (a b : Path) : rename tree a b = tree.map (fun e => (shifted a b e.1, e.2)) := by
  unfold rename
  apply List.map_congr_left
  intro e he
  unfold shifted
  split <;> rfl

theorem take_of_suffix (a p : Path) (h : a <:+ p) : p.take (p.length - a.length) ++ a = p := by
  obtain ⟨r, rfl⟩ := h
  simp

theorem shifted_inj (a b p q : Path) (hp : ¬ b <:+ p) (hq : ¬ b <:+ q) (h : shifted a b p = shifted a b q) : p = q := by
  unfold shifted at h
  by_cases h1 : a <:+ p
  · rw [if_pos (List.isSuffixOf_iff_suffix.mpr h1)] at h
    by_cases h2 : a <:+ q
    · rw [if_pos (List.isSuffixOf_iff_suffix.mpr h2)] at h
      have := List.append_cancel_right h
      rw [← take_of_suffix a p h1, ← take_of_suffix a q h2, this]
    · rw [if_neg (by rw [List.isSuffixOf_iff_suffix]; exact h2)] at h
      exact absurd ⟨_, h⟩ hq
  · rw [if_neg (by rw [List.isSuffixOf_iff_suffix]; exact h1)] at h
    by_cases h2 : a <:+ q
    · rw [if_pos (List.isSuffixOf_iff_suffix.mpr h2)] at h
      exact absurd ⟨_, h.symm⟩ hp
    · rw [if_neg (by rw [List.isSuffixOf_iff_suffix]; exact h2)] at h
      exact h

theorem below_none {fs : FS C} (hg : Good fs) (p : Path) (h : Dict.get fs p = none) (q : Path) (hq : p <:+ q) : Dict.get fs q = none := by
  cases hn : Dict.get fs q with
  | none => rfl
  | some n =>
    by_cases he : p = q
    · subst he; rw [h] at hn; cases hn
    · have := hg.ancestors q n hn p hq he
      rw [this] at h; cases h

theorem get_rename {tree : FS C} (hg : Good tree) (a b p : Path) (hb : Dict.get tree b = none) (hp : ¬ b <:+ p) :
    Dict.get (rename tree a b) (shifted a b p) = Dict.get tree p := by
  rw [rename_eq]
  apply get_map_key
  intro e he h
  refine shifted_inj a b _ _ ?_ hp h
  intro hs
  have := below_none hg b hb e.1 hs
  rw [Dict.mem_get _ _ _ hg.wf he] at this
  cases this

theorem gone_rename {tree : FS C} (hg : Good tree) (a b : Path) (hb : Dict.get tree b = none) (hab : ¬ a <:+ b) (hba : ¬ b <:+ a)
    (hl : a.length = b.length) : Dict.get (rename tree a b) a = none := by
  rw [rename_eq, Dict.get_none_iff]
  intro hk
  simp only [Dict.keys, List.map_map, List.mem_map] at hk
  obtain ⟨e, he, h⟩ := hk
  simp only [Function.comp, shifted] at h
  split at h
  · exact hba ⟨_, h⟩
  · rename_i hn
    rw [h] at hn
    simp at hn

/-- Regular cases: what `relocation` answers. -/
theorem relocation_spec {a : Archive C S} {pl : Place C S} {fs : FS C} {files : List Path} {site python : Text}
    (h : CondaCase a pl fs files site python) (tree : FS C) (move : Path → Path) (hr : relocation a pl = some (tree, move)) :
    ∀ f, CondaGoes a.tree pl.data python f (move f ++ pl.data) ∧
      ∀ c d, Dict.get a.tree f = some (.file c) → Dict.get tree (move f) = some (.file d) → Dict.get tree (move f) = some (.file c) := by
  intro f
  have hpy : pythonDir pl = some python := by
    unfold pythonDir
    rw [h.purelib]
    rfl
  -- nothing is below a directory of Python
  have hplain : (∀ n, Dict.get a.tree [n, t!"lib"] ≠ none → ¬ PythonDir n) → CondaGoes a.tree pl.data python f (f ++ pl.data) := by
    intro hn
    apply CondaGoes.plain
    rintro r n hr' hpd hin rfl
    exact hn n hin hpd
  unfold relocation at hr
  by_cases hlib : a.tree.ex [t!"lib"] = true
  · rw [if_pos hlib, hpy] at hr
    cases hp : packagePython a.tree with
    | none =>
      rw [hp] at hr
      simp only [Option.some.injEq, Prod.mk.injEq] at hr
      obtain ⟨rfl, rfl⟩ := hr
      refine ⟨hplain ?_, fun c d hf _ => hf⟩
      intro n hn hpd
      have := List.find?_eq_none.mp hp n ((mem_libNames a.tree h.archive n).mpr hn)
      rw [isPythonDir_iff] at this
      exact this hpd
    | some old =>
      rw [hp] at hr
      simp only [if_neg h.notLib] at hr
      have hold : PythonDir old := (isPythonDir_iff old).mp (List.find?_some hp)
      have holdin : Dict.get a.tree [old, t!"lib"] ≠ none := (mem_libNames a.tree h.archive old).mp (List.mem_of_find?_eq_some hp)
      have hnew : old = python ∨ Dict.get a.tree [python, t!"lib"] = none := by
        by_cases hn : Dict.get a.tree [python, t!"lib"] = none
        · exact .inr hn
        · exact .inl (h.one old python holdin hn hold (.inr rfl))
      -- where the file goes
      have hgoes : CondaGoes a.tree pl.data python f (relocate old python f ++ pl.data) := by
        unfold relocate
        by_cases hs : [old, t!"lib"].isSuffixOf f = true ∧ f ≠ [old, t!"lib"]
        · rw [if_pos hs]
          obtain ⟨r, rfl⟩ := List.isSuffixOf_iff_suffix.mp hs.1
          have hr' : r ≠ [] := by rintro rfl; exact hs.2 rfl
          have e : (r ++ [old, t!"lib"]).take ((r ++ [old, t!"lib"]).length - 2) = r := by simp
          rw [e, List.append_assoc]
          exact CondaGoes.module r old hr' hold holdin
        · rw [if_neg hs]
          apply CondaGoes.plain
          rintro r n hr' hpd hnin rfl
          have := h.one n old hnin holdin hpd (.inl hold)
          subst this
          refine hs ⟨by simp, ?_⟩
          intro e
          have := congrArg List.length e
          cases r with
          | nil => exact hr' rfl
          | cons x r => simp at this
      have hmv : moveLib a.tree old python = some tree ∧ move = relocate old python := by
        split at hr
        · rename_i tr e
          simp only [Option.some.injEq, Prod.mk.injEq] at hr
          obtain ⟨rfl, rfl⟩ := hr
          exact ⟨e, rfl⟩
        · cases hr
      obtain ⟨hm, rfl⟩ := hmv
      unfold moveLib at hm
      by_cases heq : old = python
      · rw [if_pos heq] at hm
        cases hm
        refine ⟨hgoes, fun c d hf _ => ?_⟩
        have : relocate old python f = f := by
          unfold relocate
          split
          · rename_i hs
            subst heq
            exact take_of_suffix [old, t!"lib"] f (List.isSuffixOf_iff_suffix.mp hs.1)
          · rfl
        rw [this]
        exact hf
      · rw [if_neg heq] at hm
        have hn := hnew.resolve_left heq
        rw [if_neg (by simp [FS.isDir, hn]), if_neg (by simp [FS.ex, hn])] at hm
        simp only [Option.some.injEq] at hm
        refine ⟨hgoes, fun c d hf hd => ?_⟩
        have hnb : ¬ [python, t!"lib"] <:+ f := by
          intro hs
          rw [below_none h.archive _ hn f hs] at hf
          cases hf
        have hns : ¬ [old, t!"lib"] <:+ [python, t!"lib"] ∧ ¬ [python, t!"lib"] <:+ [old, t!"lib"] := by
          constructor
          · intro hs
            have := hs.eq_of_length rfl
            simp at this
            exact heq this
          · intro hs
            have := hs.eq_of_length rfl
            simp at this
            exact heq this.symm
        by_cases hself : f = [old, t!"lib"]
        · exfalso
          subst hself
          have : relocate old python [old, t!"lib"] = [old, t!"lib"] := by
            unfold relocate
            rw [if_neg (by simp)]
          rw [this, ← hm, gone_rename h.archive _ _ hn hns.1 hns.2 rfl] at hd
          cases hd
        · have : relocate old python f = shifted [old, t!"lib"] [python, t!"lib"] f := by
            unfold relocate shifted
            by_cases hs : [old, t!"lib"].isSuffixOf f = true
            · rw [if_pos ⟨hs, hself⟩, if_pos hs]; rfl
            · rw [if_neg (by rintro ⟨e, _⟩; exact hs e), if_neg hs]
          rw [this, ← hm, get_rename h.archive _ _ _ hn hnb]
          exact hf
  · rw [if_neg hlib] at hr
    simp only [Option.some.injEq, Prod.mk.injEq] at hr
    obtain ⟨rfl, rfl⟩ := hr
    refine ⟨hplain ?_, fun c d hf _ => hf⟩
    intro n hn _
    apply hn
    apply below_none h.archive [t!"lib"]
    · cases hx : Dict.get a.tree [t!"lib"] with
      | none => rfl
      | some x => exact absurd ((ex_iff _ _).mpr ⟨x, hx⟩) hlib
    · exact ⟨[n], rfl⟩

/-- Verified signatures. -/
theorem verify_spec [DecidableEq S] (hash : C → S) (tree : FS C) : ∀ (ps : List (Path × S)) (sigs out : Dict Path S),
    verify hash tree ps sigs = .ok out → (∀ e ∈ ps, ∃ c, Dict.get tree e.1 = some (.file c) ∧ hash c = e.2) ∧
    ∀ p s, Dict.get out p = some s → (p, s) ∈ ps ∨ Dict.get sigs p = some s
  | [], sigs, out, h => by
    simp only [verify, Except.ok.injEq] at h
    subst h
    exact ⟨by simp, fun p s hs => .inr hs⟩
  | (p, s) :: ps, sigs, out, h => by
    simp only [verify] at h
    split at h
    · cases h
    · cases h
    · rename_i c hc
      split at h
      · rename_i hh
        obtain ⟨h1, h2⟩ := verify_spec hash tree ps _ out h
        refine ⟨?_, ?_⟩
        · intro e he
          rcases List.mem_cons.mp he with e1 | e1
          · subst e1; exact ⟨c, hc, hh⟩
          · exact h1 e e1
        · intro q s' hq
          rcases h2 q s' hq with e1 | e1
          · exact .inl (by simp [e1])
          · rw [Dict.get_put] at e1
            split at e1
            · rename_i e2
              cases e1
              subst e2
              exact .inl (by simp)
            · exact .inr e1
      · cases h

/-- Success, or a change, needs all the checks. -/
theorem install_steps [DecidableEq S] (hash : C → S) (order : List Path → List Path) (a : Archive C S) (pl : Place C S) (fs : FS C) :
    (∃ e, install hash order a pl fs = (fs, some e)) ∨
    ∃ ps sigs tree move files lib, a.paths = some ps ∧ verify hash a.tree ps [] = .ok sigs ∧ relocation a pl = some (tree, move) ∧
      a.files = some files ∧ libIn pl = some lib ∧
      install hash order a pl fs = (match linkFiles sigs tree move pl.data lib ⟨⟨fs, [], []⟩, [], []⟩ files with
            | .raised st => ((st.t.rollback order).1, some .io)
            | .ok st => match distInfoPart hash a pl st with
              | (fs, none) => (fs, none)
              | (fs, some e) => (({ st.t with fs := fs }.rollback order).1, some e)) := by
  unfold install
  split
  · exact .inl ⟨_, rfl⟩
  · split
    · exact .inl ⟨_, rfl⟩
    · rename_i ps hps
      split
      · exact .inl ⟨_, rfl⟩
      · rename_i sigs hsigs
        split
        · exact .inl ⟨_, rfl⟩
        · split
          · exact .inl ⟨_, rfl⟩
          · split
            · exact .inl ⟨_, rfl⟩
            · rename_i tree move hr
              split
              · exact .inl ⟨_, rfl⟩
              · rename_i files hf
                split
                · exact .inl ⟨_, rfl⟩
                · rename_i lib hl
                  exact .inr ⟨ps, sigs, tree, move, files, lib, hps, hsigs, hr, hf, hl, rfl⟩

/-- The generated files and RECORD. -/
theorem distInfo_get (hash : C → S) (a : Archive C S) (pl : Place C S) (st : LoopState C S) (hg : Good st.t.fs) (q : Path)
    (hq : q ≠ t!"RECORD" :: pl.distInfo :: pl.purelib) :
    Dict.get (distInfoPart hash a pl st).1 q = Dict.get st.t.fs q ∨
    (Dict.get st.t.fs q = none ∧ ((Dict.get (distInfoPart hash a pl st).1 q = some .dir ∧ q <:+ pl.distInfo :: pl.purelib) ∨
      ((q = t!"WHEEL" :: pl.distInfo :: pl.purelib ∨ q = t!"METADATA" :: pl.distInfo :: pl.purelib) ∧
        Dict.get st.t.fs (pl.distInfo :: pl.purelib) = none))) := by
  unfold distInfoPart
  simp only
  rw [Dict.get_put, if_neg (fun e => hq e.symm), Dict.get_del, if_neg (fun e => hq e.symm)]
  by_cases he : st.t.fs.ex (pl.distInfo :: pl.purelib) = true
  · rw [if_pos he]; exact .inl rfl
  · rw [if_neg he, Dict.get_put, Dict.get_put]
    have hn : Dict.get st.t.fs (pl.distInfo :: pl.purelib) = none := by
      cases hx : Dict.get st.t.fs (pl.distInfo :: pl.purelib) with
      | none => rfl
      | some x => exact absurd ((ex_iff _ _).mpr ⟨x, hx⟩) he
    by_cases h1 : t!"METADATA" :: pl.distInfo :: pl.purelib = q
    · right
      refine ⟨?_, .inr ⟨.inr h1.symm, hn⟩⟩
      rw [← h1]
      exact below_none hg _ hn _ (List.suffix_cons _ _)
    · rw [if_neg h1]
      by_cases h2 : t!"WHEEL" :: pl.distInfo :: pl.purelib = q
      · right
        refine ⟨?_, .inr ⟨.inl h2.symm, hn⟩⟩
        rw [← h2]
        exact below_none hg _ hn _ (List.suffix_cons _ _)
      · rw [if_neg h2, addDirs_get' _ hg]
        split
        · rename_i h3
          exact .inr ⟨h3.1, .inl ⟨rfl, h3.2⟩⟩
        · exact .inl rfl

theorem distInfo_file (hash : C → S) (a : Archive C S) (pl : Place C S) (st : LoopState C S) (hg : Good st.t.fs) (q : Path) (c : C)
    (hq : q ≠ t!"RECORD" :: pl.distInfo :: pl.purelib) (h : Dict.get st.t.fs q = some (.file c)) :
    Dict.get (distInfoPart hash a pl st).1 q = some (.file c) := by
  rcases distInfo_get hash a pl st hg q hq with e | ⟨e, _⟩
  · rw [e]; exact h
  · rw [h] at e; cases e

theorem goes_ne {tree : FS C} {data : Path} {python : Text} {f p : Path} (h : CondaGoes tree data python f p) (hf : f ≠ []) : p ≠ [] := by
  cases h with
  | module r n hr => simp [hr]
  | plain => simp [hf]

/-- A file has one place. -/
theorem goes_unique {tree : FS C} {data : Path} {python : Text} {f p q : Path} (h : CondaGoes tree data python f p)
    (h' : CondaGoes tree data python f q) : p = q := by
  cases h with
  | module r n hr hp hin =>
    generalize hf : r ++ [n, t!"lib"] = f at h'
    cases h' with
    | module r' n' hr' hp' hin' =>
      have := List.append_inj' hf rfl
      rw [this.1]
    | plain _ hh => exact absurd hf.symm (hh r n hr hp hin)
  | plain _ hh =>
    cases h' with
    | module r' n' hr' hp' hin' => exact absurd rfl (hh r' n' hr' hp' hin')
    | plain => rfl

/-- The loop in regular cases. -/
theorem loop_spec [DecidableEq S] {a : Archive C S} {pl : Place C S} {fs : FS C} {files : List Path} {site python : Text}
    (h : CondaCase a pl fs files site python) (sigs : Dict Path S) (tree : FS C) (move : Path → Path) (lib : Path)
    (hr : relocation a pl = some (tree, move)) :
    (∃ st', linkFiles sigs tree move pl.data lib ⟨⟨fs, [], []⟩, [], []⟩ files = .ok st' ∧
      Linked fs (files.map (fun g => move g ++ pl.data)) st'.t st'.parents ∧ Copied sigs tree move pl.data lib files st') ∨
    (∃ st' now, linkFiles sigs tree move pl.data lib ⟨⟨fs, [], []⟩, [], []⟩ files = .raised st' ∧ now <+: files ∧
      Linked fs (now.map (fun g => move g ++ pl.data)) st'.t st'.parents) := by
  have hgo := fun f => (relocation_spec h tree move hr f).1
  have := linkFiles_spec (sigs := sigs) (tree := tree) (move := move) (data := pl.data) (lib := lib) (fs0 := fs) files []
    ⟨⟨fs, [], []⟩, [], []⟩ (Linked.start fs h.target) ⟨by simp, by simp [Dict.get]⟩
    (by
      unfold AllApart
      rw [List.nil_append, List.pairwise_map]
      exact h.apart.imp (fun {f g} hfg => hfg _ _ (hgo f) (hgo g)))
    (fun f hf => goes_ne (hgo f) (by rintro rfl; exact h.named hf))
    (fun f hf => h.noDir f hf _ (hgo f))
  simpa using this

/-- A rollback leaves at most directories. -/
theorem rollback_spec {fs0 : FS C} {done : List Path} {t : Txn C} {ps : List Path} (h : Linked fs0 done t ps)
    (ha : AllApart done) (order : List Path → List Path) (hord : ∀ l p, p ∈ order l ↔ p ∈ l) (hnd : ∀ l, (order l).Nodup) :
    ∀ q, Dict.get (t.rollback order).1 q = Dict.get fs0 q ∨
      (Dict.get fs0 q = none ∧ Dict.get (t.rollback order).1 q = some .dir ∧ ∃ d ∈ done, q <:+ parent d) := by
  obtain ⟨fs1, h1, h2, h3⟩ := h.base
  have hpw : (order t.copied).Pairwise (fun a b => ¬ a <:+ b) := by
    have hn := hnd t.copied
    unfold List.Nodup at hn
    refine hn.imp_of_mem ?_
    intro x y hx hy hne hs
    have hx := h.copied x ((hord _ _).mp hx)
    have hy := h.copied y ((hord _ _).mp hy)
    unfold AllApart at ha
    obtain ⟨i, hi, rfl⟩ := List.getElem_of_mem hx
    obtain ⟨j, hj, rfl⟩ := List.getElem_of_mem hy
    rcases Nat.lt_trichotomy i j with hij | hij | hij
    · exact (List.pairwise_iff_getElem.mp ha i j hi hj hij).1 hs
    · subst hij; exact hne rfl
    · exact (List.pairwise_iff_getElem.mp ha j i hj hi hij).2 hs
  have := (rollback_state h1 h2 order hord).2.2 hpw
  intro q
  rw [this q]
  exact h3 q

/-- Recorded paths: those of the archive are those of the environment. -/
theorem pathToLoop_shift (data p : Path) (hp : p ≠ []) : ∀ (q : Path) (n m b : Nat), q.length < n → q.length < m →
    pathToLoop (p ++ data) n (q ++ data) b = pathToLoop p m q b := by
  intro q
  induction q with
  | nil =>
    intro n m b hn hm
    cases n with
    | zero => cases hn
    | succ n =>
      cases m with
      | zero => cases hm
      | succ m =>
        simp only [pathToLoop]
        rw [if_pos ⟨by simpa using hp, by simp⟩, if_pos ⟨hp, by simp⟩]
        simp
  | cons x q ih =>
    intro n m b hn hm
    cases n with
    | zero => cases hn
    | succ n =>
      cases m with
      | zero => cases hm
      | succ m =>
        simp only [pathToLoop]
        have hs : (x :: q ++ data) <:+ (p ++ data) ↔ (x :: q) <:+ p := by
          constructor
          · rintro ⟨r, hr⟩
            rw [← List.append_assoc] at hr
            exact ⟨r, List.append_cancel_right hr⟩
          · rintro ⟨r, rfl⟩
            exact ⟨r, by simp⟩
        have he : (p ++ data ≠ x :: q ++ data ∧ (x :: q ++ data).isSuffixOf (p ++ data) = true) ↔
            (p ≠ x :: q ∧ (x :: q).isSuffixOf p = true) := by
          rw [List.isSuffixOf_iff_suffix, List.isSuffixOf_iff_suffix, hs, ne_eq, List.append_cancel_right_eq]
        by_cases hc : p ≠ x :: q ∧ (x :: q).isSuffixOf p = true
        · rw [if_pos hc, if_pos (he.mpr hc)]
          obtain ⟨r, rfl⟩ := List.isSuffixOf_iff_suffix.mp hc.2
          simp
        · rw [if_neg hc, if_neg (fun h => hc (he.mp h))]
          exact ih n m (b + 1) (by simp at hn; omega) (by simp at hm; omega)

theorem pathIn_shift (data lib p : Path) (hp : p ≠ []) : pathIn (lib ++ data) (p ++ data) = pathIn lib p := by
  unfold pathIn pathTo
  rw [pathToLoop_shift data p hp lib _ (lib.length + 1) 0 (by simp; omega) (by omega)]

end Conda
open Conda

variable {C S : Type}

/-- **C90.** Nothing of the environment is changed, and no installation succeeds, before every path that the archive lists has
been found to be a file with the listed hash. -/
theorem conda_checked_first [DecidableEq S] (hash : C → S) (order : List Path → List Path) (a : Archive C S) (pl : Place C S)
    (fs : FS C) (h : (install hash order a pl fs).1 ≠ fs ∨ (install hash order a pl fs).2 = none) :
    ∃ listed, a.paths = some listed ∧ ∀ e ∈ listed, ∃ c, Dict.get a.tree e.1 = some (.file c) ∧ hash c = e.2 := by
  rcases install_steps hash order a pl fs with ⟨e, he⟩ | ⟨ps, sigs, tree, move, files, lib, h1, h2, h3, h4, h5, h6⟩
  · rw [he] at h; simp at h
  · exact ⟨ps, h1, (verify_spec hash a.tree ps [] sigs h2).1⟩

namespace Conda

/-- A successful installation. -/
theorem success_spec [DecidableEq S] {hash : C → S} {order : List Path → List Path} {a : Archive C S} {pl : Place C S}
    {fs fs' : FS C} {files : List Path} {site python : Text} (h : CondaCase a pl fs files site python)
    (hi : install hash order a pl fs = (fs', none)) :
    ∃ ps sigs tree move st, a.paths = some ps ∧ verify hash a.tree ps [] = .ok sigs ∧ relocation a pl = some (tree, move) ∧
      Linked fs (files.map (fun g => move g ++ pl.data)) st.t st.parents ∧
      Copied sigs tree move pl.data [site, python, t!"lib"] files st ∧ fs' = (distInfoPart hash a pl st).1 := by
  rcases install_steps hash order a pl fs with ⟨e, he⟩ | ⟨ps, sigs, tree, move, files', lib, h1, h2, h3, h4, h5, h6⟩
  · rw [he] at hi; simp at hi
  · rw [h.listed] at h4
    simp only [Option.some.injEq] at h4
    subst h4
    have hlib : lib = [site, python, t!"lib"] := by
      unfold libIn at h5
      rw [h.purelib, if_pos (by
        rw [List.isSuffixOf_iff_suffix]
        exact ⟨[site, python, t!"lib"], rfl⟩)] at h5
      simp only [Option.some.injEq] at h5
      rw [← h5]
      have : (site :: python :: t!"lib" :: pl.data).length - pl.data.length = 3 := by simp; omega
      rw [this]
      rfl
    subst hlib
    rw [h6] at hi
    rcases loop_spec h sigs tree move [site, python, t!"lib"] h3 with ⟨st, e, hl, hc⟩ | ⟨st, now, e, _⟩
    · rw [e] at hi
      simp only at hi
      refine ⟨ps, sigs, tree, move, st, h1, h2, h3, hl, hc, ?_⟩
      cases hd : distInfoPart hash a pl st with
      | mk f2 o =>
        rw [hd] at hi
        cases o with
        | none => simp only [Prod.mk.injEq, and_true] at hi; exact hi.symm
        | some x => simp at hi
    · rw [e] at hi
      simp at hi

end Conda

/-- **C90.** What is installed: after a successful installation each listed file of the archive is at the place where it
belongs, with the content it has in the archive, whose hash is the one that the archive lists for it. Missing from the
full claim: archives with modules of several versions of Python, files that replace directories, and RECORD. -/
theorem conda_installed_partial [DecidableEq S] (hash : C → S) (order : List Path → List Path) (a : Archive C S) (pl : Place C S)
    (fs fs' : FS C) (files : List Path) (site python : Text) (h : CondaCase a pl fs files site python)
    (hi : install hash order a pl fs = (fs', none)) (f p : Path) (hf : f ∈ files) (hp : CondaGoes a.tree pl.data python f p)
    (hrec : p ≠ t!"RECORD" :: pl.distInfo :: pl.purelib) :
    ∃ c listed, Dict.get a.tree f = some (.file c) ∧ a.paths = some listed ∧ (f, hash c) ∈ listed ∧
      Dict.get fs' p = some (.file c) := by
  obtain ⟨ps, sigs, tree, move, st, h1, h2, h3, hl, hc, rfl⟩ := success_spec h hi
  obtain ⟨v1, v2⟩ := verify_spec hash a.tree ps [] sigs h2
  obtain ⟨s, d, hs, ht, hget, _⟩ := hc.files f hf
  have hmem : (f, s) ∈ ps := by
    rcases v2 f s hs with e | e
    · exact e
    · simp [Dict.get] at e
  obtain ⟨c, hct, hhash⟩ := v1 _ hmem
  obtain ⟨hgo, hsame⟩ := relocation_spec h tree move h3 f
  have := hsame c d hct ht
  rw [ht] at this
  cases this
  have hpp := goes_unique hp hgo
  subst hpp
  refine ⟨d, ps, hct, h1, ?_, ?_⟩
  · simp only at hhash; rw [hhash]; exact hmem
  · obtain ⟨_, _, hr, _⟩ := hl.base
    exact distInfo_file hash a pl st hr.good _ d hrec hget

/-- **C90.** What is left alone: after a successful installation everything that is not the place of a listed file and not in
the directory of the package's information is as before, except for new directories above them. -/
theorem conda_untouched [DecidableEq S] (hash : C → S) (order : List Path → List Path) (a : Archive C S) (pl : Place C S)
    (fs fs' : FS C) (files : List Path) (site python : Text) (h : CondaCase a pl fs files site python)
    (hi : install hash order a pl fs = (fs', none)) (q : Path)
    (hq : ∀ f ∈ files, ∀ p, CondaGoes a.tree pl.data python f p → q ≠ p) (hd : ¬ pl.distInfo :: pl.purelib <:+ q) :
    Dict.get fs' q = Dict.get fs q ∨
    (Dict.get fs q = none ∧ Dict.get fs' q = some .dir ∧
      (q <:+ pl.distInfo :: pl.purelib ∨ ∃ f ∈ files, ∃ p, CondaGoes a.tree pl.data python f p ∧ q <:+ p)) := by
  obtain ⟨ps, sigs, tree, move, st, h1, h2, h3, hl, hc, rfl⟩ := success_spec h hi
  have hgo := fun f => (relocation_spec h tree move h3 f).1
  obtain ⟨fs1, g1, hr, hb⟩ := hl.base
  have hnd : q ∉ files.map (fun g => move g ++ pl.data) := by
    intro hm
    obtain ⟨f, hf, e⟩ := List.mem_map.mp hm
    exact hq f hf _ (hgo f) e.symm
  have hsame : Dict.get st.t.fs q = Dict.get fs1 q := hr.other q (fun hm => hnd (hl.copied q hm)) (fun hm => hnd (hl.saved q hm))
  have hst : Dict.get st.t.fs q = Dict.get fs q ∨ (Dict.get fs q = none ∧ Dict.get st.t.fs q = some .dir ∧
      ∃ f ∈ files, ∃ p, CondaGoes a.tree pl.data python f p ∧ q <:+ p) := by
    rw [hsame]
    rcases hb q with e | ⟨e1, e2, d, hdm, e3⟩
    · exact .inl e
    · obtain ⟨f, hf, rfl⟩ := List.mem_map.mp hdm
      exact .inr ⟨e1, e2, f, hf, _, hgo f, e3.trans (parent_suffix _)⟩
  have hnr : ∀ x : Text, q ≠ x :: pl.distInfo :: pl.purelib := by
    rintro x rfl
    exact hd (List.suffix_cons _ _)
  rcases distInfo_get hash a pl st hr.good q (hnr _) with e | ⟨e, e2 | e2⟩
  · rw [e]
    rcases hst with e' | ⟨e1, e2, e3⟩
    · exact .inl e'
    · exact .inr ⟨e1, e2, .inr e3⟩
  · rcases hst with e' | ⟨e1, e3, _⟩
    · exact .inr ⟨by rw [← e']; exact e, e2.1, .inl e2.2⟩
    · rw [e] at e3; cases e3
  · rcases e2.1 with e3 | e3
    · exact absurd e3 (hnr _)
    · exact absurd e3 (hnr _)

/-- **C90.** The record: after a successful installation RECORD has exactly the installed files, each with the hash of its content.
Missing from the full claim: as for `conda_installed_partial`; generated files are not recorded (see `conda_generated_violated`). -/
theorem conda_record_partial [DecidableEq S] (hash : C → S) (order : List Path → List Path) (a : Archive C S) (pl : Place C S)
    (fs fs' : FS C) (files : List Path) (site python : Text) (h : CondaCase a pl fs files site python)
    (hv : ∀ f ∈ files, ∀ p, CondaGoes a.tree pl.data python f p → ∀ c ∈ p, ValidName c)
    (hi : install hash order a pl fs = (fs', none)) :
    ∃ records, Dict.get fs' (t!"RECORD" :: pl.distInfo :: pl.purelib) = some (.file (pl.record records)) ∧
      (∀ f ∈ files, ∀ p, CondaGoes a.tree pl.data python f p → p ≠ t!"RECORD" :: pl.distInfo :: pl.purelib →
        ∃ r ∈ records, ∃ c, Dict.get fs' p = some (.file c) ∧ resolveFrom pl.purelib r.file = p ∧ r.sig = some (hash c)) ∧
      (∀ r ∈ records, ∃ f ∈ files, ∃ p c, CondaGoes a.tree pl.data python f p ∧ p ≠ t!"RECORD" :: pl.distInfo :: pl.purelib ∧
        Dict.get fs' p = some (.file c) ∧ resolveFrom pl.purelib r.file = p ∧ r.sig = some (hash c)) := by
  obtain ⟨ps, sigs, tree, move, st, h1, h2, h3, hl, hc, rfl⟩ := success_spec h hi
  obtain ⟨v1, v2⟩ := verify_spec hash a.tree ps [] sigs h2
  obtain ⟨_, _, hr, _⟩ := hl.base
  have hgo := fun f => (relocation_spec h tree move h3 f).1
  have hne : ∀ f ∈ files, move f ++ pl.data ≠ [] := fun f hf => goes_ne (hgo f) (by rintro rfl; exact h.named hf)
  have hlead : ∀ f ∈ files, ∀ t, pathIn pl.purelib (move f ++ pl.data) = some t → resolveFrom pl.purelib t = move f ++ pl.data := by
    intro f hf t ht
    obtain ⟨t', e1, e2⟩ := path_to_leads_partial pl.purelib (move f ++ pl.data) (hne f hf) (hv f hf _ (hgo f)) (pl.purelib.length + 1) (by omega)
    unfold pathIn at ht
    rw [e1] at ht
    cases ht
    exact e2
  have hmove : ∀ f ∈ files, move f ≠ [] := by
    intro f hf e
    have hg := hgo f
    generalize hm : move f ++ pl.data = m at hg
    cases hg with
    | module r n hr' =>
      rw [e] at hm
      have := congrArg List.length hm
      simp at this
      omega
    | plain _ hh =>
      rw [e] at hm
      have := congrArg List.length hm
      simp at this
      exact h.named (this ▸ hf)
  -- contents and hashes
  have hcont : ∀ f ∈ files, ∃ c, Dict.get sigs f = some (hash c) ∧ Dict.get tree (move f) = some (.file c) ∧
      Dict.get st.t.fs (move f ++ pl.data) = some (.file c) ∧ move f ++ pl.data ∈ st.t.copied := by
    intro f hf
    obtain ⟨s, d, hs, ht, hget, hcp⟩ := hc.files f hf
    have hmem : (f, s) ∈ ps := by
      rcases v2 f s hs with e | e
      · exact e
      · simp [Dict.get] at e
    obtain ⟨c, hct, hhash⟩ := v1 _ hmem
    have := (relocation_spec h tree move h3 f).2 c d hct ht
    rw [ht] at this
    cases this
    simp only at hhash
    exact ⟨d, by rw [hs, hhash], ht, hget, hcp⟩
  have hpre : ∀ f ∈ files, ∀ t c, pathIn pl.purelib (move f ++ pl.data) = some t → Dict.get tree (move f) = some (.file c) →
      ((Dict.get st.hashes t).getD (hash c)) = hash c := by
    intro f hf t c ht hcf
    cases hx : Dict.get st.hashes t with
    | none => rfl
    | some s =>
      obtain ⟨g, hg, hgs, hgt⟩ := hc.hashes t s hx
      have hshift := pathIn_shift pl.data [site, python, t!"lib"] (move g) (hmove g hg)
      have hpl : [site, python, t!"lib"] ++ pl.data = pl.purelib := by rw [h.purelib]; rfl
      rw [hpl, hgt] at hshift
      have e1 := hlead g hg t hshift
      have e2 := hlead f hf t ht
      have e3 : move g = move f := List.append_cancel_right (e1.symm.trans e2)
      obtain ⟨c', k1, k2, _⟩ := hcont g hg
      rw [hgs] at k1
      cases k1
      rw [e3, hcf] at k2
      cases k2
      rfl
  let di := pl.distInfo :: pl.purelib
  let fsd := Dict.del (if st.t.fs.ex di then st.t.fs
    else Dict.put (Dict.put (addDirs st.t.fs di) (t!"WHEEL" :: di) (.file pl.wheel)) (t!"METADATA" :: di) (.file pl.metadata))
    (t!"RECORD" :: di)
  have hfs' : (distInfoPart hash a pl st).1 = Dict.put fsd (t!"RECORD" :: di)
      (.file (pl.record (signFiles st.hashes hash fsd pl.purelib st.t.copied))) := rfl
  have hfd : ∀ q, q ≠ t!"RECORD" :: di → Dict.get (distInfoPart hash a pl st).1 q = Dict.get fsd q := by
    intro q hq
    rw [hfs', Dict.get_put, if_neg (fun e => hq e.symm)]
  refine ⟨signFiles st.hashes hash fsd pl.purelib st.t.copied, by rw [hfs', Dict.get_put, if_pos rfl], ?_, ?_⟩
  · intro f hf p hp hpr
    have := goes_unique hp (hgo f)
    subst this
    obtain ⟨c, k1, k2, k3, k4⟩ := hcont f hf
    have hfin := distInfo_file hash a pl st hr.good _ c hpr k3
    obtain ⟨t, t1, t2⟩ := path_to_leads_partial pl.purelib (move f ++ pl.data) (hne f hf) (hv f hf _ (hgo f)) (pl.purelib.length + 1) (by omega)
    refine ⟨⟨t, some (hash c)⟩, ?_, c, hfin, t2, rfl⟩
    rw [mem_signFiles]
    refine ⟨_, k4, c, t, by rw [← hfd _ hpr]; exact hfin, t1, ?_⟩
    rw [hpre f hf t c t1 k2]
  · intro r hr'
    rw [mem_signFiles] at hr'
    obtain ⟨q, hq, c, t, q1, q2, rfl⟩ := hr'
    have hqr : q ≠ t!"RECORD" :: di := by
      rintro rfl
      simp only [fsd] at q1
      rw [Dict.get_del, if_pos rfl] at q1
      cases q1
    obtain ⟨f, hf, rfl⟩ := List.mem_map.mp (hl.copied q hq)
    obtain ⟨d, k1, k2, k3, k4⟩ := hcont f hf
    have hfin := distInfo_file hash a pl st hr.good _ d hqr k3
    have hcd : c = d := by
      rw [← hfd _ hqr, hfin] at q1
      cases q1
      rfl
    subst hcd
    exact ⟨f, hf, _, c, hgo f, hqr, hfin, hlead f hf t q2, by simp only; rw [hpre f hf t c q2 k2]⟩

/-- **C90.** What a failed installation leaves, unless it is a hook that fails: everything is as before, except for new
directories above the places of listed files. Missing from the full claim: the failure of hooks
(see `conda_hook_violated`), and the directories. -/
theorem conda_failed_partial [DecidableEq S] (hash : C → S) (order : List Path → List Path) (hord : ∀ l p, p ∈ order l ↔ p ∈ l)
    (hnd : ∀ l, (order l).Nodup) (a : Archive C S) (pl : Place C S) (fs fs' : FS C) (files : List Path) (site python : Text)
    (h : CondaCase a pl fs files site python) (e : IErr) (he : e ≠ .hook) (hi : install hash order a pl fs = (fs', some e)) (q : Path) :
    Dict.get fs' q = Dict.get fs q ∨
    (Dict.get fs q = none ∧ Dict.get fs' q = some .dir ∧ ∃ f ∈ files, ∃ p, CondaGoes a.tree pl.data python f p ∧ q <:+ p ∧ q ≠ p) := by
  rcases install_steps hash order a pl fs with ⟨e', he'⟩ | ⟨ps, sigs, tree, move, files', lib, h1, h2, h3, h4, h5, h6⟩
  · rw [he'] at hi
    simp only [Prod.mk.injEq] at hi
    exact .inl (by rw [hi.1])
  · rw [h.listed] at h4
    simp only [Option.some.injEq] at h4
    subst h4
    have hgo := fun f => (relocation_spec h tree move h3 f).1
    rw [h6] at hi
    rcases loop_spec h sigs tree move lib h3 with ⟨st, e', hl, hc⟩ | ⟨st, now, e', hnow, hl⟩
    · rw [e'] at hi
      simp only [distInfoPart] at hi
      by_cases hk : hookRaises a t!"post-link" = true
      · rw [if_pos hk] at hi
        simp only [Prod.mk.injEq, Option.some.injEq] at hi
        exact absurd hi.2.symm he
      · rw [if_neg hk] at hi
        simp at hi
    · rw [e'] at hi
      simp only [Prod.mk.injEq] at hi
      obtain ⟨rfl, _⟩ := hi
      have hap : AllApart (now.map (fun g => move g ++ pl.data)) := by
        unfold AllApart
        rw [List.pairwise_map]
        exact (h.apart.sublist hnow.sublist).imp (fun {f g} hfg => hfg _ _ (hgo f) (hgo g))
      rcases rollback_spec hl hap order hord hnd q with e1 | ⟨e1, e2, d, hd, e3⟩
      · exact .inl e1
      · obtain ⟨f, hf, rfl⟩ := List.mem_map.mp hd
        refine .inr ⟨e1, e2, f, hnow.subset hf, _, hgo f, e3.trans (parent_suffix _), ?_⟩
        rintro rfl
        have hfm := hnow.subset hf
        have hne := goes_ne (hgo f) (by rintro rfl; exact h.named hfm)
        cases hx : move f ++ pl.data with
        | nil => exact hne hx
        | cons x r => rw [hx] at e3; exact not_cons_suffix x r e3

/-! ### a case -/

namespace Conda

/-- An archive with a program and a module for Python 3.9. Contents are numbers, and their own hashes. -/
def sampleTree : FS Nat :=
  [([], .dir), ([t!"info"], .dir), ([t!"bin"], .dir), ([t!"tool", t!"bin"], .file 1), ([t!"lib"], .dir), ([t!"python3.9", t!"lib"], .dir),
   ([t!"site-packages", t!"python3.9", t!"lib"], .dir), ([t!"a.py", t!"site-packages", t!"python3.9", t!"lib"], .file 2)]

def sampleFiles : List Path := [[t!"tool", t!"bin"], [t!"a.py", t!"site-packages", t!"python3.9", t!"lib"]]

def sample : Archive Nat Nat := ⟨sampleTree, some [([t!"tool", t!"bin"], 1), ([t!"a.py", t!"site-packages", t!"python3.9", t!"lib"], 2)], true, some sampleFiles⟩

/-- An environment with Python 3.10; the content of a record is the number of its entries. -/
def samplePlace : Place Nat Nat :=
  ⟨[t!"env"], [t!"site-packages", t!"python3.10", t!"lib", t!"env"], t!"a-1.dist-info", 10, 11, fun rs => 100 + rs.length⟩

/-- It has an older program. -/
def sampleFs : FS Nat := [([], .dir), ([t!"env"], .dir), ([t!"bin", t!"env"], .dir), ([t!"tool", t!"bin", t!"env"], .file 7)]

theorem sampleTree_good : Good sampleTree := by
  refine ⟨?_, rfl, ?_⟩
  · intro x p n h
    have := Dict.get_mem _ _ _ h
    simp only [sampleTree, List.mem_cons, Prod.mk.injEq, List.cons.injEq, List.not_mem_nil, or_false] at this
    rcases this with h | h | h | h | h | h | h | h <;> first | (obtain ⟨⟨rfl, rfl⟩, _⟩ := h; rfl) | (exact absurd h.1 (by simp))
  · unfold Dict.Wf; decide

theorem sampleFs_good : Good sampleFs := by
  refine ⟨?_, rfl, ?_⟩
  · intro x p n h
    have := Dict.get_mem _ _ _ h
    simp only [sampleFs, List.mem_cons, Prod.mk.injEq, List.cons.injEq, List.not_mem_nil, or_false] at this
    rcases this with h | h | h | h <;> first | (obtain ⟨⟨rfl, rfl⟩, _⟩ := h; rfl) | (exact absurd h.1 (by simp))
  · unfold Dict.Wf; decide

theorem sample_python : PythonDir t!"python3.9" := ⟨t!"3", t!"9", [], by simp, by simp, by decide, by decide, rfl⟩

theorem sample_lib (n : Text) (h : Dict.get sampleTree [n, t!"lib"] ≠ none) : n = t!"python3.9" := by
  cases hx : Dict.get sampleTree [n, t!"lib"] with
  | none => exact absurd hx h
  | some x =>
    have := Dict.get_mem _ _ _ hx
    simp [sampleTree] at this
    exact this.1

/-- Where its files belong. -/
theorem sample_goes (p : Path) : (CondaGoes sampleTree [t!"env"] t!"python3.10" [t!"tool", t!"bin"] p → p = [t!"tool", t!"bin", t!"env"]) ∧
    (CondaGoes sampleTree [t!"env"] t!"python3.10" [t!"a.py", t!"site-packages", t!"python3.9", t!"lib"] p →
      p = [t!"a.py", t!"site-packages", t!"python3.10", t!"lib", t!"env"]) := by
  constructor
  · intro h
    refine goes_unique h (CondaGoes.plain _ ?_)
    rintro r n hr hp hin e
    have e2 : [t!"tool"] ++ [t!"bin"] = (r ++ [n]) ++ [t!"lib"] := by simpa using e
    have := (List.append_inj' e2 rfl).2
    simp at this
  · intro h
    exact goes_unique h (CondaGoes.module [t!"a.py", t!"site-packages"] t!"python3.9" (by simp) sample_python (by decide))

theorem sample_case : CondaCase sample samplePlace sampleFs sampleFiles t!"site-packages" t!"python3.10" where
  archive := sampleTree_good
  target := sampleFs_good
  purelib := rfl
  notLib := by decide
  one := by
    intro n m hn hm hpn hpm
    rw [sample_lib n hn, sample_lib m hm]
  listed := rfl
  named := by decide
  apart := by
    unfold sampleFiles
    refine List.Pairwise.cons ?_ (List.pairwise_singleton _ _)
    intro g hg p q hp hq
    rw [List.mem_singleton] at hg
    subst hg
    rw [(sample_goes p).1 hp, (sample_goes q).2 hq]
    decide
  noDir := by
    intro f hf p hp
    simp only [sampleFiles, List.mem_cons, List.not_mem_nil, or_false] at hf
    rcases hf with rfl | rfl
    · rw [(sample_goes p).1 hp]; decide
    · rw [(sample_goes p).2 hp]; decide

/-- Its installation succeeds: the older program is replaced, the module is where Python 3.10 looks for it. -/
example : (install id id sample samplePlace sampleFs).2 = none ∧
    Dict.get (install id id sample samplePlace sampleFs).1 [t!"tool", t!"bin", t!"env"] = some (.file 1) ∧
    Dict.get (install id id sample samplePlace sampleFs).1 [t!"a.py", t!"site-packages", t!"python3.10", t!"lib", t!"env"] = some (.file 2) ∧
    Dict.get (install id id sample samplePlace sampleFs).1
      [t!"RECORD", t!"a-1.dist-info", t!"site-packages", t!"python3.10", t!"lib", t!"env"] = some (.file 102) := by
  decide +kernel

/-- With a third file, which is not in the archive, it fails, and `conda_failed_partial` is not about nothing. -/
def sampleShort : Archive Nat Nat := { sample with files := some (sampleFiles ++ [[t!"b", t!"share"]]) }

example : (install id id sampleShort samplePlace sampleFs).2 = some .io ∧
    Dict.get (install id id sampleShort samplePlace sampleFs).1 [t!"tool", t!"bin", t!"env"] = some (.file 7) ∧
    Dict.get (install id id sampleShort samplePlace sampleFs).1 [t!"a.py", t!"site-packages", t!"python3.10", t!"lib", t!"env"] = none := by
  decide +kernel

end Conda

/-- **C90, violated.** A failed installation does leave directories. -/
theorem conda_directories_violated :
    (install id id sampleShort samplePlace sampleFs).2 = some .io ∧
    Dict.get sampleFs [t!"python3.10", t!"lib", t!"env"] = none ∧
    Dict.get (install id id sampleShort samplePlace sampleFs).1 [t!"python3.10", t!"lib", t!"env"] = some .dir := by
  decide +kernel

/-- **C90.** An archive without its directory of information, its list of signed paths, its index or its list of files, or
with a script to run before the installation, is rejected before anything is changed. -/
theorem conda_rejected [DecidableEq S] (hash : C → S) (order : List Path → List Path) (a : Archive C S) (pl : Place C S) (fs : FS C)
    (h : Dict.get a.tree [t!"info"] ≠ some .dir ∨ a.paths = none ∨ a.index = false ∨ a.files = none ∨
      Dict.get a.tree [t!"pre-link.sh", t!"bin", t!"info"] ≠ none) :
    ∃ e, install hash order a pl fs = (fs, some e) := by
  unfold install
  split
  · exact ⟨_, rfl⟩
  · rename_i hinfo
    split
    · exact ⟨_, rfl⟩
    · rename_i ps hps
      split
      · exact ⟨_, rfl⟩
      · split
        · exact ⟨_, rfl⟩
        · rename_i hindex
          split
          · exact ⟨_, rfl⟩
          · rename_i hpre
            split
            · exact ⟨_, rfl⟩
            · split
              · exact ⟨_, rfl⟩
              · rename_i files hfiles
                exfalso
                rcases h with h | h | h | h | h
                · cases hg : Dict.get a.tree [t!"info"] with
                  | none => simp [FS.isDir, hg] at hinfo
                  | some x => cases x with
                    | dir => exact h hg
                    | file c => simp [FS.isDir, hg] at hinfo
                · rw [h] at hps; cases hps
                · rw [h] at hindex; simp at hindex
                · rw [h] at hfiles; cases hfiles
                · apply hpre
                  unfold hookRaises
                  cases hx : Dict.get a.tree [t!"pre-link.sh", t!"bin", t!"info"] with
                  | none => exact absurd hx h
                  | some x => exact (ex_iff _ _).mpr ⟨x, hx⟩

example : ∃ e, install id id { sample with index := false } samplePlace sampleFs = (sampleFs, some e) :=
  conda_rejected id id _ samplePlace sampleFs (by right; right; left; rfl)

/-- **C90, violated.** An archive with a script to be run after installation is never installed. -/
theorem conda_hook_never [DecidableEq S] (hash : C → S) (order : List Path → List Path) (a : Archive C S) (pl : Place C S) (fs : FS C)
    (hh : Dict.get a.tree [t!"post-link.sh", t!"bin", t!"info"] ≠ none) : (install hash order a pl fs).2 ≠ none := by
  have hk : hookRaises a t!"post-link" = true := by
    unfold hookRaises
    cases hx : Dict.get a.tree [t!"post-link.sh", t!"bin", t!"info"] with
    | none => exact absurd hx hh
    | some x => exact (ex_iff _ _).mpr ⟨x, hx⟩
  rcases install_steps hash order a pl fs with ⟨e, he⟩ | ⟨ps, sigs, tree, move, files, lib, h1, h2, h3, h4, h5, h6⟩
  · rw [he]; simp
  · rw [h6]
    cases hl : linkFiles sigs tree move pl.data lib ⟨⟨fs, [], []⟩, [], []⟩ files with
    | raised st => simp
    | ok st => simp [distInfoPart, hk]

namespace Conda

/-- The archive with such a script. -/
def sampleHook : Archive Nat Nat :=
  { sample with tree := sampleTree ++ [([t!"bin", t!"info"], .dir), ([t!"post-link.sh", t!"bin", t!"info"], .file 3)] }

end Conda

/-- **C90, violated.** Worse, after the failure of such a script the files are removed but the information about the package
stays, with a RECORD of files that do not exist: it counts as installed. -/
theorem conda_hook_violated :
    (install id id sampleHook samplePlace sampleFs).2 = some .hook ∧
    Dict.get (install id id sampleHook samplePlace sampleFs).1 [t!"a.py", t!"site-packages", t!"python3.10", t!"lib", t!"env"] = none ∧
    Dict.get (install id id sampleHook samplePlace sampleFs).1
      [t!"RECORD", t!"a-1.dist-info", t!"site-packages", t!"python3.10", t!"lib", t!"env"] = some (.file 102) ∧
    Dict.get (install id id sampleHook samplePlace sampleFs).1
      [t!"METADATA", t!"a-1.dist-info", t!"site-packages", t!"python3.10", t!"lib", t!"env"] = some (.file 11) := by
  decide +kernel

/-- **C90, violated.** The files generated for an archive without information for Python are not in RECORD, so that an
uninstallation leaves them: two files are recorded, and five are new or replaced. -/
theorem conda_generated_violated :
    (install id id sample samplePlace sampleFs).2 = none ∧
    Dict.get (install id id sample samplePlace sampleFs).1
      [t!"METADATA", t!"a-1.dist-info", t!"site-packages", t!"python3.10", t!"lib", t!"env"] = some (.file 11) ∧
    Dict.get (install id id sample samplePlace sampleFs).1
      [t!"WHEEL", t!"a-1.dist-info", t!"site-packages", t!"python3.10", t!"lib", t!"env"] = some (.file 10) ∧
    Dict.get (install id id sample samplePlace sampleFs).1
      [t!"RECORD", t!"a-1.dist-info", t!"site-packages", t!"python3.10", t!"lib", t!"env"] = some (.file 102) := by
  decide +kernel

namespace Conda

/-- An archive with modules for Python 3.9 and Python 3.10. -/
def sampleTwo : Archive Nat Nat :=
  ⟨sampleTree ++ [([t!"python3.10", t!"lib"], .dir), ([t!"site-packages", t!"python3.10", t!"lib"], .dir),
    ([t!"a.py", t!"site-packages", t!"python3.10", t!"lib"], .file 4)],
   some [([t!"a.py", t!"site-packages", t!"python3.9", t!"lib"], 2), ([t!"a.py", t!"site-packages", t!"python3.10", t!"lib"], 4)], true,
   some [[t!"a.py", t!"site-packages", t!"python3.10", t!"lib"], [t!"a.py", t!"site-packages", t!"python3.9", t!"lib"]]⟩

end Conda

/-- **C90, violated.** An archive with modules for two versions of Python, installed into an environment with the second one:
the installed module is the one of the second (content 4), and its recorded hash is the one of the first (2). -/
theorem conda_two_pythons_violated :
    (install id id sampleTwo { samplePlace with record := fun rs => (rs.head?.bind (·.sig)).getD 0 } sampleFs).2 = none ∧
    Dict.get (install id id sampleTwo { samplePlace with record := fun rs => (rs.head?.bind (·.sig)).getD 0 } sampleFs).1
      [t!"a.py", t!"site-packages", t!"python3.10", t!"lib", t!"env"] = some (.file 4) ∧
    Dict.get (install id id sampleTwo { samplePlace with record := fun rs => (rs.head?.bind (·.sig)).getD 0 } sampleFs).1
      [t!"RECORD", t!"a-1.dist-info", t!"site-packages", t!"python3.10", t!"lib", t!"env"] = some (.file 2) := by
  decide +kernel

end Pkm
