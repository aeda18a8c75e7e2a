import Verif.Files.WheelInstallSteps
set_option linter.unusedVariables false
set_option linter.unusedSimpArgs false
set_option linter.unusedSectionVars false
/-
C96: what the checks before an installation establish, and the stages of an installation.
-/
namespace Pkm
open Tags Files Files.FS WheelInstall

variable {C S : Type}

namespace Spec

/-- What a configuration file of a wheel says; a missing file says `dflt`. -/
def FileSays {A : Type} (tree : Sources C) (path : Path) (read : C → Option A) (dflt a : A) : Prop :=
  (∃ c, FileIn tree path c ∧ read c = some a) ∨ ((∀ c, ¬ FileIn tree path c) ∧ a = dflt)

/-- An extracted wheel and what it says: there is one entry that ends in `.dist-info`, a directory with WHEEL (of a version
1.x), entry_points.txt and RECORD. -/
structure WheelSays (fm : Formats C S) (tree : Sources C) (stem : Text) (purelib : Bool) (entries : List (Entry C))
    (records : List (Rec S)) : Prop where
  info : DirIn tree [stem ++ t!".dist-info"]
  named : stem ≠ []
  only : ∀ other, (DirIn tree [other ++ t!".dist-info"] ∨ ∃ c, FileIn tree [other ++ t!".dist-info"] c) → other = stem
  wheel : ∃ minor rest, FileSays tree [t!"WHEEL", stem ++ t!".dist-info"] fm.wheel ⟨some [1, 0], true⟩ ⟨some (1 :: minor :: rest), purelib⟩
  entryPoints : FileSays tree [t!"entry_points.txt", stem ++ t!".dist-info"] fm.entries [] entries
  record : ∃ c, FileIn tree [t!"RECORD", stem ++ t!".dist-info"] c ∧ fm.readRecord c = some records

/-- The path of the compiled form of a module. -/
def Pyc (tag : Text) (source compiled : Path) : Prop :=
  ∃ n dir, n ≠ [] ∧ source = (n ++ t!".py") :: dir ∧ compiled = (n ++ '.' :: tag ++ t!".pyc") :: t!"__pycache__" :: dir

end Spec
open Spec

namespace WheelInstall

theorem distInfoExt_eq : distInfoExt = t!".dist-info" := by decide
theorem record_eq : "RECORD".toList = t!"RECORD" := by decide

theorem pycache_eq : pycache = t!"__pycache__" := by decide

theorem take_py (n : Text) : (n ++ t!".py").take ((n ++ t!".py").length - 3) = n := by
  have : (n ++ t!".py").length - 3 = n.length := by rw [List.length_append]; simp
  rw [this, List.take_left]

theorem pyc_iff (tag : Text) (q p : Path) : Pyc tag q p ↔ isPy q = true ∧ p = pycOf tag q := by
  constructor
  · rintro ⟨n, dir, hn, rfl, rfl⟩
    have hl : 0 < n.length := List.length_pos_iff.2 hn
    constructor
    · simp [isPy, endsWith, List.isSuffixOf_iff_suffix]
      exact hl
    · rw [pycOf, take_py, pycache_eq]
  · rintro ⟨h, rfl⟩
    cases q with
    | nil => simp [isPy] at h
    | cons n dir =>
      simp only [isPy, Bool.and_eq_true, endsWith, List.isSuffixOf_iff_suffix, decide_eq_true_eq] at h
      obtain ⟨⟨u, hu⟩, h2⟩ := h
      subst hu
      refine ⟨u, dir, ?_, rfl, ?_⟩
      · rintro rfl; simp at h2
      · rw [pycOf, take_py, pycache_eq]

theorem dirIn_cons {n : Text} {s : Source C} {rest : Sources C} {r : Path} (h : DirIn (.cons n s rest) r) :
    (∃ es, s = .dir es ∧ r = [n]) ∨ (∃ es r', s = .dir es ∧ r = r' ++ [n] ∧ DirIn es r') ∨ DirIn rest r := by
  cases h with
  | here => exact .inl ⟨_, rfl, rfl⟩
  | dir h => exact .inr (.inl ⟨_, _, rfl, rfl, h⟩)
  | later h => exact .inr (.inr h)

theorem prune_fileIn : ∀ (t : Sources C) (r : Path) (c : C), FileIn (prune t) r c ↔ FileIn t r c
  | .nil, r, c => by simp [prune]
  | .cons n (.file d) rest, r, c => by
    have ih := prune_fileIn rest
    rw [prune]
    constructor
    · intro h
      rcases fileIn_cons h with ⟨h1, rfl⟩ | ⟨es, r', h1, _⟩ | h
      · simp only [Source.file.injEq] at h1; subst h1; exact .file
      · cases h1
      · exact .later ((ih r c).1 h)
    · intro h
      rcases fileIn_cons h with ⟨h1, rfl⟩ | ⟨es, r', h1, _⟩ | h
      · simp only [Source.file.injEq] at h1; subst h1; exact .file
      · cases h1
      · exact .later ((ih r c).2 h)
  | .cons n (.dir .nil) rest, r, c => by
    have ih := prune_fileIn rest
    rw [prune, ih]
    constructor
    · exact .later
    · intro h
      rcases fileIn_cons h with ⟨h1, _⟩ | ⟨es, r', h1, h2, h3⟩ | h
      · cases h1
      · simp only [Source.dir.injEq] at h1; subst h1; cases h3
      · exact h
  | .cons n (.dir (.cons m s x)) rest, r, c => by
    have ih := prune_fileIn rest
    have ih2 := prune_fileIn (.cons m s x)
    rw [prune]
    constructor
    · intro h
      rcases fileIn_cons h with ⟨h1, _⟩ | ⟨es, r', h1, rfl, h3⟩ | h
      · cases h1
      · simp only [Source.dir.injEq] at h1; subst h1; exact .dir ((ih2 _ _).1 h3)
      · exact .later ((ih r c).1 h)
    · intro h
      rcases fileIn_cons h with ⟨h1, _⟩ | ⟨es, r', h1, rfl, h3⟩ | h
      · cases h1
      · simp only [Source.dir.injEq] at h1; subst h1; exact .dir ((ih2 _ _).2 h3)
      · exact .later ((ih r c).2 h)

theorem prune_dirIn : ∀ (t : Sources C) (r : Path), DirIn (prune t) r → DirIn t r
  | .nil, r, h => by simpa [prune] using h
  | .cons n (.file d) rest, r, h => by
    rw [prune] at h
    rcases dirIn_cons h with ⟨es, h1, _⟩ | ⟨es, r', h1, _⟩ | h
    · cases h1
    · cases h1
    · exact .later (prune_dirIn rest r h)
  | .cons n (.dir .nil) rest, r, h => by
    rw [prune] at h
    exact .later (prune_dirIn rest r h)
  | .cons n (.dir (.cons m s x)) rest, r, h => by
    rw [prune] at h
    rcases dirIn_cons h with ⟨es, h1, rfl⟩ | ⟨es, r', h1, rfl, h3⟩ | h
    · exact .here
    · simp only [Source.dir.injEq] at h1; subst h1; exact .dir (prune_dirIn (.cons m s x) r' h3)
    · exact .later (prune_dirIn rest r h)

theorem prune_names : ∀ (t : Sources C) (n : Text), n ∈ names (prune t) → n ∈ names t
  | .nil, n, h => by simpa [prune] using h
  | .cons m (.file d) rest, n, h => by
    rw [prune] at h
    simp only [names, List.mem_cons] at h ⊢
    rcases h with h | h
    · exact .inl h
    · exact .inr (prune_names rest n h)
  | .cons m (.dir .nil) rest, n, h => by
    rw [prune] at h
    simp only [names, List.mem_cons]
    exact .inr (prune_names rest n h)
  | .cons m (.dir (.cons a s x)) rest, n, h => by
    rw [prune] at h
    simp only [names, List.mem_cons] at h ⊢
    rcases h with h | h
    · exact .inl h
    · exact .inr (prune_names rest n h)

theorem prune_distinct : ∀ (t : Sources C), Distinct t → Distinct (prune t)
  | .nil, h => by simpa [prune] using h
  | .cons m (.file d) rest, h => by
    rw [prune]
    simp only [Distinct] at h ⊢
    exact ⟨fun x => h.1 (prune_names _ _ x), prune_distinct rest h.2⟩
  | .cons m (.dir .nil) rest, h => by
    rw [prune]
    simp only [Distinct] at h
    exact prune_distinct rest h.2.2
  | .cons m (.dir (.cons a s x)) rest, h => by
    rw [prune]
    rw [Distinct] at h ⊢
    exact ⟨fun y => h.1 (prune_names _ _ y), prune_distinct _ h.2.1, prune_distinct rest h.2.2⟩

theorem puts_prune {tg : Target} {patch : C → C} {site : Path} {stem : Text} {tree : Sources C} {p : Path} {c : C} :
    Puts tg patch site stem (prune tree) p c ↔ Puts tg patch site stem tree p c := by
  constructor
  · intro h
    cases h with
    | plain a b d => exact .plain ((prune_fileIn _ _ _).1 a) b d
    | data a b d e => exact .data ((prune_fileIn _ _ _).1 a) b d e
    | script a => exact .script ((prune_fileIn _ _ _).1 a)
  · intro h
    cases h with
    | plain a b d => exact .plain ((prune_fileIn _ _ _).2 a) b d
    | data a b d e => exact .data ((prune_fileIn _ _ _).2 a) b d e
    | script a => exact .script ((prune_fileIn _ _ _).2 a)

theorem makes_prune {tg : Target} {site : Path} {stem : Text} {tree : Sources C} {p : Path} (h : Makes tg site stem (prune tree) p) :
    Makes tg site stem tree p := by
  cases h with
  | plain a b => exact .plain (prune_dirIn _ _ a) b
  | data a b => exact .data (prune_dirIn _ _ a) b

theorem filesOf_mem : ∀ (t : Sources C) (dir p : Path) (c : C), (p, c) ∈ filesOf dir t ↔ ∃ r, FileIn t r c ∧ p = r ++ dir
  | .nil, dir, p, c => by
    simp only [filesOf, List.not_mem_nil, false_iff, not_exists, not_and]
    intro r h; cases h
  | .cons n (.file d) rest, dir, p, c => by
    rw [filesOf, List.mem_cons, filesOf_mem rest dir p c]
    constructor
    · rintro (h | ⟨r, h1, h2⟩)
      · simp only [Prod.mk.injEq] at h
        obtain ⟨rfl, rfl⟩ := h
        exact ⟨[n], .file, rfl⟩
      · exact ⟨r, .later h1, h2⟩
    · rintro ⟨r, h1, rfl⟩
      rcases fileIn_cons h1 with ⟨h, rfl⟩ | ⟨es, r', h, _⟩ | h
      · simp only [Source.file.injEq] at h; subst h; exact .inl rfl
      · cases h
      · exact .inr ⟨r, h, rfl⟩
  | .cons n (.dir es) rest, dir, p, c => by
    rw [filesOf, List.mem_append, filesOf_mem rest dir p c, filesOf_mem es (n :: dir) p c]
    constructor
    · rintro (⟨r, h1, h2⟩ | ⟨r, h1, h2⟩)
      · exact ⟨r ++ [n], .dir h1, by simp [h2]⟩
      · exact ⟨r, .later h1, h2⟩
    · rintro ⟨r, h1, rfl⟩
      rcases fileIn_cons h1 with ⟨h, rfl⟩ | ⟨es', r', h, rfl, h3⟩ | h
      · cases h
      · simp only [Source.dir.injEq] at h; subst h; exact .inl ⟨r', h3, by simp⟩
      · exact .inr ⟨r, h, rfl⟩

/-! ### entries of directories -/

theorem lookup_file : ∀ (es : Sources C) (n : Text) (c : C), lookup n es = some (.file c) → FileIn es [n] c
  | .nil, n, c, h => by simp [lookup] at h
  | .cons m s rest, n, c, h => by
    unfold lookup at h
    split at h
    · rename_i e
      simp only [Option.some.injEq] at h
      subst h; subst e
      exact .file
    · exact .later (lookup_file rest n c h)

theorem lookup_none : ∀ (es : Sources C) (n : Text), lookup n es = none ↔ n ∉ names es
  | .nil, n => by simp [lookup, names]
  | .cons m s rest, n => by
    unfold lookup
    split
    · rename_i e; simp [names, e]
    · rename_i e
      rw [lookup_none rest n]
      simp only [names, List.mem_cons, not_or]
      exact ⟨fun h => ⟨fun x => e x.symm, h⟩, fun h => h.2⟩

theorem fileIn_names : ∀ (es : Sources C) (r : Path) (n : Text) (c : C), FileIn es (r ++ [n]) c → n ∈ names es
  | .nil, r, n, c, h => by generalize hr : r ++ [n] = q at h; cases h
  | .cons m s rest, r, n, c, h => by
    simp only [names, List.mem_cons]
    rcases fileIn_cons h with ⟨_, h⟩ | ⟨es, r', _, h, _⟩ | h
    · exact .inl (append_singleton_inj (a := r) (b := []) h).2
    · exact .inl (append_singleton_inj h).2
    · exact .inr (fileIn_names rest r n c h)

theorem dirIn_names : ∀ (es : Sources C) (r : Path) (n : Text), DirIn es (r ++ [n]) → n ∈ names es
  | .nil, r, n, h => by generalize hr : r ++ [n] = q at h; cases h
  | .cons m s rest, r, n, h => by
    simp only [names, List.mem_cons]
    rcases dirIn_cons h with ⟨es, _, h⟩ | ⟨es, r', _, h, _⟩ | h
    · exact .inl (append_singleton_inj (a := r) (b := []) h).2
    · exact .inl (append_singleton_inj h).2
    · exact .inr (dirIn_names rest r n h)

theorem lookup_distinct : ∀ (es : Sources C) (n : Text) (s : Source C), Distinct es → lookup n es = some s →
    (∀ c, s = .file c → (∀ r d, FileIn es (r ++ [n]) d ↔ r = [] ∧ d = c) ∧ ∀ r, ¬ DirIn es (r ++ [n])) ∧
    (∀ ds, s = .dir ds → Distinct ds ∧ (∀ r d, FileIn es (r ++ [n]) d ↔ FileIn ds r d) ∧
      ∀ r, DirIn es (r ++ [n]) ↔ r = [] ∨ DirIn ds r)
  | .nil, n, s, _, h => by simp [lookup] at h
  | .cons m s0 rest, n, s, hd, h => by
    unfold lookup at h
    split at h
    · rename_i e
      subst e
      simp only [Option.some.injEq] at h
      subst h
      cases s0 with
      | file c =>
        refine ⟨?_, by intro ds h; cases h⟩
        intro c' hc'
        simp only [Source.file.injEq] at hc'
        subst hc'
        rw [Distinct] at hd
        constructor
        · intro r d
          constructor
          · intro h
            rcases fileIn_cons h with ⟨h1, h2⟩ | ⟨es, r', h1, _⟩ | h
            · simp only [Source.file.injEq] at h1
              exact ⟨(append_singleton_inj (a := r) (b := []) h2).1, h1.symm⟩
            · cases h1
            · exact absurd (fileIn_names rest r m d h) hd.1
          · rintro ⟨rfl, rfl⟩; exact .file
        · intro r h
          rcases dirIn_cons h with ⟨es, h1, _⟩ | ⟨es, r', h1, _⟩ | h
          · cases h1
          · cases h1
          · exact absurd (dirIn_names rest r m h) hd.1
      | dir ds =>
        refine ⟨fun c h => (by cases h), ?_⟩
        intro ds' hds'
        simp only [Source.dir.injEq] at hds'
        subst hds'
        rw [Distinct] at hd
        refine ⟨hd.2.1, ?_, ?_⟩
        · intro r d
          constructor
          · intro h
            rcases fileIn_cons h with ⟨h1, h2⟩ | ⟨es, r', h1, h2, h3⟩ | h
            · cases h1
            · simp only [Source.dir.injEq] at h1
              subst h1
              rw [(append_singleton_inj h2).1]; exact h3
            · exact absurd (fileIn_names rest r m d h) hd.1
          · exact .dir
        · intro r
          constructor
          · intro h
            rcases dirIn_cons h with ⟨es, h1, h2⟩ | ⟨es, r', h1, h2, h3⟩ | h
            · exact .inl (append_singleton_inj (a := r) (b := []) h2).1
            · simp only [Source.dir.injEq] at h1
              subst h1
              rw [(append_singleton_inj h2).1]; exact .inr h3
            · exact absurd (dirIn_names rest r m h) hd.1
          · rintro (rfl | h)
            · exact .here
            · exact .dir h
    · rename_i e
      have hd' : Distinct rest := by
        cases s0 with
        | file _ => rw [Distinct] at hd; exact hd.2
        | dir _ => rw [Distinct] at hd; exact hd.2.2
      obtain ⟨i1, i2⟩ := lookup_distinct rest n s hd' h
      have hF : ∀ r d, FileIn (.cons m s0 rest) (r ++ [n]) d ↔ FileIn rest (r ++ [n]) d := by
        intro r d
        constructor
        · intro h
          rcases fileIn_cons h with ⟨_, h2⟩ | ⟨es, r', _, h2, _⟩ | h
          · exact absurd (append_singleton_inj (a := r) (b := []) h2).2.symm e
          · exact absurd (append_singleton_inj h2).2.symm e
          · exact h
        · exact .later
      have hD : ∀ r, DirIn (.cons m s0 rest) (r ++ [n]) ↔ DirIn rest (r ++ [n]) := by
        intro r
        constructor
        · intro h
          rcases dirIn_cons h with ⟨es, _, h2⟩ | ⟨es, r', _, h2, _⟩ | h
          · exact absurd (append_singleton_inj (a := r) (b := []) h2).2.symm e
          · exact absurd (append_singleton_inj h2).2.symm e
          · exact h
        · exact .later
      constructor
      · intro c hc
        obtain ⟨a, b⟩ := i1 c hc
        exact ⟨fun r d => by rw [hF, a], fun r => by rw [hD]; exact b r⟩
      · intro ds hds
        obtain ⟨a, b, c⟩ := i2 ds hds
        exact ⟨a, fun r d => by rw [hF, b], fun r => by rw [hD, c]⟩

/-! ### the dist-info directory -/

theorem distInfos_mem : ∀ (t : Sources C) (n : Text) (s : Source C), (n, s) ∈ distInfos t →
    endsWith distInfoExt n = true ∧ n ∈ names t
  | .nil, n, s, h => by simp [distInfos] at h
  | .cons m s0 rest, n, s, h => by
    unfold distInfos at h
    split at h
    · rename_i e
      rcases List.mem_cons.1 h with h | h
      · simp only [Prod.mk.injEq] at h
        rw [h.1]; exact ⟨e, by simp [names]⟩
      · have := distInfos_mem rest n s h
        exact ⟨this.1, by simp [names, this.2]⟩
    · have := distInfos_mem rest n s h
      exact ⟨this.1, by simp [names, this.2]⟩

theorem distInfos_names : ∀ (t : Sources C) (n : Text), n ∈ names t → endsWith distInfoExt n = true →
    ∃ s, (n, s) ∈ distInfos t
  | .nil, n, h, _ => by simp [names] at h
  | .cons m s0 rest, n, h, he => by
    unfold distInfos
    simp only [names, List.mem_cons] at h
    split
    · rcases h with rfl | h
      · exact ⟨s0, by simp⟩
      · obtain ⟨s, hs⟩ := distInfos_names rest n h he
        exact ⟨s, by simp [hs]⟩
    · rename_i e
      rcases h with rfl | h
      · exact absurd he e
      · exact distInfos_names rest n h he

theorem distInfos_lookup : ∀ (t : Sources C) (n : Text) (s : Source C) (l : List (Text × Source C)), distInfos t = (n, s) :: l →
    lookup n t = some s
  | .nil, n, s, l, h => by simp [distInfos] at h
  | .cons m s0 rest, n, s, l, h => by
    unfold distInfos at h
    unfold lookup
    split at h
    · simp only [List.cons.injEq, Prod.mk.injEq] at h
      rw [if_pos h.1.1, h.1.2]
    · rename_i e
      have h1 := distInfos_lookup rest n s l h
      have : (n, s) ∈ distInfos rest := by rw [h]; simp
      rw [if_neg ?_]
      · exact h1
      · rintro rfl
        exact e (distInfos_mem rest m s this).1

theorem findDistInfo_ok {tree : Sources C} {di : Text} {es : Sources C} (h : findDistInfo tree = .ok (di, es)) :
    ∃ stem, di = stem ++ distInfoExt ∧ stem ≠ [] ∧ lookup di tree = some (.dir es) ∧
      ∀ n ∈ names tree, endsWith distInfoExt n = true → n = di := by
  unfold findDistInfo at h
  split at h
  · cases h
  · rename_i n es' heq
    split at h
    · cases h
    · rename_i hne
      simp only [Except.ok.injEq, Prod.mk.injEq] at h
      obtain ⟨rfl, rfl⟩ := h
      have hm := distInfos_mem tree n (.dir es') (by rw [heq]; simp)
      have he := hm.1
      simp only [endsWith, List.isSuffixOf_iff_suffix] at he
      obtain ⟨u, hu⟩ := he
      refine ⟨u, hu.symm, ?_, distInfos_lookup _ _ _ _ heq, ?_⟩
      · rintro rfl; exact hne hu.symm
      · intro m hm' he'
        obtain ⟨s, hs⟩ := distInfos_names tree m hm' he'
        rw [heq] at hs
        simp only [List.mem_singleton, Prod.mk.injEq] at hs
        exact hs.1
  · cases h
  · cases h

theorem validateVersion_ok {w : WheelCfg} {u : Unit} (h : validateVersion w = .ok u) : ∃ m rest, w.release = some (1 :: m :: rest) := by
  unfold validateVersion at h
  split at h
  · cases h
  · rename_i a rest e
    split at h
    · cases h
    · rename_i ha
      split at h
      · cases h
      · rename_i hr
        have ha' : a = 1 := by simpa using ha
        subst ha'
        cases rest with
        | nil => exact absurd rfl hr
        | cons m rest => exact ⟨m, rest, e⟩
  · cases h

theorem loadCfg_ok {A : Type} {read : C → Option A} {dflt a : A} {name : Text} {es : Sources C}
    (h : loadCfg read dflt name es = .ok a) :
    (∃ c, lookup name es = some (.file c) ∧ read c = some a) ∨ (lookup name es = none ∧ a = dflt) := by
  unfold loadCfg at h
  split at h
  · rename_i e
    simp only [Except.ok.injEq] at h
    exact .inr ⟨e, h.symm⟩
  · cases h
  · rename_i c e
    split at h
    · rename_i a' e'
      simp only [Except.ok.injEq] at h
      exact .inl ⟨c, e, by rw [e', h]⟩
    · cases h

/-- What a successful check found. -/
theorem check_ok {fm : Formats C S} {tl : Tools C S} {content : Path} {tree : Sources C} {ch : Checked C S} (hd : Distinct tree)
    (h : check fm tl content tree = .ok ch) : ∃ stem, ch.distInfo = stem ++ distInfoExt ∧ ch.tree = prune tree ∧
      WheelSays fm tree stem ch.purelib ch.entries ch.records ∧
      ∃ ws, verifyRecords tl.valid content (ch.distInfo :: content) true ch.records (filesOf content (prune tree)) = .ok ws := by
  unfold check at h
  cases h1 : findDistInfo tree with
  | error e => rw [h1] at h; cases h
  | ok x =>
    obtain ⟨di, es⟩ := x
    rw [h1] at h
    simp only at h
    cases h2 : loadCfg fm.wheel ⟨some [1, 0], true⟩ t!"WHEEL" es with
    | error e => rw [h2] at h; cases h
    | ok w =>
      rw [h2] at h
      simp only at h
      cases h3 : validateVersion w with
      | error e => rw [h3] at h; cases h
      | ok u =>
        rw [h3] at h
        simp only at h
        cases h4 : loadCfg fm.entries [] t!"entry_points.txt" es with
        | error e => rw [h4] at h; cases h
        | ok eps =>
          rw [h4] at h
          simp only at h
          cases h5 : loadCfg fm.readRecord [] "RECORD".toList (prune es) with
          | error e => rw [h5] at h; cases h
          | ok recs =>
            rw [h5] at h
            simp only at h
            cases h6 : verifyRecords tl.valid content (di :: content) (lookup "RECORD".toList (prune es)).isSome recs
                (filesOf content (prune tree)) with
            | error e => rw [h6] at h; cases h
            | ok ws =>
              rw [h6] at h
              simp only [Except.ok.injEq] at h
              subst h
              obtain ⟨stem, rfl, hne, hl, hon⟩ := findDistInfo_ok h1
              obtain ⟨hdes, hF, hD⟩ := (lookup_distinct tree _ _ hd hl).2 es rfl
              have hsome : (lookup "RECORD".toList (prune es)).isSome = true := by
                cases hx : (lookup "RECORD".toList (prune es)).isSome with
                | true => rfl
                | false => rw [hx] at h6; simp [verifyRecords] at h6
              refine ⟨stem, rfl, rfl, ⟨?_, hne, ?_, ?_, ?_, ?_⟩, ws, by rw [hsome] at h6; exact h6⟩
              · rw [← distInfoExt_eq]
                exact (hD []).2 (.inl rfl)
              · intro other ho
                rw [← distInfoExt_eq] at ho
                have hn : other ++ distInfoExt ∈ names tree := by
                  rcases ho with h | ⟨c, h⟩
                  · exact dirIn_names tree [] _ h
                  · exact fileIn_names tree [] _ c h
                have := hon _ hn (by simp [endsWith, List.isSuffixOf_iff_suffix])
                exact List.append_cancel_right this
              · obtain ⟨m, rest, hr⟩ := validateVersion_ok h3
                refine ⟨m, rest, ?_⟩
                rw [← hr, ← distInfoExt_eq]
                rcases loadCfg_ok h2 with ⟨c, e1, e2⟩ | ⟨e1, e2⟩
                · exact .inl ⟨c, (hF [t!"WHEEL"] c).2 (lookup_file _ _ _ e1), e2⟩
                · refine .inr ⟨?_, e2⟩
                  intro c hc
                  exact (lookup_none _ _).1 e1 (fileIn_names es [] _ c ((hF [t!"WHEEL"] c).1 hc))
              · rw [← distInfoExt_eq]
                rcases loadCfg_ok h4 with ⟨c, e1, e2⟩ | ⟨e1, e2⟩
                · exact .inl ⟨c, (hF [t!"entry_points.txt"] c).2 (lookup_file _ _ _ e1), e2⟩
                · refine .inr ⟨?_, e2⟩
                  intro c hc
                  exact (lookup_none _ _).1 e1 (fileIn_names es [] _ c ((hF [t!"entry_points.txt"] c).1 hc))
              · rw [← distInfoExt_eq]
                rcases loadCfg_ok h5 with ⟨c, e1, e2⟩ | ⟨e1, e2⟩
                · refine ⟨c, (hF [t!"RECORD"] c).2 ?_, e2⟩
                  rw [record_eq] at e1
                  exact (prune_fileIn _ _ _).1 (lookup_file _ _ _ e1)
                · rw [e1] at hsome; cases hsome

theorem fileIn_det : ∀ (es : Sources C), Distinct es → ∀ (r : Path) (c d : C), FileIn es r c → FileIn es r d → c = d
  | .nil, _, r, c, d, h, _ => by cases h
  | .cons n (.file x) rest, hd, r, c, d, h1, h2 => by
    rw [Distinct] at hd
    have hno : ∀ c, ¬ FileIn rest [n] c := fun c h => hd.1 (fileIn_names rest [] n c h)
    rcases fileIn_cons h1 with ⟨a, rfl⟩ | ⟨es, r', a, _⟩ | a
    · rcases fileIn_cons h2 with ⟨b, _⟩ | ⟨es, r', b, _⟩ | b
      · simp only [Source.file.injEq] at a b; rw [← a, b]
      · cases b
      · exact absurd b (hno d)
    · cases a
    · rcases fileIn_cons h2 with ⟨b, rfl⟩ | ⟨es, r', b, _⟩ | b
      · exact absurd a (hno c)
      · cases b
      · exact fileIn_det rest hd.2 r c d a b
  | .cons n (.dir es) rest, hd, r, c, d, h1, h2 => by
    rw [Distinct] at hd
    have hno : ∀ c r, ¬ FileIn rest (r ++ [n]) c := fun c r h => hd.1 (fileIn_names rest r n c h)
    rcases fileIn_cons h1 with ⟨a, _⟩ | ⟨es', r', a, rfl, a3⟩ | a
    · cases a
    · simp only [Source.dir.injEq] at a; subst a
      rcases fileIn_cons h2 with ⟨b, _⟩ | ⟨es', r'', b, b2, b3⟩ | b
      · cases b
      · simp only [Source.dir.injEq] at b; subst b
        have := (append_singleton_inj b2).1
        subst this
        exact fileIn_det es hd.2.1 r' c d a3 b3
      · exact absurd b (hno d r')
    · rcases fileIn_cons h2 with ⟨b, _⟩ | ⟨es', r'', b, rfl, b3⟩ | b
      · cases b
      · exact absurd a (hno c r'')
      · exact fileIn_det rest hd.2.2 r c d a b

theorem says_det {A : Type} {tree : Sources C} (hd : Distinct tree) {path : Path} {read : C → Option A} {dflt a b : A}
    (h1 : FileSays tree path read dflt a) (h2 : FileSays tree path read dflt b) : a = b := by
  rcases h1 with ⟨c, h1, h1'⟩ | ⟨h1, rfl⟩
  · rcases h2 with ⟨d, h2, h2'⟩ | ⟨h2, _⟩
    · rw [fileIn_det tree hd _ _ _ h1 h2, h2'] at h1'
      simpa using h1'.symm
    · exact absurd h1 (h2 c)
  · rcases h2 with ⟨d, h2, h2'⟩ | ⟨h2, h2'⟩
    · exact absurd h2 (h1 d)
    · exact h2'.symm

/-- A wheel says one thing. -/
theorem wheelSays_det {fm : Formats C S} {tree : Sources C} (hd : Distinct tree) {stem stem' : Text} {pl pl' : Bool} {es es' : List (Entry C)}
    {rs rs' : List (Rec S)} (h1 : WheelSays fm tree stem pl es rs) (h2 : WheelSays fm tree stem' pl' es' rs') :
    stem = stem' ∧ pl = pl' ∧ es = es' ∧ rs = rs' := by
  have e : stem = stem' := h2.only stem (.inl h1.info)
  subst e
  obtain ⟨m, r, w1⟩ := h1.wheel
  obtain ⟨m', r', w2⟩ := h2.wheel
  have ew := says_det hd w1 w2
  simp only [WheelCfg.mk.injEq] at ew
  obtain ⟨c, c1, c2⟩ := h1.record
  obtain ⟨d, d1, d2⟩ := h2.record
  rw [fileIn_det tree hd _ _ _ c1 d1, d2] at c2
  simp only [Option.some.injEq] at c2
  exact ⟨rfl, ew.2, says_det hd h1.entryPoints h2.entryPoints, c2.symm⟩

/-- The stages of an installation that succeeds. -/
theorem install_stages {fm : Formats C S} {tl : Tools C S} {tg : Target} {content : Path} {tree : Sources C} {request : Option C} {info : C}
    {fs fs' : FS C} (h : install fm tl tg content tree request info fs = (fs', none)) :
    ∃ ch t1 t2 t3, check fm tl content tree = .ok ch ∧
      Txn.run tl.empty (contentCalls tg tl.patch content (if ch.purelib then tg.purelib else tg.platlib) ch.distInfo ch.tree) ⟨fs, [], []⟩ = .ok t1 ∧
      launchers tg.scripts ch.entries t1 = .ok t2 ∧
      finish fm tl (if ch.purelib then tg.purelib else tg.platlib) ch request info (compileAll tl t2) = .ok t3 ∧ fs' = t3.fs := by
  unfold install at h
  cases h1 : check fm tl content tree with
  | error e => rw [h1] at h; simp at h
  | ok ch =>
    rw [h1] at h
    simp only at h
    cases h2 : body fm tl tg content ch request info fs with
    | raised t => rw [h2] at h; simp at h
    | ok t3 =>
      rw [h2] at h
      simp only [Prod.mk.injEq, and_true] at h
      unfold body at h2
      simp only at h2
      split at h2
      · cases h2
      · rename_i t1 e1
        split at h2
        · cases h2
        · rename_i t2 e2
          exact ⟨ch, t1, t2, t3, rfl, e1, e2, h2, h.symm⟩

end WheelInstall
end Pkm
