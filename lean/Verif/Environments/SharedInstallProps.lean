import Verif.Environments.SharedLinkLemmas
set_option linter.unusedVariables false
set_option linter.unusedSimpArgs false
/-
C93: packages that environments share: moving an installed package to the shared directory and linking it.
-/
namespace Pkm
open Files Files.FS SharedPkg Tags

variable {C S : Type}

namespace Spec

/-- The environment lies in the directory `env`, shared packages lie elsewhere, and scripts are kept neither
above nor below modules. -/
structure SharingSetup (w : World C S) (env : Path) : Prop where
  purelib : env <:+ w.purelib
  platlib : env <:+ w.platlib
  scripts : env <:+ w.scripts
  away : ¬ env <:+ w.sharedPath ∧ ¬ w.sharedPath <:+ env
  named : ∀ c ∈ w.purelib ++ w.platlib, c ≠ []
  scriptsPure : ¬ w.scripts <:+ w.purelib ∧ ¬ w.purelib <:+ w.scripts
  scriptsPlat : ¬ w.scripts <:+ w.platlib ∧ ¬ w.platlib <:+ w.scripts

/-- A possible name of the dist-info directory of the package. -/
def InfoName (w : World C S) (n : Text) : Prop :=
  t!".dist-info" <:+ n ∧ lower (w.srcName ++ ['-']) <+: lower n

/-- What the base repository has installed: a package with dist-info directory `n` in `site` and in no other
place, with the lines of RECORD, the script entry points and the compatibility tag that are given. The
recorded files lie in the environment. Nothing is shared for the tag. -/
structure InstalledFor (w : World C S) (env : Path) (fs : FS C) (siteName : Text) (site : Path) (n tag : Text)
    (lines : List Text) (entries : List (Text × C)) : Prop where
  tree : Good fs
  place : (siteName = t!"purelib" ∧ site = w.purelib) ∨
    (siteName = t!"platlib" ∧ site = w.platlib ∧ ∀ m, InfoName w m → Dict.get fs (m :: w.purelib) = none)
  name : InfoName w n
  only : ∀ m, InfoName w m → Dict.get fs (m :: site) ≠ none → m = n
  dir : Dict.get fs (n :: site) = some .dir
  mode : ∃ c, Dict.get fs (t!"INSTALLATION_MODE" :: n :: site) = some (.file c) ∧ w.tagOf c = tag
  record : ∃ c, Dict.get fs ("RECORD".toList :: n :: site) = some (.file c) ∧ lines = (w.recordsOf c).map (·.file)
  entryPoints : (entries = [] ∧ ∀ c, Dict.get fs (t!"entry_points.txt" :: n :: site) ≠ some (.file c)) ∨
    ∃ c, Dict.get fs (t!"entry_points.txt" :: n :: site) = some (.file c) ∧ entries = w.entriesOf c
  inside : ∀ f, Recorded (n :: site) lines f → env <:+ f
  fresh : Dict.get fs (tag :: w.sharedPath) = none

/-- The dist-info directory of the linked package. -/
def linkedInfo (w : World C S) (site : Path) : Path := (w.srcName ++ '-' :: w.version ++ t!".dist-info") :: site

/-- The `.pth` file of the linked package. -/
def linkedPth (w : World C S) (site : Path) : Path := (w.srcName ++ '-' :: w.version ++ t!".pth") :: site

/-- The text of the path of a file starts with that of a directory. -/
def TextBelow (f d : Path) : Prop := showPath d <+: showPath f

end Spec
open Spec

namespace SharedPkg

theorem textBelow_false {f d : Path} (h : ¬ TextBelow f d) : isRelativeTo f d = false := by
  cases e : isRelativeTo f d with
  | false => rfl
  | true =>
    unfold isRelativeTo at e
    exact absurd (List.isPrefixOf_iff_prefix.1 e) h

theorem find_unique {A : Type} (q : A → Bool) (a : A) : ∀ (l : List A), a ∈ l → q a = true → (∀ b ∈ l, q b = true → b = a) →
    l.find? q = some a := by
  intro l
  induction l with
  | nil => intro h; simp at h
  | cons x l ih =>
    intro hm hq hu
    rw [List.find?_cons]
    by_cases hx : q x = true
    · rw [hx, hu x (by simp) hx]
    · simp only [Bool.not_eq_true] at hx
      rw [hx]
      apply ih
      · rcases List.mem_cons.1 hm with e | e
        · rw [e, hx] at hq; cases hq
        · exact e
      · exact hq
      · intro b hb; exact hu b (by simp [hb])

theorem infoName_iff (w : World C S) (n : Text) :
    ((t!".dist-info").isSuffixOf n && (lower (w.srcName ++ ['-'])).isPrefixOf (lower n)) = true ↔ InfoName w n := by
  rw [Bool.and_eq_true, List.isSuffixOf_iff_suffix, List.isPrefixOf_iff_prefix]
  rfl

theorem InstalledFor.find {w : World C S} {env : Path} {fs : FS C} {siteName : Text} {site : Path} {n tag : Text}
    {lines : List Text} {entries : List (Text × C)} (h : InstalledFor w env fs siteName site n tag lines entries) :
    findDistInfo w fs = some (siteName, site, n) := by
  have hfind : findIn fs (lower (w.srcName ++ ['-'])) site = some n := by
    unfold findIn
    apply find_unique
    · exact (mem_children_get fs h.tree.wf _ _).2 ⟨_, h.dir⟩
    · exact (infoName_iff w n).2 h.name
    · intro b hb hq
      obtain ⟨m, hm⟩ := (mem_children_get fs h.tree.wf _ _).1 hb
      exact h.only b ((infoName_iff w b).1 hq) (by rw [hm]; simp)
  unfold findDistInfo
  rcases h.place with ⟨rfl, rfl⟩ | ⟨rfl, rfl, hno⟩
  · simp only [hfind]
  · have : findIn fs (lower (w.srcName ++ ['-'])) w.purelib = none := by
      unfold findIn
      rw [List.find?_eq_none]
      intro b hb hq
      obtain ⟨m, hm⟩ := (mem_children_get fs h.tree.wf _ _).1 hb
      rw [hno b ((infoName_iff w b).1 hq)] at hm
      cases hm
    simp only [this, hfind]

theorem InstalledFor.lines {w : World C S} {env : Path} {fs : FS C} {siteName : Text} {site : Path} {n tag : Text}
    {lines : List Text} {entries : List (Text × C)} (h : InstalledFor w env fs siteName site n tag lines entries) :
    (recordsAt w fs (n :: site)).map (·.file) = lines := by
  obtain ⟨c, hc, rfl⟩ := h.record
  unfold recordsAt readFile
  rw [hc]

theorem InstalledFor.entries {w : World C S} {env : Path} {fs : FS C} {siteName : Text} {site : Path} {n tag : Text}
    {lines : List Text} {entries : List (Text × C)} (h : InstalledFor w env fs siteName site n tag lines entries) :
    entriesAt w fs (n :: site) = entries := by
  unfold entriesAt readFile
  rcases h.entryPoints with ⟨rfl, hno⟩ | ⟨c, hc, rfl⟩
  · cases e : Dict.get fs (t!"entry_points.txt" :: n :: site) with
    | none => rfl
    | some m =>
      cases m with
      | dir => rfl
      | file c => exact absurd e (hno c)
  · rw [hc]

/-- What a successful installation of a shared package consists of. -/
structure Shared' (w : World C S) (env : Path) (fs : FS C) (siteName : Text) (site : Path) (n tag : Text)
    (lines : List Text) (entries : List (Text × C)) (fs3 fs' : FS C) : Prop where
  moved : Moved w env siteName site n (tag :: w.sharedPath) lines fs fs3
  linked : Linked' w fs3 (tag :: w.sharedPath) fs'
  sitePath : sitePath w fs3 (tag :: w.sharedPath) = site
  siteName : siteNameOf fs3 (tag :: w.sharedPath) = siteName
  entries : entriesAt w fs3 (t!"dist-info" :: tag :: w.sharedPath) = entries
  siteEnv : env <:+ site
  apart : Apart2 env (tag :: w.sharedPath)
  siteDir : Dict.get fs3 site = some .dir
  scriptsApart : Apart2 w.scripts site

theorem shared_unpack {w : World C S} {env : Path} {fs0 fs fs' : FS C} {siteName : Text} {site : Path} {n tag : Text}
    {lines : List Text} {entries : List (Text × C)} {base : FS C → FS C × Bool} (hs : SharingSetup w env)
    (hi : InstalledFor w env fs siteName site n tag lines entries) (ht : tag ≠ []) (hb : base fs0 = (fs, true))
    (h : installTo w [] base fs0 = (fs', .ok ())) : ∃ fs3, Shared' w env fs siteName site n tag lines entries fs3 fs' := by
  have hsite : env <:+ site := by
    rcases hi.place with ⟨_, rfl⟩ | ⟨_, rfl, _⟩
    · exact hs.purelib
    · exact hs.platlib
  have hap : Apart2 env (tag :: w.sharedPath) := Apart2.down hs.away (List.suffix_refl _) (List.suffix_cons _ _)
  have hnames : ∀ c ∈ site, c ≠ [] := by
    intro c hc
    apply hs.named c
    rcases hi.place with ⟨_, rfl⟩ | ⟨_, rfl, _⟩ <;> simp [hc]
  have hscr : Apart2 w.scripts site := by
    rcases hi.place with ⟨_, rfl⟩ | ⟨_, rfl, _⟩
    · exact hs.scriptsPure
    · exact hs.scriptsPlat
  obtain ⟨cm, hcm, htag⟩ := hi.mode
  simp only [installTo, sharedArtifactFor, hb] at h
  have hmove : moveToShared w fs = moveTo w siteName site (n :: site) (tag :: w.sharedPath) fs := by
    unfold moveToShared
    rw [InstalledFor.find hi]
    simp only [readFile, hcm, htag, if_neg ht]
  rw [hmove] at h
  cases hm : moveTo w siteName site (n :: site) (tag :: w.sharedPath) fs with
  | mk fs3 r =>
  rw [hm] at h
  cases r with
  | error e => simp at h
  | ok r =>
  have hsn : siteName = t!"purelib" ∨ siteName = t!"platlib" := by
    rcases hi.place with ⟨e, _⟩ | ⟨e, _⟩
    · exact .inl e
    · exact .inr e
  obtain ⟨rfl, M⟩ := moveTo_spec w env siteName site n (tag :: w.sharedPath) fs fs3 r hi.tree hsite hs.scripts hap hnames
    hsn hi.fresh (by rw [InstalledFor.lines hi]; exact hi.inside) hm
  rw [InstalledFor.lines hi] at M
  simp only at h
  cases hl : linkShared w (tag :: w.sharedPath) fs3 with
  | mk fs4 ok =>
  rw [hl] at h
  cases ok with
  | false => simp at h
  | true =>
  simp only [Prod.mk.injEq, and_true] at h
  subst h
  have hsp : sitePath w fs3 (tag :: w.sharedPath) = site ∧ siteNameOf fs3 (tag :: w.sharedPath) = siteName := by
    unfold sitePath siteNameOf ex
    rcases hi.place with ⟨rfl, rfl⟩ | ⟨rfl, rfl, _⟩
    · rw [M.siteDir]; simp
    · rw [M.noOther (by decide)]; simp
  refine ⟨fs3, M, ?_, hsp.1, hsp.2, ?_, hsite, hap, ?_, hscr⟩
  · exact linkShared_spec w fs3 fs4 _ M.good (by rw [hsp.1]; exact hscr) hl
  · rw [← InstalledFor.entries hi]
    unfold entriesAt readFile
    have := M.info [t!"entry_points.txt"]
    simp only [List.singleton_append] at this
    rw [this]
  · exact M.siteKept (hi.tree.tree n site _ hi.dir)

variable {w : World C S} {env : Path} {fs fs' fs3 : FS C} {siteName : Text} {site : Path} {n tag : Text}
  {lines : List Text} {entries : List (Text × C)}

theorem Shared'.info_eq (h : Shared' w env fs siteName site n tag lines entries fs3 fs') :
    linkInfo w fs3 (tag :: w.sharedPath) = linkedInfo w site := by
  unfold linkInfo linkedInfo packagePrefix; rw [h.sitePath]

theorem Shared'.pth_eq (h : Shared' w env fs siteName site n tag lines entries fs3 fs') :
    linkPth w fs3 (tag :: w.sharedPath) = linkedPth w site := by
  unfold linkPth linkedPth packagePrefix; rw [h.sitePath]

/-- Outside of the environment a link changes nothing. -/
theorem Shared'.outside (h : Shared' w env fs siteName site n tag lines entries fs3 fs') (hs : SharingSetup w env) (p : Path)
    (hp : ¬ env <:+ p) : Dict.get fs' p = Dict.get fs3 p := by
  have hI : env <:+ linkedInfo w site := h.siteEnv.trans (List.suffix_cons _ _)
  have hP : env <:+ linkedPth w site := h.siteEnv.trans (List.suffix_cons _ _)
  have up : ∀ q, env <:+ q → p <:+ q → p <:+ env := by
    intro q hq hpq
    rcases List.suffix_or_suffix_of_suffix hpq hq with e | e
    · exact e
    · exact absurd e hp
  have henvdir : Dict.get fs3 p = none → ¬ p <:+ env := by
    intro hn e
    have h1 : p <:+ site := e.trans h.siteEnv
    by_cases he : p = site
    · subst he; exact hp h.siteEnv
    · rw [h.moved.good.ancestors site _ h.siteDir p h1 he] at hn; cases hn
  apply h.linked.same
  · rw [h.info_eq]; exact fun e => hp (hI.trans e)
  · rw [h.pth_eq]; exact fun e => hp (hP.trans e)
  · exact fun x _ e => hp ((hs.scripts.trans (List.suffix_cons x _)).trans e)
  · rw [h.info_eq]; exact fun hn e => henvdir hn (up _ hI e)
  · rw [h.pth_eq]; exact fun hn e => henvdir hn (up _ hP e)
  · exact fun hn e => henvdir hn (up _ hs.scripts e)

/-- What lies in the shared directory after the move stays there. -/
theorem Shared'.shared (h : Shared' w env fs siteName site n tag lines entries fs3 fs') (hs : SharingSetup w env) (a : Text)
    (rel : Path) : Dict.get fs' (rel ++ a :: tag :: w.sharedPath) = Dict.get fs3 (rel ++ a :: tag :: w.sharedPath) :=
  h.outside hs _ (fun e => h.apart.no e ((List.suffix_cons _ _).trans (List.suffix_append _ _)))

end SharedPkg

/-! ## C93 -/

/-- C93: after the installation of a package that can be shared, every recorded module is in the shared
directory with its content, and the environment has a `.pth` file that leads there. Excluded are files
that by text start with the path of the dist-info directory. -/
theorem shared_modules (w : World C S) (env : Path) (fs0 fs fs' : FS C) (siteName : Text) (site : Path) (n tag : Text)
    (lines : List Text) (entries : List (Text × C)) (base : FS C → FS C × Bool) (hs : SharingSetup w env)
    (hi : InstalledFor w env fs siteName site n tag lines entries) (ht : tag ≠ []) (hb : base fs0 = (fs, true))
    (h : installTo w [] base fs0 = (fs', .ok ())) :
    Dict.get fs' (linkedPth w site) = some (.file (w.pthText (siteName :: tag :: w.sharedPath))) ∧
    ∀ rel c, Recorded (n :: site) lines (rel ++ site) → ¬ TextBelow (rel ++ site) (n :: site) →
      Dict.get fs (rel ++ site) = some (.file c) →
      Dict.get fs' (rel ++ siteName :: tag :: w.sharedPath) = some (.file c) := by
  obtain ⟨fs3, H⟩ := shared_unpack hs hi ht hb h
  refine ⟨?_, ?_⟩
  · rw [← H.pth_eq, H.linked.pth, H.siteName]
  · intro rel c hR hT hc
    rw [H.shared hs]
    exact H.moved.modules rel c hR (textBelow_false hT) hc

/-- C93: the scripts are in the environment: those that are no entry points patched for its interpreter,
the entry points as generated for it. -/
theorem shared_scripts (w : World C S) (env : Path) (fs0 fs fs' : FS C) (siteName : Text) (site : Path) (n tag : Text)
    (lines : List Text) (entries : List (Text × C)) (base : FS C → FS C × Bool) (hs : SharingSetup w env)
    (hi : InstalledFor w env fs siteName site n tag lines entries) (ht : tag ≠ []) (hb : base fs0 = (fs, true))
    (h : installTo w [] base fs0 = (fs', .ok ())) :
    (∀ x c, Recorded (n :: site) lines (x :: w.scripts) → ¬ TextBelow (x :: w.scripts) site → stemOf x ∉ entries.map (·.1) →
      Dict.get fs (x :: w.scripts) = some (.file c) →
      Dict.get fs' (x :: w.scripts) = some (.file (w.patched c)) ∧
      Dict.get fs' (x :: t!"bin" :: tag :: w.sharedPath) = some (.file c)) ∧
    (∀ e ∈ entries, (∀ e' ∈ entries, e'.1 = e.1 → e' = e) → stemOf e.1 = e.1 →
      (∀ f, Recorded (n :: site) lines f → Dict.get fs f ≠ some .dir) →
      Dict.get fs' (e.1 :: w.scripts) = some (.file e.2)) := by
  obtain ⟨fs3, H⟩ := shared_unpack hs hi ht hb h
  have hent : (entriesAt w fs (n :: site)).map (·.1) = entries.map (·.1) := by rw [InstalledFor.entries hi]
  refine ⟨?_, ?_⟩
  · intro x c hR hT hE hc
    have hT2 : ¬ TextBelow (x :: w.scripts) (n :: site) := by
      intro e
      apply hT
      unfold TextBelow at e ⊢
      have h1 := showPath_prefix site (n :: site) (List.suffix_cons _ _)
      unfold isRelativeTo at h1
      exact (List.isPrefixOf_iff_prefix.1 h1).trans e
    have h3 := H.moved.scriptFiles [x] c hR (textBelow_false hT2) (textBelow_false hT) (by rw [hent]; exact hE) hc
    refine ⟨H.linked.script x c h3, ?_⟩
    have := H.shared hs t!"bin" [x]
    simp only [List.singleton_append] at this h3
    rw [this, h3]
  · intro e he huniq hstem hdir
    refine H.linked.entry e (by rw [H.entries]; exact he) (by rw [H.entries]; exact huniq) ?_
    intro c hc
    have := (H.moved.scriptsOnly [e.1] c hc).2.1
    rw [hent] at this
    apply this
    change stemOf e.1 ∈ _
    rw [hstem]
    exact List.mem_map_of_mem he

/-- C93: the dist-info directory is kept in the shared directory as it was, and copied to the environment
without RECORD; a marker there names the shared directory. -/
theorem shared_info (w : World C S) (env : Path) (fs0 fs fs' : FS C) (siteName : Text) (site : Path) (n tag : Text)
    (lines : List Text) (entries : List (Text × C)) (base : FS C → FS C × Bool) (hs : SharingSetup w env)
    (hi : InstalledFor w env fs siteName site n tag lines entries) (ht : tag ≠ []) (hb : base fs0 = (fs, true))
    (h : installTo w [] base fs0 = (fs', .ok ())) :
    (∀ rel, Dict.get fs' (rel ++ t!"dist-info" :: tag :: w.sharedPath) = Dict.get fs (rel ++ n :: site)) ∧
    (∀ rel c, rel ≠ [t!"SHARED"] → "RECORD".toList ∉ rel → Dict.get fs (rel ++ n :: site) = some (.file c) →
      Dict.get fs' (rel ++ linkedInfo w site) = some (.file c)) ∧
    (Dict.get fs (t!"SHARED" :: n :: site) = none →
      Dict.get fs' (t!"SHARED" :: linkedInfo w site) = some (.file (w.marker (tag :: w.sharedPath)))) := by
  obtain ⟨fs3, H⟩ := shared_unpack hs hi ht hb h
  refine ⟨?_, ?_, ?_⟩
  · intro rel
    rw [H.shared hs, H.moved.info]
  · intro rel c h1 h2 hc
    rw [← H.info_eq]
    refine H.linked.info rel c ?_ h1 h2 (by rw [H.moved.info]; exact hc)
    rintro rfl
    rw [List.nil_append, hi.dir] at hc; cases hc
  · intro hn
    rw [← H.info_eq]
    apply H.linked.marker
    have := H.moved.info [t!"SHARED"]
    simp only [List.singleton_append] at this
    rw [this, hn]

/-- C93: nothing else is shared: a file of the shared directory is a recorded module, a recorded script or
lies in the dist-info directory. -/
theorem shared_only (w : World C S) (env : Path) (fs0 fs fs' : FS C) (siteName : Text) (site : Path) (n tag : Text)
    (lines : List Text) (entries : List (Text × C)) (base : FS C → FS C × Bool) (hs : SharingSetup w env)
    (hi : InstalledFor w env fs siteName site n tag lines entries) (ht : tag ≠ []) (hb : base fs0 = (fs, true))
    (h : installTo w [] base fs0 = (fs', .ok ())) (rel : Path) (c : C) :
    (Dict.get fs' (rel ++ siteName :: tag :: w.sharedPath) = some (.file c) →
      Recorded (n :: site) lines (rel ++ site) ∧ Dict.get fs (rel ++ site) = some (.file c)) ∧
    (Dict.get fs' (rel ++ t!"bin" :: tag :: w.sharedPath) = some (.file c) →
      Recorded (n :: site) lines (rel ++ w.scripts) ∧ Dict.get fs (rel ++ w.scripts) = some (.file c)) := by
  obtain ⟨fs3, H⟩ := shared_unpack hs hi ht hb h
  refine ⟨?_, ?_⟩
  · intro hg
    rw [H.shared hs] at hg
    exact H.moved.siteOnly rel c hg
  · intro hg
    rw [H.shared hs] at hg
    have := H.moved.scriptsOnly rel c hg
    exact ⟨this.1, this.2.2⟩

/-- C93: outside of the environment and of the shared directory of the package nothing changes, except that
directories above the shared directory are made. -/
theorem shared_elsewhere (w : World C S) (env : Path) (fs0 fs fs' : FS C) (siteName : Text) (site : Path) (n tag : Text)
    (lines : List Text) (entries : List (Text × C)) (base : FS C → FS C × Bool) (hs : SharingSetup w env)
    (hi : InstalledFor w env fs siteName site n tag lines entries) (ht : tag ≠ []) (hb : base fs0 = (fs, true))
    (h : installTo w [] base fs0 = (fs', .ok ())) (p : Path) (hp : ¬ env <:+ p) (ht : ¬ (tag :: w.sharedPath) <:+ p) :
    Dict.get fs' p = Dict.get fs p ∨
      (Dict.get fs p = none ∧ p <:+ tag :: w.sharedPath ∧ Dict.get fs' p = some .dir) := by
  obtain ⟨fs3, H⟩ := shared_unpack hs hi (by assumption) hb h
  rw [H.outside hs p hp, H.moved.outside p hp ht]
  by_cases hc : Dict.get fs p = none ∧ p <:+ tag :: w.sharedPath
  · rw [if_pos hc]; exact .inr ⟨hc.1, hc.2, rfl⟩
  · rw [if_neg hc]; exact .inl rfl

/-- C93: of the files in the environment, only those that were recorded, lie in the dist-info directory or
are compiled, and those at the places of the link, change. -/
theorem shared_bystanders (w : World C S) (env : Path) (fs0 fs fs' : FS C) (siteName : Text) (site : Path) (n tag : Text)
    (lines : List Text) (entries : List (Text × C)) (base : FS C → FS C × Bool) (hs : SharingSetup w env)
    (hi : InstalledFor w env fs siteName site n tag lines entries) (ht : tag ≠ []) (hb : base fs0 = (fs, true))
    (h : installTo w [] base fs0 = (fs', .ok ())) (p : Path) (c : C) (hp : env <:+ p) (hc : Dict.get fs p = some (.file c))
    (h1 : ¬ Recorded (n :: site) lines p) (h2 : ¬ n :: site <:+ p) (h3 : pycache ∉ p) (h4 : ¬ linkedInfo w site <:+ p)
    (h5 : ¬ linkedPth w site <:+ p) (h6 : ∀ x ∈ entries.map (·.1), ¬ (x :: w.scripts) <:+ p) :
    Dict.get fs' p = some (.file c) := by
  obtain ⟨fs3, H⟩ := shared_unpack hs hi ht hb h
  have hk : Dict.get fs3 p = some (.file c) := by
    cases e : Dict.get fs3 p with
    | some m =>
      have := H.moved.sub p m hp e
      rw [hc] at this; rw [this]
    | none =>
      exfalso
      rcases H.moved.kept p c hp hc e with e | e | ⟨f, d, _, _, _, _, ⟨a, e⟩⟩
      · exact h1 e
      · exact h2 e
      · apply h3; rw [← e]; simp
  have hnone : Dict.get fs3 p = none → False := by rw [hk]; simp
  rw [H.linked.same p, hk]
  · rw [H.info_eq]; exact h4
  · rw [H.pth_eq]; exact h5
  · rintro x (⟨d, hx⟩ | ⟨d, hx⟩)
    · rw [H.entries] at hx
      exact h6 x (List.mem_map_of_mem hx)
    · obtain ⟨hR, _, hf⟩ := H.moved.scriptsOnly [x] d hx
      intro e
      by_cases he : x :: w.scripts = p
      · exact h1 (he ▸ hR)
      · have := hi.tree.ancestors p _ hc _ e he
        simp only [List.singleton_append] at hf
        rw [this] at hf; cases hf
  · exact fun e => (hnone e).elim
  · exact fun e => (hnone e).elim
  · exact fun e => (hnone e).elim

/-- C93: RECORD of the linked package lists, with their hashes, the files of the environment that the
installation made or changed, among them those it removed and made again; it lists not itself. -/
theorem shared_record (w : World C S) (env : Path) (fs0 fs fs' : FS C) (siteName : Text) (site : Path) (n tag : Text)
    (lines : List Text) (entries : List (Text × C)) (base : FS C → FS C × Bool) (hs : SharingSetup w env)
    (hi : InstalledFor w env fs siteName site n tag lines entries) (ht : tag ≠ []) (hb : base fs0 = (fs, true))
    (h : installTo w [] base fs0 = (fs', .ok ())) :
    ∃ recs, Dict.get fs' ("RECORD".toList :: linkedInfo w site) = some (.file (w.recordText recs)) ∧
      ∀ p c, env <:+ p → p ≠ "RECORD".toList :: linkedInfo w site → Dict.get fs' p = some (.file c) →
        (Dict.get fs p ≠ some (.file c) ∨ Recorded (n :: site) lines p ∨ n :: site <:+ p) → (∀ t ∈ p, ValidName t) →
        ∃ r ∈ recs, resolveFrom site r.file = p ∧ r.sig = some (w.hash c) := by
  obtain ⟨fs3, H⟩ := shared_unpack hs hi ht hb h
  obtain ⟨recs, hr, hall⟩ := H.linked.record
  rw [H.info_eq] at hr hall
  rw [H.sitePath] at hall
  refine ⟨recs, hr, ?_⟩
  intro p c hp hne hc hch hv
  refine hall p c hne hc ?_ hv
  intro e
  rcases hch with hch | hch | hch
  · exact hch (H.moved.sub p _ hp e)
  · rw [H.moved.gone.1 p hch] at e; cases e
  · rw [H.moved.gone.2 p hch] at e; cases e

/-- C93: uninstalling the linked package by its RECORD removes all the files that the installation made in
the environment. If RECORD names only files of the environment, the shared files stay. -/
theorem shared_unlink (w : World C S) (env : Path) (fs0 fs fs' fs'' : FS C) (siteName : Text) (site : Path) (n tag : Text)
    (lines : List Text) (entries : List (Text × C)) (base : FS C → FS C × Bool) (hs : SharingSetup w env)
    (hi : InstalledFor w env fs siteName site n tag lines entries) (ht : tag ≠ []) (hb : base fs0 = (fs, true))
    (h : installTo w [] base fs0 = (fs', .ok ()))
    (hrt : ∀ recs, w.recordsOf (w.recordText recs) = recs)
    (c : C) (hc : Dict.get fs' ("RECORD".toList :: linkedInfo w site) = some (.file c))
    (hu : uninstall w.pick (linkedInfo w site) ((w.recordsOf c).map (·.file)) fs' = some fs'') :
    (∀ p d, env <:+ p → Dict.get fs' p = some (.file d) →
      (Dict.get fs p ≠ some (.file d) ∨ Recorded (n :: site) lines p ∨ n :: site <:+ p) → (∀ t ∈ p, ValidName t) →
      Dict.get fs'' p = none) ∧
    ((∀ f, Recorded (linkedInfo w site) ((w.recordsOf c).map (·.file)) f → env <:+ f) →
      ∀ p, ¬ env <:+ p → Dict.get fs'' p = Dict.get fs' p) := by
  obtain ⟨fs3, H⟩ := shared_unpack hs hi ht hb h
  obtain ⟨recs, hr, hall⟩ := shared_record w env fs0 fs fs' siteName site n tag lines entries base hs hi ht hb h
  rw [hc] at hr
  simp only [Option.some.injEq, Node.file.injEq] at hr
  subst hr
  rw [hrt] at hu ⊢
  have hgood := H.linked.good
  refine ⟨?_, ?_⟩
  · intro p d hp hd hch hv
    have hrem := (uninstall_removes_recorded w.pick _ _ fs' fs'' hgood.tree hu).1
    by_cases e : p = "RECORD".toList :: linkedInfo w site
    · exact hrem p (.inr e)
    · obtain ⟨r, hr, hres, _⟩ := hall p d hp e hd hch hv
      exact hrem p (.inl ⟨r.file, List.mem_map_of_mem hr, hres.symm⟩)
  · intro hin p hp
    have hnames : ∀ c ∈ site, c ≠ [] := by
      intro c hc
      apply hs.named c
      rcases hi.place with ⟨_, rfl⟩ | ⟨_, rfl, _⟩ <;> simp [hc]
    exact (uninstall_within w.pick env _ site _ fs' fs'' hgood hnames H.siteEnv hin hu).2 p hp

/-- C93, what fails: a recorded file that is neither a module nor a script nor in the dist-info directory
(data, headers) and not at a place of the link is deleted: it is neither in the environment nor shared. -/
theorem shared_data_violated (w : World C S) (env : Path) (fs0 fs fs' : FS C) (siteName : Text) (site : Path) (n tag : Text)
    (lines : List Text) (entries : List (Text × C)) (base : FS C → FS C × Bool) (hs : SharingSetup w env)
    (hi : InstalledFor w env fs siteName site n tag lines entries) (ht : tag ≠ []) (hb : base fs0 = (fs, true))
    (h : installTo w [] base fs0 = (fs', .ok ())) (f : Path) (c : C) (hR : Recorded (n :: site) lines f)
    (hc : Dict.get fs f = some (.file c)) (h1 : ¬ site <:+ f) (h2 : ¬ w.scripts <:+ f)
    (h3 : ¬ f <:+ w.scripts) :
    Dict.get fs' f = none ∧
    ((∀ p, Dict.get fs p = some (.file c) → p = f) →
      ∀ a ∈ [siteName, t!"bin", t!"dist-info"], ∀ rel, Dict.get fs' (rel ++ a :: tag :: w.sharedPath) ≠ some (.file c)) := by
  obtain ⟨fs3, H⟩ := shared_unpack hs hi ht hb h
  have hg3 : Dict.get fs3 f = none := H.moved.gone.1 f hR
  refine ⟨?_, ?_⟩
  · -- a file lies not above the directories of modules and scripts
    have above : ∀ q, f <:+ q → f ≠ q → Dict.get fs q = some .dir → False := by
      intro q h1 h2 h3
      have := hi.tree.ancestors q _ h3 f h1 h2
      rw [this] at hc; cases hc
    have hsd : Dict.get fs site = some .dir := hi.tree.tree n site _ hi.dir
    have hfs : ¬ f <:+ site := fun e => above site e (fun e' => h1 (e' ▸ List.suffix_refl _)) hsd
    rw [H.linked.same f, hg3]
    · rw [H.info_eq]; exact fun e => h1 ((List.suffix_cons _ _).trans e)
    · rw [H.pth_eq]; exact fun e => h1 ((List.suffix_cons _ _).trans e)
    · exact fun x _ e => h2 ((List.suffix_cons _ _).trans e)
    · intro _ e
      rw [H.info_eq] at e
      rcases List.suffix_cons_iff.1 e with e | e
      · exact h1 (e ▸ List.suffix_cons _ _)
      · exact hfs e
    · intro _ e
      rw [H.pth_eq] at e
      rcases List.suffix_cons_iff.1 e with e | e
      · exact h1 (e ▸ List.suffix_cons _ _)
      · exact hfs e
    · exact fun _ => h3
  · intro huniq a ha rel hg
    rw [H.shared hs] at hg
    simp only [List.mem_cons, List.not_mem_nil, or_false] at ha
    rcases ha with rfl | rfl | rfl
    · exact h1 (huniq _ (H.moved.siteOnly rel c hg).2 ▸ List.suffix_append _ _)
    · exact h2 (huniq _ (H.moved.scriptsOnly rel c hg).2.2 ▸ List.suffix_append _ _)
    · rw [H.moved.info] at hg
      exact h1 (huniq _ hg ▸ (List.suffix_cons n site).trans (List.suffix_append _ _))

/-- C93: a package without compatibility tag is left as the base repository installed it. -/
theorem shared_untagged (w : World C S) (env : Path) (fs0 fs : FS C) (siteName : Text) (site : Path) (n : Text)
    (lines : List Text) (entries : List (Text × C)) (base : FS C → FS C × Bool)
    (hi : InstalledFor w env fs siteName site n [] lines entries) (hb : base fs0 = (fs, true)) :
    installTo w [] base fs0 = (fs, .ok ()) := by
  obtain ⟨c, hc, ht⟩ := hi.mode
  simp only [installTo, sharedArtifactFor, hb, moveToShared, InstalledFor.find hi, readFile, hc, ht, if_pos]

/-- C93: if the base repository fails, so does the installation, and nothing else is done. -/
theorem shared_base_fails (w : World C S) (fs0 fs : FS C) (base : FS C → FS C × Bool) (hb : base fs0 = (fs, false)) :
    installTo w [] base fs0 = (fs, .error .io) := by
  simp only [installTo, sharedArtifactFor, hb]

/-- C93, what fails: once the shared directory of the package has an artifact, whatever its tag, every later
installation raises `AttributeError`: no second environment can use the package. -/
theorem shared_second_use_violated (w : World C S) (a : Text) (l : List Text) (base : FS C → FS C × Bool) (fs : FS C) :
    installTo w (a :: l) base fs = (fs, .error .attribute) := rfl

/-- C93, what fails: after a successful installation the shared directory of the package has an artifact, so
the next installation of the package, to any environment, raises `AttributeError`. -/
theorem shared_then_unusable_violated (w w2 : World C S) (env : Path) (fs0 fs fs' : FS C) (siteName : Text) (site : Path) (n tag : Text)
    (lines : List Text) (entries : List (Text × C)) (base base2 : FS C → FS C × Bool) (hs : SharingSetup w env)
    (hi : InstalledFor w env fs siteName site n tag lines entries) (ht : tag ≠ []) (hb : base fs0 = (fs, true))
    (h : installTo w [] base fs0 = (fs', .ok ())) (hw : w2.sharedPath = w.sharedPath) :
    installTo w2 (artifactsOf w2 fs') base2 fs' = (fs', .error .attribute) := by
  obtain ⟨fs3, H⟩ := shared_unpack hs hi ht hb h
  have hd : Dict.get fs' (tag :: w.sharedPath) = some .dir := by
    rw [H.outside hs _ H.apart.1]
    exact H.moved.good.tree _ _ _ H.moved.siteDir
  have hd2 : Dict.get fs' w.sharedPath = some .dir := H.linked.good.tree _ _ _ hd
  have hm : tag ∈ artifactsOf w2 fs' := by
    unfold artifactsOf FS.ex
    rw [hw, hd2]
    exact (mem_children_get fs' H.linked.good.wf _ _).2 ⟨_, hd⟩
  cases e : artifactsOf w2 fs' with
  | nil => rw [e] at hm; simp at hm
  | cons a l => rfl

/-! ### A concrete case -/

namespace SharedPkg

/-- The environment `/e` with modules in `/e/lib`, scripts in `/e/bin`; package `Foo` 1. Contents are
numbers: 1 is RECORD, 2 INSTALLATION_MODE, 3 entry_points.txt. -/
def exWorld (records : List Text) : World Nat Nat where
  purelib := [t!"lib", t!"e"]
  platlib := [t!"lib64", t!"e"]
  scripts := [t!"bin", t!"e"]
  srcName := t!"foo"
  version := t!"1"
  sharedPath := [t!"1", t!"foo", t!"s"]
  tagOf := fun c => if c = 2 then t!"any" else []
  recordsOf := fun c => if c = 1 then records.map (fun f => ⟨f, none⟩) else []
  recordText := fun l => 1000 + l.length
  entriesOf := fun c => if c = 3 then [(t!"run", 30)] else []
  pthText := fun p => 2000 + p.length
  patched := fun c => 100 + c
  marker := fun _ => 4000
  hash := fun c => c
  empty := 0
  order := id
  pick := fun _ => 0

def exLines : List Text :=
  [t!"foo/a.py", t!"../bin/tool", t!"../bin/run", t!"../share/data", t!"Foo-1.dist-info/METADATA"]

def exInfo : Path := [t!"Foo-1.dist-info", t!"lib", t!"e"]

def exFs : FS Nat :=
  [([], .dir), ([t!"e"], .dir), ([t!"lib", t!"e"], .dir), ([t!"lib64", t!"e"], .dir), ([t!"bin", t!"e"], .dir),
   ([t!"share", t!"e"], .dir), ([t!"data", t!"share", t!"e"], .file 7),
   ([t!"foo", t!"lib", t!"e"], .dir), ([t!"a.py", t!"foo", t!"lib", t!"e"], .file 5),
   ([t!"other.py", t!"lib", t!"e"], .file 11),
   ([t!"tool", t!"bin", t!"e"], .file 6), ([t!"run", t!"bin", t!"e"], .file 8),
   (exInfo, .dir), (t!"METADATA" :: exInfo, .file 9), ("RECORD".toList :: exInfo, .file 1),
   (t!"INSTALLATION_MODE" :: exInfo, .file 2), (t!"entry_points.txt" :: exInfo, .file 3)]

def exAfter : FS Nat := (installTo (exWorld exLines) [] (fun fs => (fs, true)) exFs).1

theorem exOk : installTo (exWorld exLines) [] (fun fs => (fs, true)) exFs = (exAfter, .ok ()) := by
  have : (installTo (exWorld exLines) [] (fun fs => (fs, true)) exFs).2.toOption = some () := by decide +kernel
  unfold exAfter
  cases e : installTo (exWorld exLines) [] (fun fs => (fs, true)) exFs with
  | mk a b =>
    rw [e] at this
    cases b with
    | error x => cases this
    | ok u => rfl


/-- A check that a file system is a tree. -/
def goodCheck (fs : FS Nat) : Bool :=
  fs.all (fun e => match e.1 with
    | [] => true
    | _ :: p => decide (Dict.get fs p = some .dir)) &&
  decide (Dict.get fs [] = some .dir) && decide (Dict.keys fs).Nodup

theorem good_of_check {fs : FS Nat} (h : goodCheck fs = true) : Good fs := by
  unfold goodCheck at h
  simp only [Bool.and_eq_true, decide_eq_true_eq] at h
  refine ⟨?_, h.1.2, h.2⟩
  intro x p n hx
  have := List.all_eq_true.1 h.1.1 _ (Dict.get_mem _ _ _ hx)
  simpa using this

theorem exSetup : SharingSetup (exWorld exLines) [t!"e"] := by
  refine ⟨?_, ?_, ?_, ?_, ?_, ?_, ?_⟩ <;> simp only [exWorld] <;> decide

theorem get_keys {fs : FS Nat} {p : Path} (h : Dict.get fs p ≠ none) : p ∈ Dict.keys fs := by
  cases e : Dict.get fs p with
  | none => exact absurd e h
  | some v => exact List.mem_map_of_mem (f := Prod.fst) (Dict.get_mem _ _ _ e)

theorem exInstalled : InstalledFor (exWorld exLines) [t!"e"] exFs t!"purelib" [t!"lib", t!"e"] t!"Foo-1.dist-info" t!"any"
    exLines [(t!"run", 30)] where
  tree := good_of_check (by decide +kernel)
  place := .inl ⟨rfl, rfl⟩
  name := ⟨by decide, by decide⟩
  only := by
    intro m hm hg
    have hk := get_keys hg
    have : ∀ k ∈ Dict.keys exFs, ∀ a, k = a :: [t!"lib", t!"e"] → t!".dist-info" <:+ a → a = t!"Foo-1.dist-info" := by
      have h2 : ∀ k ∈ Dict.keys exFs, k.tail = [t!"lib", t!"e"] → t!".dist-info" <:+ k.headD [] → k.headD [] = t!"Foo-1.dist-info" := by
        decide +kernel
      intro k hk a e hs
      have := h2 k hk
      rw [e] at this
      exact this rfl hs
    exact this _ hk m rfl hm.1
  dir := by decide +kernel
  mode := ⟨2, by decide +kernel, by decide⟩
  record := ⟨1, by decide +kernel, by decide⟩
  entryPoints := .inr ⟨3, by decide +kernel, by decide⟩
  inside := by
    rintro f (⟨r, hr, rfl⟩ | rfl)
    · revert r; decide +kernel
    · exact ⟨["RECORD".toList, t!"Foo-1.dist-info", t!"lib"], rfl⟩
  fresh := by decide +kernel

/-- The hypotheses of the theorems are met: what the shared package looks like afterwards. -/
example :
    Dict.get exAfter [t!"a.py", t!"foo", t!"purelib", t!"any", t!"1", t!"foo", t!"s"] = some (.file 5) ∧
    Dict.get exAfter [t!"foo-1.pth", t!"lib", t!"e"] = some (.file 2005) ∧
    Dict.get exAfter [t!"a.py", t!"foo", t!"lib", t!"e"] = none ∧
    Dict.get exAfter [t!"tool", t!"bin", t!"any", t!"1", t!"foo", t!"s"] = some (.file 6) ∧
    Dict.get exAfter [t!"tool", t!"bin", t!"e"] = some (.file 106) ∧
    Dict.get exAfter [t!"run", t!"bin", t!"any", t!"1", t!"foo", t!"s"] = none ∧
    Dict.get exAfter [t!"run", t!"bin", t!"e"] = some (.file 30) ∧
    Dict.get exAfter [t!"METADATA", t!"dist-info", t!"any", t!"1", t!"foo", t!"s"] = some (.file 9) ∧
    Dict.get exAfter [t!"METADATA", t!"foo-1.dist-info", t!"lib", t!"e"] = some (.file 9) ∧
    Dict.get exAfter [t!"SHARED", t!"foo-1.dist-info", t!"lib", t!"e"] = some (.file 4000) ∧
    Dict.get exAfter exInfo = none ∧
    Dict.get exAfter [t!"other.py", t!"lib", t!"e"] = some (.file 11) ∧
    Dict.get exAfter [t!"data", t!"share", t!"e"] = none := by decide +kernel

example : Dict.get exAfter [t!"a.py", t!"foo", t!"purelib", t!"any", t!"1", t!"foo", t!"s"] = some (.file 5) :=
  (shared_modules _ _ _ _ _ _ _ _ _ _ _ _ exSetup exInstalled (by decide) rfl exOk).2 [t!"a.py", t!"foo"] 5
    (.inl ⟨t!"foo/a.py", by decide, by decide +kernel⟩) (by unfold TextBelow; decide +kernel) (by decide +kernel)

example : Dict.get exAfter [t!"data", t!"share", t!"e"] = none :=
  (shared_data_violated _ _ _ _ _ _ _ _ _ _ _ _ exSetup exInstalled (by decide) rfl exOk [t!"data", t!"share", t!"e"] 7
    (.inl ⟨t!"../share/data", by decide, by decide +kernel⟩) (by decide +kernel) (by decide) (by decide)
    (by decide)).1

example : Dict.get exAfter [t!"other.py", t!"lib", t!"e"] = some (.file 11) :=
  shared_bystanders _ _ _ _ _ _ _ _ _ _ _ _ exSetup exInstalled (by decide) rfl exOk _ 11 (by decide) (by decide +kernel)
    (by rintro (⟨r, hr, h⟩ | h)
        · revert r; decide +kernel
        · exact absurd (congrArg List.length h) (by decide))
    (by decide) (by decide) (by decide) (by decide) (by decide)

end SharedPkg

/-- C93, what fails: a directory among the recorded scripts. The installation raises after the package was
moved: its modules are gone from the environment, nothing links to the shared ones. -/
theorem shared_failed_link_violated :
    ∃ (w : World Nat Nat) (fs : FS Nat), Good fs ∧ SharingSetup w [t!"e"] ∧
      (∃ e, (installTo w [] (fun fs => (fs, true)) fs).2 = .error e) ∧
      Dict.get fs [t!"a.py", t!"foo", t!"lib", t!"e"] = some (.file 5) ∧
      Dict.get (installTo w [] (fun fs => (fs, true)) fs).1 [t!"a.py", t!"foo", t!"lib", t!"e"] = none ∧
      Dict.get (installTo w [] (fun fs => (fs, true)) fs).1 exInfo = none ∧
      Dict.get (installTo w [] (fun fs => (fs, true)) fs).1 [t!"foo-1.pth", t!"lib", t!"e"] = none := by
  refine ⟨exWorld [t!"foo/a.py", t!"../bin/sub/tool"], exFs ++ [([t!"sub", t!"bin", t!"e"], .dir), ([t!"tool", t!"sub", t!"bin", t!"e"], .file 6)],
    good_of_check (by decide +kernel), ?_, ⟨.io, ?_⟩, by decide +kernel, by decide +kernel, by decide +kernel, by decide +kernel⟩
  · refine ⟨?_, ?_, ?_, ?_, ?_, ?_, ?_⟩ <;> simp only [exWorld] <;> decide
  · rfl

/-- C93, what fails: paths are compared as text. A recorded file of a directory whose name starts with that
of the directory of modules raises, and a half-filled shared directory stays behind: from then on the
package cannot be installed. -/
theorem shared_text_prefix_violated :
    ∃ (w : World Nat Nat) (fs : FS Nat), Good fs ∧ SharingSetup w [t!"e"] ∧
      (installTo w [] (fun fs => (fs, true)) fs).2 = .error .notBelow ∧
      artifactsOf w fs = [] ∧ artifactsOf w (installTo w [] (fun fs => (fs, true)) fs).1 ≠ [] := by
  refine ⟨exWorld [t!"foo/a.py", t!"../lib-extra/x"], exFs ++ [([t!"lib-extra", t!"e"], .dir), ([t!"x", t!"lib-extra", t!"e"], .file 6)],
    good_of_check (by decide +kernel), ?_, ?_, by decide +kernel, by decide +kernel⟩
  · refine ⟨?_, ?_, ?_, ?_, ?_, ?_, ?_⟩ <;> simp only [exWorld] <;> decide
  · rfl

/-- C93, what fails: the name of a script is compared with the entry points without its suffix: `run.py`
beside an entry point `run` is lost. -/
theorem shared_stem_violated :
    ∃ (w : World Nat Nat) (fs : FS Nat), Good fs ∧ SharingSetup w [t!"e"] ∧
      (installTo w [] (fun fs => (fs, true)) fs).2.toOption = some () ∧
      Dict.get fs [t!"run.py", t!"bin", t!"e"] = some (.file 6) ∧
      ∀ p, Dict.get (installTo w [] (fun fs => (fs, true)) fs).1 p ≠ some (.file 6) ∧
        Dict.get (installTo w [] (fun fs => (fs, true)) fs).1 p ≠ some (.file 106) := by
  refine ⟨exWorld [t!"foo/a.py", t!"../bin/tool", t!"../bin/run.py"], exFs.filter (fun e => decide (e.2 ≠ .file 6)) ++ [([t!"tool", t!"bin", t!"e"], .file 12), ([t!"run.py", t!"bin", t!"e"], .file 6)],
    good_of_check (by decide +kernel), ?_, by decide +kernel, by decide +kernel, ?_⟩
  · refine ⟨?_, ?_, ?_, ?_, ?_, ?_, ?_⟩ <;> simp only [exWorld] <;> decide
  · intro p
    refine ⟨fun h => ?_, fun h => ?_⟩
    all_goals
      have := Dict.get_mem _ _ _ h
      revert this
      generalize hq : (p, _) = q
    · have hall : ∀ q ∈ (installTo (exWorld [t!"foo/a.py", t!"../bin/tool", t!"../bin/run.py"]) [] (fun fs => (fs, true)) (exFs.filter (fun e => decide (e.2 ≠ .file 6)) ++ [([t!"tool", t!"bin", t!"e"], .file 12), ([t!"run.py", t!"bin", t!"e"], .file 6)])).1, q.2 ≠ .file 6 := by decide +kernel
      intro hm
      exact hall q hm (by rw [← hq])
    · have hall : ∀ q ∈ (installTo (exWorld [t!"foo/a.py", t!"../bin/tool", t!"../bin/run.py"]) [] (fun fs => (fs, true)) (exFs.filter (fun e => decide (e.2 ≠ .file 6)) ++ [([t!"tool", t!"bin", t!"e"], .file 12), ([t!"run.py", t!"bin", t!"e"], .file 6)])).1, q.2 ≠ .file 106 := by decide +kernel
      intro hm
      exact hall q hm (by rw [← hq])

/-- C93, what fails: a package whose installation left no INSTALLATION_MODE, as that of a conda artifact does not.
Sharing raises `AttributeError`, although the package is installed, and stays so. -/
theorem shared_no_mode_violated :
    ∃ (w : World Nat Nat) (fs : FS Nat), Good fs ∧ SharingSetup w [t!"e"] ∧
      (installTo w [] (fun fs => (fs, true)) fs).2 = .error .attribute ∧
      (installTo w [] (fun fs => (fs, true)) fs).1 = fs ∧
      Dict.get fs [t!"METADATA", t!"Foo-1.dist-info", t!"lib", t!"e"] = some (.file 9) := by
  refine ⟨exWorld exLines, exFs.filter (fun e => decide (e.1.head? ≠ some t!"INSTALLATION_MODE")),
    good_of_check (by decide +kernel), exSetup, rfl, by decide +kernel, by decide +kernel⟩

/-- A package without RECORD: its modules are not found, and stay where they are. -/
example :
    let fs := exFs.filter (fun e => decide (e.1.head? ≠ some "RECORD".toList))
    Dict.get (installTo (exWorld exLines) [] (fun fs => (fs, true)) fs).1 [t!"a.py", t!"foo", t!"lib", t!"e"] = some (.file 5) := by
  decide +kernel

/-- C93: while no artifact is shared, the dependencies are those of the package itself that are applicable to the
environment, in their order. -/
theorem shared_dependencies {D : Type} (applicable : D → Bool) (ofMetadata : Text → List D) (base : List D) :
    ∃ ds, dependencies applicable ofMetadata base [] = .ok ds ∧ ds.Sublist base ∧
      ∀ d, d ∈ ds ↔ d ∈ base ∧ applicable d = true :=
  ⟨base.filter applicable, rfl, List.filter_sublist, fun d => List.mem_filter⟩

example : dependencies (fun d => d > 3) (fun _ => []) [2, 5, 9, 1] [] = .ok [5, 9] := rfl

end Pkm
