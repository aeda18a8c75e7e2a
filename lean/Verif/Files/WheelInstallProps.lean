import Verif.Files.WheelInstallChecks
set_option linter.unusedVariables false
set_option linter.unusedSimpArgs false
set_option linter.unusedSectionVars false
/-
C96: the installation of wheels.
-/
namespace Pkm
open Tags Files Files.FS WheelInstall

variable {C S : Type}

namespace Spec

/-- The files of information that an installation writes itself. -/
def InfoFile (site : Path) (stem : Text) (p : Path) : Prop :=
  ∃ n ∈ [t!"RECORD", t!"INSTALLER", t!"REQUESTED", t!"INSTALLATION_MODE"], p = n :: (stem ++ t!".dist-info") :: site

/-- A file that an installation brings: put from the wheel, or a launcher. -/
def Brings (tg : Target) (patch : C → C) (site : Path) (stem : Text) (tree : Sources C) (entries : List (Entry C)) (p : Path) : Prop :=
  (∃ c, Puts tg patch site stem tree p c) ∨ LauncherAt tg.scripts entries p

/-- The site that a wheel is installed to. -/
def siteOf (tg : Target) (purelib : Bool) : Path := if purelib then tg.purelib else tg.platlib

end Spec
open Spec

namespace WheelInstall

/-- The stages of an installation that succeeds, in terms of what the wheel says. -/
structure Stages (fm : Formats C S) (tl : Tools C S) (tg : Target) (content : Path) (tree : Sources C) (request : Option C) (info : C)
    (fs fs' : FS C) (stem : Text) (site : Path) (entries : List (Entry C)) (records : List (Rec S)) (t1 t2 : Txn C) : Prop where
  run : Txn.run tl.empty (contentCalls tg tl.patch content site (stem ++ distInfoExt) (prune tree)) ⟨fs, [], []⟩ = .ok t1
  good1 : Good t1.fs
  calls : ∀ x ∈ contentCalls tg tl.patch content site (stem ++ distInfoExt) (prune tree), ContentCall tg tl.patch site stem tree x
  has : ∀ p c, Puts tg tl.patch site stem tree p c →
    (∃ x ∈ contentCalls tg tl.patch content site (stem ++ distInfoExt) (prune tree), PutCall x p c) ∧ p ∈ t1.copied
  copied1 : ∀ p c, p ∈ t1.copied → Dict.get t1.fs p = some (.file c) → ∃ d, Puts tg tl.patch site stem tree p d
  fs1 : Dict.get t1.fs = (contentCalls tg tl.patch content site (stem ++ distInfoExt) (prune tree)).foldl (after tl.empty) (Dict.get fs)
  launched : launchers tg.scripts entries t1 = .ok t2
  good2 : Good t2.fs
  good3 : Good (compileAll tl t2).fs
  goodEnd : Good fs'
  finish : ∃ old, oldRecords fm (compileAll tl t2).fs ((stem ++ distInfoExt) :: site) = some old ∧
      ∀ p, Dict.get fs' p =
        if p = t!"INSTALLATION_MODE" :: (stem ++ distInfoExt) :: site then some (.file info)
        else if p = t!"REQUESTED" :: (stem ++ distInfoExt) :: site ∧ request ≠ none then request.map .file
        else if p = t!"INSTALLER" :: (stem ++ distInfoExt) :: site then some (.file fm.installer)
        else if p = "RECORD".toList :: (stem ++ distInfoExt) :: site then
          some (.file (fm.writeRecord (old ++ signFiles (precomputedOf records) tl.hash (compileAll tl t2).fs site
            (tl.order (compileAll tl t2).copied))))
        else Dict.get (compileAll tl t2).fs p

theorem stages {fm : Formats C S} {tl : Tools C S} {tg : Target} {content : Path} {tree : Sources C} {request : Option C} {info : C}
    {fs fs' : FS C} {stem : Text} {purelib : Bool} {entries : List (Entry C)} {records : List (Rec S)} (hg : Good fs) (hd : Distinct tree)
    (hs : WheelSays fm tree stem purelib entries records) (h : install fm tl tg content tree request info fs = (fs', none)) :
    ∃ t1 t2, Stages fm tl tg content tree request info fs fs' stem (siteOf tg purelib) entries records t1 t2 := by
  obtain ⟨ch, t1, t2, t3, h1, h2, h3, h4, rfl⟩ := install_stages h
  obtain ⟨stem', e1, e2, e3, _⟩ := check_ok hd h1
  obtain ⟨rfl, rfl, rfl, rfl⟩ := wheelSays_det hd hs e3
  change Txn.run tl.empty (contentCalls tg tl.patch content (siteOf tg ch.purelib) ch.distInfo ch.tree) ⟨fs, [], []⟩ = .ok t1 at h2
  change finish fm tl (siteOf tg ch.purelib) ch request info (compileAll tl t2) = .ok t3 at h4
  rw [e1, e2] at h2
  obtain ⟨f1, f2⟩ := run_ok tl.empty _ _ t1 (by exact hg) h2
  have hnf := run_no_fail tl.empty _ _ _ h2
  have hcalls := contentCalls_mem tg tl.patch content (siteOf tg ch.purelib) stem (prune tree) hnf
  have hsimple : ∀ x ∈ contentCalls tg tl.patch content (siteOf tg ch.purelib) (stem ++ distInfoExt) (prune tree), Simple x :=
    fun x hx => (ContentCall.simple (hcalls x hx))
  obtain ⟨c1, c2, c3⟩ := run_copied_file tl.empty _ _ t1 (by exact hg) hsimple h2
  have hcalls' : ∀ x ∈ contentCalls tg tl.patch content (siteOf tg ch.purelib) (stem ++ distInfoExt) (prune tree),
      ContentCall tg tl.patch (siteOf tg ch.purelib) stem tree x := by
    intro x hx
    cases hcalls x hx with
    | put a b => exact .put a (puts_prune.1 b)
    | touch a => exact .touch (puts_prune.1 a)
    | mkdir a => exact .mkdir (makes_prune a)
  obtain ⟨l1, l2, l3, l4, l5, l6⟩ := launchers_ok tg.scripts ch.entries t1 t2 f2 h3
  have hpy : ∀ p ∈ (tl.order t2.copied).filter isPy, isPy p = true := fun p hp => (List.mem_filter.1 hp).2
  have g3 := (compileLoop_spec tl _ t2.fs l1 hpy).1
  obtain ⟨old, o1, o2, o3⟩ := finish_ok (t := compileAll tl t2) (by exact g3) h4
  refine ⟨t1, t2, h2, f2, hcalls', ?_, ?_, ?_, h3, l1, g3, o2, old, by rw [← e1]; exact o1, by rw [e1] at o3; exact o3⟩
  · intro p c hp
    obtain ⟨a, b⟩ := contentCalls_has tg tl.patch content (siteOf tg ch.purelib) stem (prune tree) hnf p c (puts_prune.2 hp)
    refine ⟨a, c2 p ?_⟩
    rcases b with b | b
    · exact .inl ⟨c, b⟩
    · exact .inr b
  · intro p c h5 h6
    rcases c3 p c h5 h6 with ⟨d, h7, _⟩ | ⟨x, hx, h7⟩
    · simp at h7
    · have := hcalls' x hx
      rcases h7 with ⟨d, h7 | h7⟩ | h7
      · subst h7
        cases this with
        | put a b =>
          rcases a with a | a
          · cases a; exact ⟨_, b⟩
          · cases a
      · subst h7
        cases this with
        | put a b =>
          rcases a with a | a
          · cases a
          · cases a; exact ⟨_, b⟩
      · subst h7
        cases this with
        | put a b => rcases a with a | a <;> cases a
        | touch a => exact ⟨_, a⟩
  · funext p
    exact f1 p

/-- What compilation does. -/
theorem compileAll_changes {tl : Tools C S} (hord : ∀ l p, p ∈ tl.order l ↔ p ∈ l) {t2 : Txn C} (hg : Good t2.fs) (q : Path) :
    Dict.get (compileAll tl t2).fs q = Dict.get t2.fs q ∨
      (∃ p ∈ t2.copied, Pyc tl.tag p q ∧ Dict.get t2.fs q ≠ some .dir ∧ ∃ c b, Dict.get t2.fs p = some (.file c) ∧ tl.comp p c = some b ∧
        Dict.get (compileAll tl t2).fs q = some (.file b)) ∨
      (Dict.get t2.fs q = none ∧ Dict.get (compileAll tl t2).fs q = some .dir ∧
        ∃ p ∈ t2.copied, isPy p = true ∧ q = pycache :: parent p ∧ ∃ c, Dict.get t2.fs p = some (.file c)) := by
  have hpy : ∀ p ∈ (tl.order t2.copied).filter isPy, isPy p = true := fun p hp => (List.mem_filter.1 hp).2
  rcases (compileLoop_spec tl _ t2.fs hg hpy).2.1 q with h | ⟨p, hp, h1, h2, h3⟩ | ⟨h1, h2, p, hp, h3, c, b, h4, h5⟩
  · exact .inl h
  · have hp' := List.mem_filter.1 hp
    exact .inr (.inl ⟨p, (hord _ _).1 hp'.1, (pyc_iff _ _ _).2 ⟨hp'.2, h1⟩, h2, h3⟩)
  · have hp' := List.mem_filter.1 hp
    exact .inr (.inr ⟨h1, h2, p, (hord _ _).1 hp'.1, hp'.2, h3, c, h4⟩)

theorem Stages.copied2 {fm : Formats C S} {tl : Tools C S} {tg : Target} {content : Path} {tree : Sources C} {request : Option C} {info : C}
    {fs fs' : FS C} {stem : Text} {site : Path} {entries : List (Entry C)} {records : List (Rec S)} {t1 t2 : Txn C}
    (st : Stages fm tl tg content tree request info fs fs' stem site entries records t1 t2) {p : Path} {c : C} (hp : p ∈ t2.copied)
    (hc : Dict.get t2.fs p = some (.file c)) : Brings tg tl.patch site stem tree entries p := by
  obtain ⟨l1, l2, l3, l4, l5, l6⟩ := launchers_ok tg.scripts entries t1 t2 st.good1 st.launched
  by_cases hl : LauncherAt tg.scripts entries p
  · exact .inr hl
  · rcases (l5 p).1 hp with hp | hp
    · rcases l3 p hl with h | ⟨_, _, h, _⟩
      · rw [h] at hc
        exact .inl (st.copied1 p c hp hc)
      · rw [hc] at h; cases h
    · exact absurd hp hl

theorem Stages.brings_copied {fm : Formats C S} {tl : Tools C S} {tg : Target} {content : Path} {tree : Sources C} {request : Option C} {info : C}
    {fs fs' : FS C} {stem : Text} {site : Path} {entries : List (Entry C)} {records : List (Rec S)} {t1 t2 : Txn C}
    (st : Stages fm tl tg content tree request info fs fs' stem site entries records t1 t2) {p : Path}
    (hb : Brings tg tl.patch site stem tree entries p) : p ∈ t2.copied := by
  obtain ⟨l1, l2, l3, l4, l5, l6⟩ := launchers_ok tg.scripts entries t1 t2 st.good1 st.launched
  rw [l5]
  rcases hb with ⟨c, h⟩ | h
  · exact .inl (st.has p c h).2
  · exact .inr h

theorem Stages.same {fm : Formats C S} {tl : Tools C S} {tg : Target} {content : Path} {tree : Sources C} {request : Option C} {info : C}
    {fs fs' : FS C} {stem : Text} {site : Path} {entries : List (Entry C)} {records : List (Rec S)} {t1 t2 : Txn C}
    (st : Stages fm tl tg content tree request info fs fs' stem site entries records t1 t2) {p : Path} (hp : ¬ InfoFile site stem p) :
    Dict.get fs' p = Dict.get (compileAll tl t2).fs p := by
  obtain ⟨old, _, h⟩ := st.finish
  have hn : ∀ n ∈ [t!"RECORD", t!"INSTALLER", t!"REQUESTED", t!"INSTALLATION_MODE"], p ≠ n :: (stem ++ distInfoExt) :: site := by
    intro n hn e
    exact hp ⟨n, hn, by rw [← distInfoExt_eq]; exact e⟩
  rw [h p, if_neg (hn _ (by simp)), if_neg (fun x => hn _ (by simp) x.1), if_neg (hn _ (by simp)), if_neg ?_]
  rw [record_eq]
  exact hn _ (by simp)

theorem putCall_copied {tg : Target} {patch : C → C} {site : Path} {stem : Text} {tree : Sources C} {x : Call C} {p : Path} {c : C}
    (h : ContentCall tg patch site stem tree x) (hx : PutCall x p c) : Puts tg patch site stem tree p c := by
  rcases hx with hx | hx
  · subst hx
    cases h with
    | put a b =>
      rcases a with a | a
      · cases a; exact b
      · cases a
  · subst hx
    cases h with
    | put a b =>
      rcases a with a | a
      · cases a
      · cases a; exact b

theorem Stages.put1 {fm : Formats C S} {tl : Tools C S} {tg : Target} {content : Path} {tree : Sources C} {request : Option C} {info : C}
    {fs fs' : FS C} {stem : Text} {site : Path} {entries : List (Entry C)} {records : List (Rec S)} {t1 t2 : Txn C}
    (st : Stages fm tl tg content tree request info fs fs' stem site entries records t1 t2) {p : Path} {c : C}
    (hp : Puts tg tl.patch site stem tree p c)
    (hun : ∀ q d, Puts tg tl.patch site stem tree q d → q <:+ p → q = p ∧ d = c) : Dict.get t1.fs p = some (.file c) := by
  rw [st.fs1]
  refine foldl_put_file tl.empty p c _ _ (fun x hx => ContentCall.simple (st.calls x hx)) ?_ (.inr (st.has p c hp).1)
  intro x hx q d hq hs
  exact hun q d (putCall_copied (st.calls x hx) hq) hs

theorem Stages.other1 {fm : Formats C S} {tl : Tools C S} {tg : Target} {content : Path} {tree : Sources C} {request : Option C} {info : C}
    {fs fs' : FS C} {stem : Text} {site : Path} {entries : List (Entry C)} {records : List (Rec S)} {t1 t2 : Txn C}
    (st : Stages fm tl tg content tree request info fs fs' stem site entries records t1 t2) {p : Path}
    (hp : ∀ q d, Puts tg tl.patch site stem tree q d → ¬ q <:+ p) : Dict.get t1.fs p = Dict.get fs p ∨
      (Dict.get fs p = none ∧ Dict.get t1.fs p = some .dir ∧ ∃ q, p <:+ q ∧
        ((∃ d, Puts tg tl.patch site stem tree q d) ∨ Makes tg site stem tree q)) := by
  rw [st.fs1]
  rcases foldl_put_other tl.empty p _ (Dict.get fs) (fun x hx => ContentCall.simple (st.calls x hx))
    (fun x hx q d hq => hp q d (putCall_copied (st.calls x hx) hq)) with h | ⟨h1, h2, x, hx, q, h3, h4⟩
  · exact .inl h
  · refine .inr ⟨h1, h2, q, h4, ?_⟩
    cases st.calls x hx with
    | put a b =>
      rcases a with rfl | rfl
      · simp only [target, Option.some.injEq] at h3; subst h3; exact .inl ⟨_, b⟩
      · simp only [target, Option.some.injEq] at h3; subst h3; exact .inl ⟨_, b⟩
    | touch a => simp only [target, Option.some.injEq] at h3; subst h3; exact .inl ⟨_, a⟩
    | mkdir a => simp only [target, Option.some.injEq] at h3; subst h3; exact .inr a

end WheelInstall

/-! ## C96 -/

/-- C96: an installation that succeeds had one dist-info directory, a supported version and a RECORD, and every file of
the wheel outside of dist-info directories matches its signature in RECORD. -/
theorem wheel_accepted (fm : Formats C S) (tl : Tools C S) (tg : Target) (content : Path) (tree : Sources C) (request : Option C) (info : C)
    (fs fs' : FS C) (hd : Distinct tree) (h : install fm tl tg content tree request info fs = (fs', none)) :
    ∃ stem purelib entries records, WheelSays fm tree stem purelib entries records ∧
      ∀ r c, FileIn tree r c → ¬ BelowDistInfo (r ++ content) →
        ∃ s, SignedAs records (joinSlash r.reverse) s ∧ tl.valid s c = some true := by
  obtain ⟨ch, t1, t2, t3, h1, _⟩ := install_stages h
  obtain ⟨stem, e1, e2, e3, ws, e4⟩ := check_ok hd h1
  refine ⟨stem, ch.purelib, ch.entries, ch.records, e3, ?_⟩
  intro r c hr hb
  refine verify_sound_partial tl.valid content _ true ch.records _ ws e4 r c (FileIn.ne_nil hr) ?_ ?_ hb
  · rw [filesOf_mem]
    exact ⟨r, (prune_fileIn _ _ _).2 hr, rfl⟩
  · intro e
    apply hb
    rw [e]
    exact ⟨ch.distInfo, by simp, stem, e1⟩

/-- C96: an installation that is refused before the transaction changes nothing. -/
theorem wheel_refused (fm : Formats C S) (tl : Tools C S) (tg : Target) (content : Path) (tree : Sources C) (request : Option C) (info : C)
    (fs : FS C) (hd : Distinct tree)
    (hno : ¬ ∃ stem purelib entries records, WheelSays fm tree stem purelib entries records) :
    (install fm tl tg content tree request info fs).1 = fs ∧ (install fm tl tg content tree request info fs).2 ≠ none := by
  unfold install
  cases h : check fm tl content tree with
  | error e => exact ⟨rfl, by simp⟩
  | ok ch =>
    obtain ⟨stem, e1, e2, e3, _⟩ := check_ok hd h
    exact absurd ⟨stem, _, _, _, e3⟩ hno

section
variable (fm : Formats C S) (tl : Tools C S) (tg : Target) (content : Path) (tree : Sources C) (request : Option C) (info : C)
  (fs fs' : FS C) (stem : Text) (purelib : Bool) (entries : List (Entry C)) (records : List (Rec S)) (hg : Good fs) (hd : Distinct tree)
  (hord : ∀ l p, p ∈ tl.order l ↔ p ∈ l) (hs : WheelSays fm tree stem purelib entries records)
  (h : install fm tl tg content tree request info fs = (fs', none))

include hg hd hord hs h

/-- C96: every file of the wheel is at its place, unless the wheel puts another file there or above, or the place is that
of a launcher, of a compiled module or of a file of information. -/
theorem wheel_puts (p : Path) (c : C) (hp : Puts tg tl.patch (siteOf tg purelib) stem tree p c)
    (hun : ∀ q d, Puts tg tl.patch (siteOf tg purelib) stem tree q d → q <:+ p → q = p ∧ d = c)
    (hl : ¬ LauncherAt tg.scripts entries p)
    (hc : ∀ q, Brings tg tl.patch (siteOf tg purelib) stem tree entries q → ¬ Pyc tl.tag q p)
    (hi : ¬ InfoFile (siteOf tg purelib) stem p) : Dict.get fs' p = some (.file c) := by
  obtain ⟨t1, t2, st⟩ := stages hg hd hs h
  have h1 := st.put1 hp hun
  obtain ⟨l1, l2, l3, l4, l5, l6⟩ := launchers_ok tg.scripts entries t1 t2 st.good1 st.launched
  have h2 : Dict.get t2.fs p = some (.file c) := by
    rcases l3 p hl with e | ⟨e, _⟩
    · rw [e, h1]
    · rw [h1] at e; cases e
  rw [st.same hi]
  rcases compileAll_changes hord st.good2 p with e | ⟨q, hq, e1, _, c', b, e2, _⟩ | ⟨e, _⟩
  · rw [e, h2]
  · exact absurd e1 (hc q (st.copied2 hq e2))
  · rw [h2] at e; cases e

/-- C96: every script entry point has its launcher. -/
theorem wheel_launchers (n : Text) (c : C) (hn : LastScript entries n c)
    (hc : ∀ q, Brings tg tl.patch (siteOf tg purelib) stem tree entries q → ¬ Pyc tl.tag q (n :: tg.scripts))
    (hi : ¬ InfoFile (siteOf tg purelib) stem (n :: tg.scripts)) : Dict.get fs' (n :: tg.scripts) = some (.file c) := by
  obtain ⟨t1, t2, st⟩ := stages hg hd hs h
  obtain ⟨l1, l2, l3, l4, l5, l6⟩ := launchers_ok tg.scripts entries t1 t2 st.good1 st.launched
  have h2 := l4 n c hn
  rw [st.same hi]
  rcases compileAll_changes hord st.good2 (n :: tg.scripts) with e | ⟨q, hq, e1, _, c', b, e2, _⟩ | ⟨e, _⟩
  · rw [e, h2]
  · exact absurd e1 (hc q (st.copied2 hq e2))
  · rw [h2] at e; cases e

/-- C96: every module that the installation brings and that compiles has its compiled form beside it, unless something
that is not a file or directory as needed is in the way. -/
theorem wheel_compiled (q p : Path) (c b : C) (hq : Brings tg tl.patch (siteOf tg purelib) stem tree entries q) (hp : Pyc tl.tag q p)
    (hqc : Dict.get fs' q = some (.file c)) (hcomp : tl.comp q c = some b)
    (hiq : ¬ InfoFile (siteOf tg purelib) stem q) (hip : ¬ InfoFile (siteOf tg purelib) stem p)
    (h1 : ∀ d, Dict.get fs' (parent p) ≠ some (.file d)) (h2 : Dict.get fs' p ≠ some .dir) :
    Dict.get fs' p = some (.file b) := by
  obtain ⟨t1, t2, st⟩ := stages hg hd hs h
  obtain ⟨hpy, rfl⟩ := (pyc_iff _ _ _).1 hp
  have hpar : parent (pycOf tl.tag q) = pycache :: parent q := by
    cases q with
    | nil => exact absurd rfl (isPy_ne_nil hpy)
    | cons n q => rfl
  have hno : ∀ r, ¬ Pyc tl.tag r q := by
    intro r hr
    exact pycOf_not_py tl.tag r q hpy ((pyc_iff _ _ _).1 hr).2.symm
  have e2 : Dict.get t2.fs q = some (.file c) := by
    rw [st.same hiq] at hqc
    rcases compileAll_changes hord st.good2 q with e | ⟨r, hr, e1, _⟩ | ⟨_, e, _⟩
    · rw [← e, hqc]
    · exact absurd e1 (hno r)
    · rw [hqc] at e; cases e
  have hmem : q ∈ (tl.order t2.copied).filter isPy := List.mem_filter.2 ⟨(hord _ _).2 (st.brings_copied hq), hpy⟩
  rw [st.same hip]
  refine (compileLoop_spec tl _ t2.fs st.good2 (fun p hp => (List.mem_filter.1 hp).2)).2.2 q hmem c b e2 hcomp ?_ ?_
  · intro d hd'
    rw [hpar] at h1
    by_cases hi : InfoFile (siteOf tg purelib) stem (pycache :: parent q)
    · obtain ⟨old, _, hf⟩ := st.finish
      obtain ⟨n, hn, e⟩ := hi
      simp only [List.cons.injEq] at e
      rw [pycache_eq] at e
      have := e.1
      revert hn
      rw [← this]
      decide
    · apply h1 d
      rw [st.same hi]
      rcases compileAll_changes hord st.good2 (pycache :: parent q) with e | ⟨r, hr, e1, _⟩ | ⟨e, _⟩
      · rw [e, hd']
      · obtain ⟨a1, a2⟩ := (pyc_iff _ _ _).1 e1
        exact absurd a2.symm (pycOf_not_pycache tl.tag r _ (isPy_ne_nil a1))
      · rw [hd'] at e; cases e
  · intro hd'
    apply h2
    rw [st.same hip]
    rcases compileAll_changes hord st.good2 (pycOf tl.tag q) with e | ⟨r, hr, e1, e, _⟩ | ⟨e, _⟩
    · rw [e, hd']
    · exact absurd hd' e
    · rw [hd'] at e; cases e

/-- C96: nothing else changes: what differs is a file of information, a file of the wheel or something below one, a
launcher, the compiled form of a module that the installation brings, or a new directory that one of these needed. -/
theorem wheel_only (p : Path) (hp : Dict.get fs' p ≠ Dict.get fs p) :
    InfoFile (siteOf tg purelib) stem p ∨
    (∃ q c, Puts tg tl.patch (siteOf tg purelib) stem tree q c ∧ q <:+ p) ∨
    LauncherAt tg.scripts entries p ∨
    (∃ q, Brings tg tl.patch (siteOf tg purelib) stem tree entries q ∧ Pyc tl.tag q p) ∨
    (Dict.get fs p = none ∧ Dict.get fs' p = some .dir ∧
      ((∃ q, p <:+ q ∧ ((∃ d, Puts tg tl.patch (siteOf tg purelib) stem tree q d) ∨ Makes tg (siteOf tg purelib) stem tree q)) ∨
       (p <:+ tg.scripts ∧ ∃ q, LauncherAt tg.scripts entries q) ∨
       ∃ q r, Brings tg tl.patch (siteOf tg purelib) stem tree entries q ∧ Pyc tl.tag q r ∧ p = parent r)) := by
  obtain ⟨t1, t2, st⟩ := stages hg hd hs h
  by_cases hi : InfoFile (siteOf tg purelib) stem p
  · exact .inl hi
  right
  by_cases hput : ∃ q c, Puts tg tl.patch (siteOf tg purelib) stem tree q c ∧ q <:+ p
  · exact .inl hput
  right
  by_cases hl : LauncherAt tg.scripts entries p
  · exact .inl hl
  right
  by_cases hc : ∃ q, Brings tg tl.patch (siteOf tg purelib) stem tree entries q ∧ Pyc tl.tag q p
  · exact .inl hc
  right
  obtain ⟨l1, l2, l3, l4, l5, l6⟩ := launchers_ok tg.scripts entries t1 t2 st.good1 st.launched
  rw [st.same hi] at hp ⊢
  have e1 := st.other1 (p := p) (fun q d hq hs => hput ⟨q, d, hq, hs⟩)
  have e2 := l3 p hl
  have e3 := compileAll_changes hord st.good2 p
  rcases e3 with e3 | ⟨q, hq, a, _, c', b, a2, _⟩ | ⟨a, a2, q, hq, a3, a4, c', a5⟩
  · rw [e3] at hp ⊢
    rcases e2 with e2 | ⟨b1, b2, b3, b4⟩
    · rw [e2] at hp ⊢
      rcases e1 with e1 | ⟨b1, b2, b3⟩
      · exact absurd e1 hp
      · exact ⟨b1, b2, .inl b3⟩
    · rcases e1 with e1 | ⟨c1, c2, c3⟩
      · exact ⟨by rw [← e1, b1], b3, .inr (.inl ⟨b2, b4⟩)⟩
      · rw [c2] at b1; cases b1
  · exact absurd ⟨q, st.copied2 hq a2, a⟩ hc
  · have h0 : Dict.get fs p = none := by
      rcases e2 with e2 | ⟨b1, b2, b3, b4⟩
      · rcases e1 with e1 | ⟨c1, c2, c3⟩
        · rw [← e1, ← e2, a]
        · exact c1
      · rw [b3] at a; cases a
    refine ⟨h0, a2, .inr (.inr ⟨q, pycOf tl.tag q, st.copied2 hq a5, (pyc_iff _ _ _).2 ⟨a3, rfl⟩, ?_⟩)⟩
    rw [a4]
    cases q with
    | nil => exact absurd rfl (isPy_ne_nil a3)
    | cons n q => rfl

/-- C96: the files of information say who installed the package, whether it was requested, and how. -/
theorem wheel_information :
    Dict.get fs' (t!"INSTALLER" :: (stem ++ t!".dist-info") :: siteOf tg purelib) = some (.file fm.installer) ∧
    Dict.get fs' (t!"INSTALLATION_MODE" :: (stem ++ t!".dist-info") :: siteOf tg purelib) = some (.file info) ∧
    (∀ r, request = some r → Dict.get fs' (t!"REQUESTED" :: (stem ++ t!".dist-info") :: siteOf tg purelib) = some (.file r)) := by
  obtain ⟨t1, t2, st⟩ := stages hg hd hs h
  obtain ⟨old, _, hf⟩ := st.finish
  rw [← distInfoExt_eq]
  refine ⟨?_, ?_, ?_⟩
  · rw [hf, if_neg (by simp), if_neg (by simp), if_pos rfl]
  · rw [hf, if_pos rfl]
  · rintro r rfl
    rw [hf, if_neg (by simp), if_pos ⟨rfl, by simp⟩]
    rfl

end

end Pkm
