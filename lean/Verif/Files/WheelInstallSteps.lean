import Verif.Files.WheelInstallLemmas
set_option linter.unusedVariables false
set_option linter.unusedSimpArgs false
set_option linter.unusedSectionVars false
/-
C96: lemmas about launchers, compiled files and the files of information.
-/
namespace Pkm
open Tags Files Files.FS WheelInstall

variable {C S : Type}

namespace Spec

/-- The script entry point of a name: the last one, if there are several. -/
def LastScript (entries : List (Entry C)) (n : Text) (c : C) : Prop :=
  ∃ before after, entries = before ++ ⟨n, true, some c⟩ :: after ∧ ∀ e ∈ after, e.isScript = true → e.name ≠ n

/-- A launcher is written to a path. -/
def LauncherAt (scripts : Path) (entries : List (Entry C)) (p : Path) : Prop :=
  ∃ e ∈ entries, e.isScript = true ∧ p = e.name :: scripts

end Spec
open Spec

namespace WheelInstall

/-! ### launchers -/

theorem plainMkdir_ok {fs fs' : FS C} {p : Path} (hg : Good fs) (h : Conda.plainMkdir fs p = some fs') :
    Good fs' ∧ ∀ q, Dict.get fs' q = if Dict.get fs q = none ∧ q <:+ p then some .dir else Dict.get fs q := by
  unfold Conda.plainMkdir at h
  split at h
  · cases h
  · rename_i hf
    simp only [Option.some.injEq] at h
    subst h
    exact ⟨Conda.addDirs_good fs hg p (by simpa using hf), Conda.addDirs_get' fs hg p⟩

theorem write_ok {t t' : Txn C} {p : Path} {c : C} (hg : Good t.fs) (h : t.write p c = .ok t') :
    t'.fs = Dict.put t.fs p (.file c) ∧ t'.copied = t.copied ∧ t'.saved = t.saved ∧ Good t'.fs ∧ Dict.get t.fs p ≠ some .dir := by
  unfold Txn.write at h
  split at h
  · cases h
  · rename_i h1
    split at h
    · rename_i h2
      simp only [Out.ok.injEq] at h
      subst h
      have hnd : Dict.get t.fs p ≠ some .dir := fun e => h1 ((isDir_iff _ _).2 e)
      refine ⟨rfl, rfl, rfl, ?_, hnd⟩
      cases p with
      | nil => exact absurd rfl h2.2
      | cons x p => exact good_write hg x p c hnd h2.1
    · cases h

theorem launchers_ok (scripts : Path) : ∀ (es : List (Entry C)) (t t' : Txn C), Good t.fs → launchers scripts es t = .ok t' →
    Good t'.fs ∧ t'.saved = t.saved ∧
    (∀ p, ¬ LauncherAt scripts es p → Dict.get t'.fs p = Dict.get t.fs p ∨
      (Dict.get t.fs p = none ∧ p <:+ scripts ∧ Dict.get t'.fs p = some .dir ∧ ∃ q, LauncherAt scripts es q)) ∧
    (∀ n c, LastScript es n c → Dict.get t'.fs (n :: scripts) = some (.file c)) ∧
    (∀ p, p ∈ t'.copied ↔ p ∈ t.copied ∨ LauncherAt scripts es p) ∧
    (∀ p, LauncherAt scripts es p → ∃ c, Dict.get t'.fs p = some (.file c))
  | [], t, t', hg, h => by
    simp only [launchers, Out.ok.injEq] at h
    subst h
    refine ⟨hg, rfl, fun _ _ => .inl rfl, ?_, by simp [LauncherAt], by simp [LauncherAt]⟩
    rintro n c ⟨b, a, h, _⟩
    simp at h
  | e :: es, t, t', hg, h => by
    unfold launchers at h
    by_cases hs : e.isScript = true
    · rw [if_pos hs] at h
      cases hsc : e.script with
      | none => rw [hsc] at h; cases h
      | some c =>
        rw [hsc] at h
        cases hm : Conda.plainMkdir t.fs scripts with
        | none => simp only [hm] at h; cases h
        | some fs =>
          simp only [hm] at h
          obtain ⟨hg1, hf1⟩ := plainMkdir_ok hg hm
          cases hw : Txn.write { t with fs := fs } (e.name :: scripts) c with
          | raised t1 => rw [hw] at h; cases h
          | ok t1 =>
            rw [hw] at h
            simp only at h
            obtain ⟨w1, w2, w3, w4, w5⟩ := write_ok (t := { t with fs := fs }) hg1 hw
            simp only at w1 w2 w3
            obtain ⟨i1, i2, i3, i4, i5, i6⟩ := launchers_ok scripts es _ t' (by exact w4) h
            simp only at i2 i3 i5
            have hfs : ∀ p, Dict.get t1.fs p = if p = e.name :: scripts then some (.file c) else
                if Dict.get t.fs p = none ∧ p <:+ scripts then some .dir else Dict.get t.fs p := by
              intro p
              rw [w1, Dict.get_put]
              by_cases hp : p = e.name :: scripts
              · rw [if_pos hp.symm, if_pos hp]
              · rw [if_neg (fun x => hp x.symm), if_neg hp, hf1]
            have hL : ∀ p, LauncherAt scripts (e :: es) p ↔ p = e.name :: scripts ∨ LauncherAt scripts es p := by
              intro p
              unfold LauncherAt
              constructor
              · rintro ⟨x, hx, h1, h2⟩
                rcases List.mem_cons.1 hx with rfl | hx
                · exact .inl h2
                · exact .inr ⟨x, hx, h1, h2⟩
              · rintro (h | ⟨x, hx, h1, h2⟩)
                · exact ⟨e, by simp, hs, h⟩
                · exact ⟨x, by simp [hx], h1, h2⟩
            refine ⟨i1, by rw [i2, w3], ?_, ?_, ?_, ?_⟩
            · intro p hp
              rw [hL] at hp
              have hp1 : p ≠ e.name :: scripts := fun x => hp (.inl x)
              have h1 := hfs p
              rw [if_neg hp1] at h1
              by_cases hd : Dict.get t.fs p = none ∧ p <:+ scripts
              · rw [if_pos hd] at h1
                right
                refine ⟨hd.1, hd.2, ?_, e.name :: scripts, (hL _).2 (.inl rfl)⟩
                rcases i3 p (fun x => hp (.inr x)) with h2 | ⟨h2, _⟩
                · rw [h2, h1]
                · rw [h1] at h2; cases h2
              · rw [if_neg hd] at h1
                rcases i3 p (fun x => hp (.inr x)) with h2 | ⟨h2, h3, h4, _⟩
                · left; rw [h2, h1]
                · rw [h1] at h2; exact absurd ⟨h2, h3⟩ hd
            · rintro n d ⟨b, a, hb, ha⟩
              cases b with
              | nil =>
                simp only [List.nil_append, List.cons.injEq] at hb
                obtain ⟨rfl, rfl⟩ := hb
                simp only [Option.some.injEq] at hsc
                subst hsc
                have hn : ¬ LauncherAt scripts es (n :: scripts) := by
                  rintro ⟨x, hx, h1, h2⟩
                  simp only [List.cons.injEq, and_true] at h2
                  exact ha x hx h1 h2.symm
                rcases i3 _ hn with h2 | ⟨h2, _⟩
                · rw [h2, hfs, if_pos rfl]
                · rw [hfs, if_pos rfl] at h2; cases h2
              | cons x b =>
                simp only [List.cons_append, List.cons.injEq] at hb
                exact i4 n d ⟨b, a, hb.2, ha⟩
            · intro p
              rw [i5, mem_addPath, hL, w2]
              constructor
              · rintro ((h | h) | h)
                · exact .inl h
                · exact .inr (.inl h)
                · exact .inr (.inr h)
              · rintro (h | h | h)
                · exact .inl (.inl h)
                · exact .inl (.inr h)
                · exact .inr h
            · intro p hp
              by_cases hp2 : LauncherAt scripts es p
              · exact i6 p hp2
              · rcases (hL p).1 hp with h | h
                · rcases i3 p hp2 with h2 | ⟨h2, _⟩
                  · exact ⟨c, by rw [h2, hfs, if_pos h]⟩
                  · rw [hfs, if_pos h] at h2; cases h2
                · exact absurd h hp2
    · rw [if_neg hs] at h
      obtain ⟨i1, i2, i3, i4, i5, i6⟩ := launchers_ok scripts es t t' hg h
      have hL : ∀ p, LauncherAt scripts (e :: es) p ↔ LauncherAt scripts es p := by
        intro p
        unfold LauncherAt
        constructor
        · rintro ⟨x, hx, h1, h2⟩
          rcases List.mem_cons.1 hx with rfl | hx
          · exact absurd h1 hs
          · exact ⟨x, hx, h1, h2⟩
        · rintro ⟨x, hx, h1, h2⟩
          exact ⟨x, by simp [hx], h1, h2⟩
      refine ⟨i1, i2, ?_, ?_, ?_, ?_⟩
      · intro p hp
        simp only [hL] at hp ⊢
        exact i3 p hp
      · rintro n d ⟨b, a, hb, ha⟩
        cases b with
        | nil =>
          simp only [List.nil_append, List.cons.injEq] at hb
          rw [hb.1] at hs; exact absurd rfl hs
        | cons x b =>
          simp only [List.cons_append, List.cons.injEq] at hb
          exact i4 n d ⟨b, a, hb.2, ha⟩
      · intro p; rw [i5, hL]
      · intro p hp; exact i6 p ((hL p).1 hp)

/-! ### compiled files -/

theorem good_put_dir {fs : FS C} (hg : Good fs) (x : Text) (p : Path) (hn : Dict.get fs (x :: p) = none)
    (hd : Dict.get fs p = some .dir) : Good (Dict.put fs (x :: p) .dir) := by
  refine ⟨?_, ?_, Dict.wf_put _ _ _ hg.wf⟩
  · intro y q n hq
    rw [Dict.get_put] at hq ⊢
    by_cases e : x :: p = y :: q
    · simp at e
      obtain ⟨rfl, rfl⟩ := e
      rw [if_neg (by intro h; exact not_cons_suffix x p (by rw [h]; exact List.suffix_refl _))]
      exact hd
    · rw [if_neg e] at hq
      have := hg.tree y q n hq
      by_cases e2 : x :: p = q
      · rw [if_pos e2]
      · rw [if_neg e2]; exact this
  · rw [Dict.get_put, if_neg (by simp)]
    exact hg.root

theorem compileOne_spec (tl : Tools C S) (fs : FS C) (hg : Good fs) (p : Path) : Good (compileOne tl fs p) ∧
    ∀ q, Dict.get (compileOne tl fs p) q = Dict.get fs q ∨
      (q = pycOf tl.tag p ∧ Dict.get fs q ≠ some .dir ∧ ∃ c b, Dict.get fs p = some (.file c) ∧ tl.comp p c = some b ∧
        Dict.get (compileOne tl fs p) q = some (.file b)) ∨
      (q = pycache :: parent p ∧ Dict.get fs q = none ∧ Dict.get (compileOne tl fs p) q = some .dir ∧
        ∃ c b, Dict.get fs p = some (.file c) ∧ tl.comp p c = some b) := by
  unfold compileOne
  cases hp : Dict.get fs p with
  | none => exact ⟨hg, fun _ => .inl rfl⟩
  | some nd =>
    cases nd with
    | dir => exact ⟨hg, fun _ => .inl rfl⟩
    | file c =>
      simp only
      cases hcomp : tl.comp p c with
      | none => exact ⟨hg, fun _ => .inl rfl⟩
      | some b =>
        simp only
        cases p with
        | nil => rw [hg.root] at hp; cases hp
        | cons x p =>
          have hpar := hg.tree x p _ hp
          simp only [parent]
          cases hpc : Dict.get fs (pycache :: p) with
          | none =>
            simp only
            have hg1 := good_put_dir hg pycache p hpc hpar
            have hnone : Dict.get fs (pycOf tl.tag (x :: p)) = none := by
              cases h : Dict.get fs (pycOf tl.tag (x :: p)) with
              | none => rfl
              | some n =>
                simp only [pycOf] at h
                have := hg.tree _ _ _ h
                rw [hpc] at this; cases this
            refine ⟨?_, ?_⟩
            · simp only [pycOf] at hnone ⊢
              refine good_write hg1 _ _ b ?_ ?_
              · rw [Dict.get_put, if_neg ?_, hnone]
                · simp
                · intro e
                  have := congrArg List.length e
                  simp at this
              · rw [isDir_iff, Dict.get_put, if_pos rfl]
            · intro q
              rw [Dict.get_put, Dict.get_put]
              by_cases e1 : pycOf tl.tag (x :: p) = q
              · subst e1
                exact .inr (.inl ⟨rfl, by rw [hnone]; simp, c, b, rfl, hcomp, by rw [if_pos rfl]⟩)
              · rw [if_neg e1]
                by_cases e2 : pycache :: p = q
                · subst e2
                  exact .inr (.inr ⟨rfl, hpc, by rw [if_pos rfl], c, b, rfl, hcomp⟩)
                · rw [if_neg e2]; exact .inl rfl
          | some nd =>
            cases nd with
            | file d => exact ⟨hg, fun _ => .inl rfl⟩
            | dir =>
              simp only
              split
              · exact ⟨hg, fun _ => .inl rfl⟩
              · rename_i hnd
                have hnd' : Dict.get fs (pycOf tl.tag (x :: p)) ≠ some .dir := fun e => hnd ((isDir_iff _ _).2 e)
                refine ⟨good_write hg _ _ b hnd' ((isDir_iff _ _).2 hpc), ?_⟩
                intro q
                rw [Dict.get_put]
                by_cases e1 : pycOf tl.tag (x :: p) = q
                · subst e1
                  exact .inr (.inl ⟨rfl, hnd', c, b, rfl, hcomp, by rw [if_pos rfl]⟩)
                · rw [if_neg e1]; exact .inl rfl

theorem compileOne_makes (tl : Tools C S) (fs : FS C) (hg : Good fs) (p : Path) (c b : C) (hp : Dict.get fs p = some (.file c))
    (hcomp : tl.comp p c = some b) (h1 : ∀ d, Dict.get fs (pycache :: parent p) ≠ some (.file d))
    (h2 : Dict.get fs (pycOf tl.tag p) ≠ some .dir) : Dict.get (compileOne tl fs p) (pycOf tl.tag p) = some (.file b) := by
  unfold compileOne
  simp only [hp, hcomp]
  cases h : Dict.get fs (pycache :: parent p) with
  | none => simp only; rw [Dict.get_put, if_pos rfl]
  | some nd =>
    cases nd with
    | file d => exact absurd h (h1 d)
    | dir =>
      simp only
      rw [if_neg (fun e => h2 ((isDir_iff _ _).1 e)), Dict.get_put, if_pos rfl]

theorem getLast_pyc (n tag : Text) : (n.take (n.length - 3) ++ '.' :: tag ++ t!".pyc").getLast? = some 'c' := by
  rw [List.getLast?_append]; rfl

theorem pycOf_not_py (tag : Text) (p q : Path) (hq : isPy q = true) : pycOf tag p ≠ q := by
  rintro rfl
  cases p with
  | nil => simp [pycOf, isPy] at hq
  | cons n p =>
    simp only [pycOf, isPy, Bool.and_eq_true, endsWith, List.isSuffixOf_iff_suffix] at hq
    obtain ⟨u, hu⟩ := hq.1
    have h1 := getLast_pyc n tag
    rw [← hu, List.getLast?_append] at h1
    simp at h1

theorem pycOf_not_pycache (tag : Text) (p r : Path) (hp : p ≠ []) : pycOf tag p ≠ pycache :: r := by
  cases p with
  | nil => exact absurd rfl hp
  | cons n p =>
    intro e
    simp only [pycOf, List.cons.injEq] at e
    have h1 := getLast_pyc n tag
    rw [e.1] at h1
    exact absurd h1 (by decide)

theorem isPy_ne_nil {p : Path} (h : isPy p = true) : p ≠ [] := by
  rintro rfl; simp [isPy] at h

theorem pycOf_inj (tag : Text) (p q : Path) (hp : isPy p = true) (hq : isPy q = true) (h : pycOf tag p = pycOf tag q) : p = q := by
  cases p with
  | nil => simp [isPy] at hp
  | cons n p =>
    cases q with
    | nil => simp [isPy] at hq
    | cons m q =>
      simp only [isPy, Bool.and_eq_true, endsWith, List.isSuffixOf_iff_suffix] at hp hq
      obtain ⟨u, hu⟩ := hp.1
      obtain ⟨v, hv⟩ := hq.1
      have e1 : n.take (n.length - 3) = u := by rw [← hu]; simp
      have e2 : m.take (m.length - 3) = v := by rw [← hv]; simp
      simp only [pycOf, List.cons.injEq, e1, e2, List.append_assoc] at h
      have := List.append_cancel_right h.1
      rw [← hu, ← hv, this, h.2.2]

/-- The loop of the compilation. -/
theorem compileLoop_spec (tl : Tools C S) : ∀ (ps : List Path) (fs : FS C), Good fs → (∀ p ∈ ps, isPy p = true) →
    Good (ps.foldl (compileOne tl) fs) ∧
    (∀ q, Dict.get (ps.foldl (compileOne tl) fs) q = Dict.get fs q ∨
      (∃ p ∈ ps, q = pycOf tl.tag p ∧ Dict.get fs q ≠ some .dir ∧ ∃ c b, Dict.get fs p = some (.file c) ∧ tl.comp p c = some b ∧
        Dict.get (ps.foldl (compileOne tl) fs) q = some (.file b)) ∨
      (Dict.get fs q = none ∧ Dict.get (ps.foldl (compileOne tl) fs) q = some .dir ∧
        ∃ p ∈ ps, q = pycache :: parent p ∧ ∃ c b, Dict.get fs p = some (.file c) ∧ tl.comp p c = some b)) ∧
    (∀ p ∈ ps, ∀ c b, Dict.get fs p = some (.file c) → tl.comp p c = some b →
      (∀ d, Dict.get fs (pycache :: parent p) ≠ some (.file d)) → Dict.get fs (pycOf tl.tag p) ≠ some .dir →
      Dict.get (ps.foldl (compileOne tl) fs) (pycOf tl.tag p) = some (.file b))
  | [], fs, hg, _ => ⟨hg, fun _ => .inl rfl, by simp⟩
  | p0 :: ps, fs, hg, hpy => by
    rw [List.foldl_cons]
    obtain ⟨g1, s1⟩ := compileOne_spec tl fs hg p0
    have hpy0 := hpy p0 (by simp)
    have hpy' : ∀ p ∈ ps, isPy p = true := fun p hp => hpy p (by simp [hp])
    obtain ⟨i1, i2, i3⟩ := compileLoop_spec tl ps _ g1 hpy'
    -- modules are as before
    have hsame : ∀ p, isPy p = true → ∀ c, Dict.get (compileOne tl fs p0) p = some (.file c) ↔ Dict.get fs p = some (.file c) := by
      intro p hp c
      rcases s1 p with h | ⟨h, _⟩ | ⟨h, h2, h3, _⟩
      · rw [h]
      · exact absurd h.symm (pycOf_not_py tl.tag p0 p hp)
      · rw [h2, h3]; simp
    refine ⟨i1, ?_, ?_⟩
    · intro q
      rcases i2 q with h | ⟨p, hp, h1, h2, c, b, h3, h4, h5⟩ | ⟨h1, h2, p, hp, h3, c, b, h4, h5⟩
      · rcases s1 q with h' | ⟨h1, h2, c, b, h3, h4, h5⟩ | ⟨h1, h2, h3, h4⟩
        · left; rw [h, h']
        · exact .inr (.inl ⟨p0, by simp, h1, h2, c, b, h3, h4, by rw [h, h5]⟩)
        · exact .inr (.inr ⟨h2, by rw [h, h3], p0, by simp, h1, h4⟩)
      · refine .inr (.inl ⟨p, by simp [hp], h1, ?_, c, b, (hsame p (hpy' p hp) c).1 h3, h4, h5⟩)
        intro hd
        rcases s1 q with h' | ⟨_, h', _⟩ | ⟨_, h', _⟩
        · rw [h'] at h2; exact h2 hd
        · exact h' hd
        · rw [h'] at hd; cases hd
      · rcases s1 q with h' | ⟨h1', _, c', b', _, _, h5'⟩ | ⟨h1', h2', h3', _⟩
        · exact .inr (.inr ⟨by rw [← h', h1], h2, p, by simp [hp], h3, c, b, (hsame p (hpy' p hp) c).1 h4, h5⟩)
        · rw [h5'] at h1; cases h1
        · rw [h3'] at h1; cases h1
    · intro p hp c b h1 h2 h3 h4
      rcases List.mem_cons.1 hp with rfl | hp
      · have hm := compileOne_makes tl fs hg p c b h1 h2 h3 h4
        rcases i2 (pycOf tl.tag p) with h | ⟨p', hp', e, _, c', b', e3, e4, e5⟩ | ⟨e, _⟩
        · rw [h, hm]
        · have := pycOf_inj tl.tag p p' hpy0 (hpy' p' hp') e
          subst this
          rw [hsame p hpy0, h1] at e3
          simp only [Option.some.injEq, Node.file.injEq] at e3
          subst e3
          rw [h2] at e4
          simp only [Option.some.injEq] at e4
          rw [e5, e4]
        · rw [hm] at e; cases e
      · refine i3 p hp c b ((hsame p (hpy' p hp) c).2 h1) h2 ?_ ?_
        · intro d hd
          rcases s1 (pycache :: parent p) with h | ⟨h, _⟩ | ⟨_, _, h, _⟩
          · rw [h] at hd; exact h3 d hd
          · exact pycOf_not_pycache tl.tag p0 _ (isPy_ne_nil hpy0) h.symm
          · rw [h] at hd; cases hd
        · intro hd
          rcases s1 (pycOf tl.tag p) with h | ⟨_, _, c', b', _, _, h⟩ | ⟨h, _⟩
          · rw [h] at hd; exact h4 hd
          · rw [h] at hd; cases hd
          · exact pycOf_not_pycache tl.tag p _ (isPy_ne_nil (hpy' p hp)) h

theorem compileAll_copied (tl : Tools C S) (t : Txn C) (p : Path) : p ∈ (compileAll tl t).copied ↔
    p ∈ t.copied ∨ ∃ q ∈ tl.order t.copied, isPy q = true ∧ p = pycOf tl.tag q := by
  unfold compileAll
  simp only
  have : ∀ (ps : List Path) (s : List Path), p ∈ ps.foldl (fun s p => addPath (pycOf tl.tag p) s) s ↔ p ∈ s ∨ ∃ q ∈ ps, p = pycOf tl.tag q := by
    intro ps
    induction ps with
    | nil => intro s; simp
    | cons a ps ih =>
      intro s
      rw [List.foldl_cons, ih, mem_addPath]
      simp only [List.mem_cons, exists_eq_or_imp, or_assoc]
  rw [this]
  simp only [List.mem_filter, and_assoc]

/-! ### the files of information -/

theorem finish_ok {fm : Formats C S} {tl : Tools C S} {site : Path} {ch : Checked C S} {request : Option C} {info : C} {t t' : Txn C}
    (hg : Good t.fs) (h : finish fm tl site ch request info t = .ok t') :
    ∃ old, oldRecords fm t.fs (ch.distInfo :: site) = some old ∧ Good t'.fs ∧
      ∀ p, Dict.get t'.fs p =
        if p = t!"INSTALLATION_MODE" :: ch.distInfo :: site then some (.file info)
        else if p = t!"REQUESTED" :: ch.distInfo :: site ∧ request ≠ none then request.map .file
        else if p = t!"INSTALLER" :: ch.distInfo :: site then some (.file fm.installer)
        else if p = "RECORD".toList :: ch.distInfo :: site then
          some (.file (fm.writeRecord (old ++ signFiles (precomputedOf ch.records) tl.hash t.fs site (tl.order t.copied))))
        else Dict.get t.fs p := by
  unfold finish at h
  simp only at h
  cases ho : oldRecords fm t.fs (ch.distInfo :: site) with
  | none => rw [ho] at h; cases h
  | some old =>
    rw [ho] at h
    simp only at h
    obtain ⟨h1, h2⟩ := run_ok tl.empty _ t t' hg h
    refine ⟨old, rfl, h2, ?_⟩
    intro p
    rw [h1]
    cases request with
    | none => simp [after]
    | some r => simp [after]

end WheelInstall
end Pkm
