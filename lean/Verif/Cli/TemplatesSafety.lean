import Verif.Cli.TemplatesProps
/-
C78, for every template that preserves no directory, tidy or not, and every outcome.
-/
set_option linter.unusedVariables false
set_option linter.unusedSimpArgs false
namespace Pkm
namespace Spec
open Pkm.Templates

/-- No directory of the template is preserved. -/
def NoPreserve : Tree → Prop
  | .nil => True
  | .file _ _ rest => NoPreserve rest
  | .dir _ cs rest => cs.hasChild t!".templatepreserve" = false ∧ NoPreserve cs ∧ NoPreserve rest

/-- Directories stay directories, and files stay files. -/
def SameKinds (f g : Disk) : Prop :=
  ∀ p, (f.get p = some .dir → g.get p = some .dir) ∧ ∀ t, f.get p = some (.file t) → ∃ u, g.get p = some (.file u)

def SomeFile (g : Disk) (p : Path) : Prop := ∃ t, g.get p = some (.file t)

/-- Where a file of the template has to be, if its name is rendered to the path `p`: at the path, without `.tmpl`, or in it if
it is a directory. -/
def FileMade (g : Disk) (n : Text) (p : Path) : Prop :=
  match tmplBase (p.getLast?.getD []) with
  | some b => SomeFile g (p.dropLast ++ [b])
  | none => SomeFile g p ∨ (isDir g p = true ∧ SomeFile g (p ++ [n]))

/-- Everything of the template that is not left out is there. -/
def AllMade (j : Jinja) (ig : Path → Bool) (g : Disk) : Tree → Path → Path → Prop
  | .nil, _, _ => True
  | .file n _ rest, rel, d => AllMade j ig g rest rel d ∧
      (leftOut j ig (rel ++ [n]) n = false → FileMade g n (resolve d (j.name n)))
  | .dir n cs rest, rel, d => AllMade j ig g rest rel d ∧
      (leftOut j ig (rel ++ [n]) n = false → isDir g (resolve d (j.name n)) = true ∧
        AllMade j ig g cs (rel ++ [n]) (resolve d (j.name n)))

end Spec

namespace Templates
open Spec

theorem _root_.Pkm.Spec.SameKinds.refl (f : Disk) : SameKinds f f := fun p => ⟨fun h => h, fun t h => ⟨t, h⟩⟩

theorem _root_.Pkm.Spec.SameKinds.trans {f g h : Disk} (a : SameKinds f g) (b : SameKinds g h) : SameKinds f h := by
  intro p
  refine ⟨fun e => (b p).1 ((a p).1 e), fun t e => ?_⟩
  obtain ⟨u, hu⟩ := (a p).2 t e
  exact (b p).2 u hu

theorem kinds_dir (f : Disk) (p : Path) (h : f.get p = none) : SameKinds f (f.put p .dir) := by
  intro q
  rw [Dict.get_put]
  by_cases hq : p = q
  · subst hq; simp [h]
  · rw [if_neg hq]; exact SameKinds.refl f q

theorem kinds_file (f : Disk) (p : Path) (t : Text) (h : f.get p ≠ some .dir) : SameKinds f (f.put p (.file t)) := by
  intro q
  rw [Dict.get_put]
  by_cases hq : p = q
  · subst hq; simp [h]
  · rw [if_neg hq]; exact SameKinds.refl f q

theorem kinds_mkdirs (p : Path) : ∀ f pre, SameKinds f (mkdirs f pre p).1 := by
  induction p with
  | nil => intro f pre; exact .refl f
  | cons x xs ih =>
    intro f pre
    simp only [mkdirs]
    cases h : f.get (pre ++ [x]) with
    | none => exact (kinds_dir f _ h).trans (ih _ _)
    | some i => cases i <;> first | exact ih _ _ | exact .refl f

theorem kinds_write (f : Disk) (p : Path) (t : Text) : SameKinds f (write f p t).1 := by
  unfold write
  split
  · exact .refl f
  · rename_i h
    refine kinds_file f p t (fun e => h ?_)
    simp [isDir, e]

theorem kinds_copyTo (f : Disk) (n : Text) (p : Path) (t : Text) : SameKinds f (copyTo f n p t).1 := by
  unfold copyTo
  split <;> exact kinds_write _ _ _

theorem kinds_mkdir (f : Disk) (p : Path) : SameKinds f (mkdir f p).1 := by
  unfold mkdir
  split
  · exact .refl f
  · split
    · rename_i h
      simp at h
      exact kinds_dir f p h.2
    · exact .refl f

theorem kinds_parents (f : Disk) (p : Path) : SameKinds f (parents f p).1 := by
  unfold parents
  split
  · exact .refl f
  · exact kinds_mkdirs _ _ _

theorem kinds_placeAt (j : Jinja) (f : Disk) (n t : Text) (p : Path) : SameKinds f (placeAt j f n t p).1 := by
  unfold placeAt
  split
  · exact kinds_write _ _ _
  · exact kinds_copyTo _ _ _ _

theorem kinds_placeFile (j : Jinja) (f : Disk) (n t : Text) (d : Path) : SameKinds f (placeFile j f n t d).1 := by
  unfold placeFile
  have h := kinds_parents f (resolve d (j.name n))
  generalize parents f (resolve d (j.name n)) = r at h
  obtain ⟨g, b⟩ := r
  cases b
  · exact h
  · exact h.trans (kinds_placeAt _ _ _ _ _)

theorem kinds_render (j : Jinja) (ig : Path → Bool) (t : Tree) (hn : NoPreserve t) :
    ∀ rel d f, SameKinds f (render j ig t rel d f).1 := by
  induction t with
  | nil => intro rel d f; exact .refl f
  | file n t rest ih =>
    intro rel d f
    simp only [render]
    split
    · exact ih hn _ _ _
    · have h := kinds_placeFile j f n t d
      generalize placeFile j f n t d = r at h
      obtain ⟨g, b⟩ := r
      cases b
      · exact h
      · exact h.trans (ih hn _ _ _)
  | dir n cs rest ihc ih =>
    intro rel d f
    obtain ⟨h1, h2, h3⟩ := hn
    simp only [render, h1, Bool.false_eq_true, if_false]
    split
    · exact ih h3 _ _ _
    · have h := kinds_parents f (resolve d (j.name n))
      generalize parents f (resolve d (j.name n)) = r at h
      obtain ⟨g, b⟩ := r
      cases b
      · exact h
      · have hm := kinds_mkdir g (resolve d (j.name n))
        simp only
        generalize mkdir g (resolve d (j.name n)) = r at hm
        obtain ⟨g2, b⟩ := r
        cases b
        · exact h.trans hm
        · have hr := ihc h2 (rel ++ [n]) (resolve d (j.name n)) g2
          simp only
          generalize render j ig cs (rel ++ [n]) (resolve d (j.name n)) g2 = r at hr
          obtain ⟨g3, b⟩ := r
          cases b
          · exact h.trans (hm.trans hr)
          · exact h.trans (hm.trans (hr.trans (ih h3 _ _ _)))

theorem kinds_copyDirs (target : Path) (l : List (Path × Item)) : ∀ f, SameKinds f (copyDirs target l f).1 := by
  induction l with
  | nil => intro f; exact .refl f
  | cons x l ih =>
    intro f
    obtain ⟨r, i⟩ := x
    cases i with
    | file t => exact ih f
    | dir =>
      simp only [copyDirs]
      have h := kinds_mkdirs (target ++ r) f []
      generalize mkdirs f [] (target ++ r) = y at h
      obtain ⟨g, b⟩ := y
      cases b
      · exact h
      · exact h.trans (ih g)

theorem kinds_copyFiles (target : Path) (l : List (Path × Item)) : ∀ f, SameKinds f (copyFiles target l f).1 := by
  induction l with
  | nil => intro f; exact .refl f
  | cons x l ih =>
    intro f
    obtain ⟨r, i⟩ := x
    cases i with
    | dir => exact ih f
    | file t =>
      simp only [copyFiles]
      have h := kinds_copyTo f (r.getLast?.getD []) (target ++ r) t
      generalize copyTo f (r.getLast?.getD []) (target ++ r) t = y at h
      obtain ⟨g, b⟩ := y
      cases b
      · exact h
      · exact h.trans (ih g)

theorem kinds_copyOver (f : Disk) (target : Path) (l : List (Path × Item)) : SameKinds f (copyOver f target l).1 := by
  unfold copyOver
  have h := kinds_mkdirs target f []
  generalize mkdirs f [] target = y at h
  obtain ⟨g, b⟩ := y
  cases b
  · exact h
  · have h2 := kinds_copyDirs target l g
    simp only
    generalize copyDirs target l g = y at h2
    obtain ⟨g2, b⟩ := y
    cases b
    · exact h.trans h2
    · exact h.trans (h2.trans (kinds_copyFiles _ _ _))

theorem kinds_remove (f g : Disk) (tmp : Path) (hn : ∀ q, tmp <+: q → f.get q = none) (h : SameKinds f g) :
    SameKinds f (removeAll g tmp) := by
  intro p
  rw [removeAll_get]
  by_cases hp : tmp <+: p
  · rw [hn p hp]; simp
  · rw [if_neg hp]; exact h p

/-- Whatever the template does, in both modes, no directory becomes a file or disappears, and no file becomes a directory or
disappears. -/
theorem template_kinds (j : Jinja) (t : Tree) (f : Disk) (tmp target : Path) (overwrite : Bool) (hp : NoPreserve t)
    (hn : NewTmp f tmp target) : SameKinds f (execute j t f tmp target overwrite).1 := by
  cases overwrite with
  | true => exact kinds_render _ _ _ hp _ _ _
  | false =>
    simp only [execute, Bool.false_eq_true, if_false]
    have h0 := kinds_dir f tmp (hn.1 tmp (List.prefix_refl _))
    have h := kinds_render j (ignored j t) t hp [] tmp (f.put tmp .dir)
    generalize render j (ignored j t) t [] tmp (f.put tmp .dir) = y at h
    obtain ⟨g, b⟩ := y
    cases b
    · exact kinds_remove _ _ _ hn.1 (h0.trans h)
    · simp only
      split
      · exact kinds_remove _ _ _ hn.1 (h0.trans h)
      · exact kinds_remove _ _ _ hn.1 (h0.trans (h.trans (kinds_copyOver _ _ _)))

/-- Without `--overwrite` nothing is left of the temporary directory, whatever happens. -/
theorem template_no_rest (j : Jinja) (t : Tree) (f : Disk) (tmp target q : Path) (h : tmp <+: q) :
    (execute j t f tmp target false).1.get q = none := by
  simp only [execute, Bool.false_eq_true, if_false]
  generalize render j (ignored j t) t [] tmp (f.put tmp .dir) = y
  obtain ⟨g, b⟩ := y
  cases b
  · simp [removeAll_get, h]
  · simp only
    split <;> simp [removeAll_get, h]

/-! ### success -/

theorem kinds_isDir (f g : Disk) (h : SameKinds f g) (p : Path) (hd : isDir f p = true) : isDir g p = true := by
  rw [isDir_iff] at hd ⊢
  rcases hd with e | e
  · exact .inl e
  · exact .inr ((h p).1 e)

theorem kinds_fileAt (f g : Disk) (h : SameKinds f g) (p : Path) (hd : SomeFile f p) : SomeFile g p := by
  obtain ⟨t, e⟩ := hd
  exact (h p).2 t e

theorem kinds_fileMade (f g : Disk) (h : SameKinds f g) (n : Text) (p : Path) (hd : FileMade f n p) : FileMade g n p := by
  unfold FileMade at *
  split at hd
  · exact kinds_fileAt f g h _ hd
  · rcases hd with e | ⟨e1, e2⟩
    · exact .inl (kinds_fileAt f g h _ e)
    · exact .inr ⟨kinds_isDir f g h _ e1, kinds_fileAt f g h _ e2⟩

theorem kinds_all (j : Jinja) (ig : Path → Bool) (f g : Disk) (h : SameKinds f g) (t : Tree) :
    ∀ rel d, AllMade j ig f t rel d → AllMade j ig g t rel d := by
  induction t with
  | nil => intro rel d _; trivial
  | file n t rest ih =>
    intro rel d hd
    exact ⟨ih _ _ hd.1, fun hl => kinds_fileMade f g h _ _ (hd.2 hl)⟩
  | dir n cs rest ihc ih =>
    intro rel d hd
    exact ⟨ih _ _ hd.1, fun hl => ⟨kinds_isDir f g h _ (hd.2 hl).1, ihc _ _ (hd.2 hl).2⟩⟩

theorem write_made (f g : Disk) (p : Path) (t : Text) (h : write f p t = (g, true)) : SomeFile g p := by
  unfold write at h
  split at h
  · simp at h
  · exact ⟨t, by rw [← (Prod.mk.inj h).1, Dict.get_put, if_pos rfl]⟩

theorem placeFile_made (j : Jinja) (f g : Disk) (n t : Text) (d : Path) (h : placeFile j f n t d = (g, true)) :
    FileMade g n (resolve d (j.name n)) := by
  unfold placeFile at h
  generalize parents f (resolve d (j.name n)) = r at h
  obtain ⟨f2, b⟩ := r
  cases b
  · simp at h
  · simp only [placeAt, isTmpl_iff] at h
    unfold FileMade
    cases hb : tmplBase ((resolve d (j.name n)).getLast?.getD []) with
    | some b =>
      rw [hb] at h
      simp only [Option.isSome_some, if_true] at h
      rw [stem_base _ _ hb] at h
      exact write_made _ _ _ _ h
    | none =>
      rw [hb] at h
      simp only [Option.isSome_none, Bool.false_eq_true, if_false, copyTo] at h
      split at h
      · rename_i hd
        have hk := kinds_write f2 (resolve d (j.name n) ++ [n]) t
        rw [h] at hk
        exact .inr ⟨kinds_isDir _ _ hk _ hd, write_made _ _ _ _ h⟩
      · exact .inl (write_made _ _ _ _ h)

theorem mkdir_made (f g : Disk) (p : Path) (h : mkdir f p = (g, true)) : isDir g p = true := by
  unfold mkdir at h
  split at h
  · rename_i hd; rw [← (Prod.mk.inj h).1]; exact hd
  · split at h
    · rw [← (Prod.mk.inj h).1, isDir_iff, Dict.get_put, if_pos rfl]; exact .inr rfl
    · simp at h

theorem render_made (j : Jinja) (ig : Path → Bool) (t : Tree) (hn : NoPreserve t) :
    ∀ rel d f, (render j ig t rel d f).2 = true → AllMade j ig (render j ig t rel d f).1 t rel d := by
  induction t with
  | nil => intro rel d f _; trivial
  | file n t rest ih =>
    intro rel d f h
    simp only [render, left_eq] at h ⊢
    by_cases hl : leftOut j ig (rel ++ [n]) n = true
    · rw [if_pos hl] at h ⊢
      exact ⟨ih hn _ _ _ h, fun e => by rw [hl] at e; cases e⟩
    · rw [if_neg hl] at h ⊢
      cases hp : placeFile j f n t d with
      | mk g b =>
        rw [hp] at h
        cases b with
        | false => simp at h
        | true =>
          simp only at h ⊢
          refine ⟨ih hn _ _ _ h, fun _ => ?_⟩
          exact kinds_fileMade _ _ (kinds_render j ig rest hn rel d g) _ _ (placeFile_made j f g n t d hp)
  | dir n cs rest ihc ih =>
    intro rel d f h
    obtain ⟨h1, h2, h3⟩ := hn
    simp only [render, left_eq, h1, Bool.false_eq_true, if_false] at h ⊢
    by_cases hl : leftOut j ig (rel ++ [n]) n = true
    · rw [if_pos hl] at h ⊢
      exact ⟨ih h3 _ _ _ h, fun e => by rw [hl] at e; cases e⟩
    · rw [if_neg hl] at h ⊢
      cases hp : parents f (resolve d (j.name n)) with
      | mk g b =>
        rw [hp] at h
        cases b with
        | false => simp at h
        | true =>
          simp only at h ⊢
          cases hm : mkdir g (resolve d (j.name n)) with
          | mk g2 b =>
            rw [hm] at h
            cases b with
            | false => simp at h
            | true =>
              simp only at h ⊢
              have ic := ihc h2 (rel ++ [n]) (resolve d (j.name n)) g2
              have kc := kinds_render j ig cs h2 (rel ++ [n]) (resolve d (j.name n)) g2
              cases hr : render j ig cs (rel ++ [n]) (resolve d (j.name n)) g2 with
              | mk g3 b =>
                rw [hr] at h ic kc
                cases b with
                | false => simp at h
                | true =>
                  simp only at h ⊢
                  have kr := kinds_render j ig rest h3 rel d g3
                  refine ⟨ih h3 _ _ _ h, fun _ => ⟨?_, ?_⟩⟩
                  · exact kinds_isDir _ _ (kc.trans kr) _ (mkdir_made _ _ _ hm)
                  · exact kinds_all j ig _ _ kr cs _ _ (ic rfl)

/-- If the command succeeds, everything of the template that is not left out is there, whatever was there before. -/
theorem template_success (j : Jinja) (t : Tree) (f : Disk) (tmp target : Path) (hp : NoPreserve t)
    (h : (execute j t f tmp target true).2 = true) :
    AllMade j (ignored j t) (execute j t f tmp target true).1 t [] target := by
  simp only [execute, if_true] at h ⊢
  exact render_made j (ignored j t) t hp [] target f h

/-- A pattern of the ignore file applies from every directory of the template on. -/
theorem template_ignore_patterns (j : Jinja) (t : Tree) (lines : Text) (h : t.textOf t!".templateignore" = some lines)
    (p : Path) : ignored j t p = true ↔ ∃ dir rest, p = dir ++ rest ∧ rest ≠ [] ∧ j.glob lines rest = true := by
  unfold ignored
  rw [h]
  simp only [List.any_eq_true, List.mem_range]
  constructor
  · rintro ⟨i, hi, hg⟩
    refine ⟨p.take i, p.drop i, (List.take_append_drop i p).symm, ?_, hg⟩
    intro e
    have := congrArg List.length e
    simp at this
    omega
  · rintro ⟨a, b, rfl, hb, hg⟩
    refine ⟨a.length, ?_, by simpa using hg⟩
    have := List.length_pos_iff.mpr hb
    simp; omega

/-! ### examples -/

/-- A template whose two files are rendered to one name, and a directory where a file is. -/
def clashTree : Tree := .file t!"a" t!"1" (.file t!"a.tmpl" t!"2" (.dir t!"k" .nil .nil))

example : NoPreserve clashTree := by simp [NoPreserve, clashTree, Tree.hasChild]

example : execute (exJinja t!"me") clashTree exDisk [t!"t"] [t!"w"] true =
    (exDisk ++ [([t!"w", t!"a"], .file t!"2me")], false) := by decide

example : SameKinds exDisk (execute (exJinja t!"me") clashTree exDisk [t!"t"] [t!"w"] true).1 :=
  template_kinds _ _ _ _ _ _ (by simp [NoPreserve, clashTree, Tree.hasChild]) (by
    refine ⟨?_, by decide, by decide⟩
    rintro q ⟨r, rfl⟩
    simp [exDisk, Dict.get])

example : AllMade (exJinja t!"me") (ignored (exJinja t!"me") exTree) (execute (exJinja t!"me") exTree exDisk [t!"t"] [t!"w"] true).1
    exTree [] [t!"w"] :=
  template_success _ _ _ _ _ (by simp [NoPreserve, exTree, Tree.hasChild]) (by decide)

end Templates
end Pkm
