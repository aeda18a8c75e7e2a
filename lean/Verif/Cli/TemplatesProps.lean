import Verif.Cli.Templates
import Verif.Files.Lemmas
import Verif.Http.UrlProps
/-
Rendering a template writes what the template says and overwrites nothing (C78).
-/
set_option linter.unusedVariables false
set_option linter.unusedSimpArgs false
namespace Pkm

/-! ### specification -/
namespace Spec
open Pkm.Templates

/-- The name of one file in a directory. -/
def OneName (n : Text) : Prop := n ≠ [] ∧ '/' ∉ n ∧ n ≠ t!"." ∧ n ≠ t!".."

/-- `x` for a name `x.tmpl`. -/
def tmplBase (n : Text) : Option Text :=
  if 5 < n.length ∧ n.drop (n.length - 5) = t!".tmpl" then some (n.take (n.length - 5)) else none

/-- A file of the template is left out if it is ignored or its name is rendered to nothing. -/
def leftOut (j : Jinja) (ig : Path → Bool) (p : Path) (n : Text) : Bool := ig p || j.name n == []

/-- What a file is rendered to: its name and its text. -/
def fileOut (j : Jinja) (n t : Text) : Text × Text :=
  match tmplBase (j.name n) with
  | some b => (b, j.body t)
  | none => (j.name n, t)

/-- What a template is rendered to: the files and directories with their relative paths. -/
def templateOut (j : Jinja) (ig : Path → Bool) : Tree → Path → List (Path × Item)
  | .nil, _ => []
  | .file n t rest, rel =>
    (if leftOut j ig (rel ++ [n]) n then [] else [([(fileOut j n t).1], .file (fileOut j n t).2)]) ++ templateOut j ig rest rel
  | .dir n cs rest, rel =>
    (if leftOut j ig (rel ++ [n]) n then []
      else ([j.name n], .dir) :: (templateOut j ig cs (rel ++ [n])).map (fun x => (j.name n :: x.1, x.2))) ++
    templateOut j ig rest rel

/-- The names in the rendered directory. -/
def topNames (j : Jinja) (ig : Path → Bool) : Tree → Path → List Text
  | .nil, _ => []
  | .file n t rest, rel => (if leftOut j ig (rel ++ [n]) n then [] else [(fileOut j n t).1]) ++ topNames j ig rest rel
  | .dir n _ rest, rel => (if leftOut j ig (rel ++ [n]) n then [] else [j.name n]) ++ topNames j ig rest rel

/-- A template whose names are rendered to names, differently in one directory, and without preserved directories. -/
def TidyTemplate (j : Jinja) (ig : Path → Bool) : Tree → Path → Prop
  | .nil, _ => True
  | .file n t rest, rel => TidyTemplate j ig rest rel ∧ (leftOut j ig (rel ++ [n]) n = false →
      OneName (j.name n) ∧ OneName (fileOut j n t).1 ∧ (fileOut j n t).1 ∉ topNames j ig rest rel)
  | .dir n cs rest, rel => TidyTemplate j ig rest rel ∧ (leftOut j ig (rel ++ [n]) n = false →
      OneName (j.name n) ∧ cs.hasChild t!".templatepreserve" = false ∧ j.name n ∉ topNames j ig rest rel ∧
      TidyTemplate j ig cs (rel ++ [n]))

/-- The disk afterwards is the disk before with the output put into the directory. -/
def Overlaid (f g : Disk) (d : Path) (out : List (Path × Item)) : Prop :=
  (∀ r i, (r, i) ∈ out → g.get (d ++ r) = some i) ∧
  ∀ q, (∀ r i, (r, i) ∈ out → q ≠ d ++ r) → g.get q = f.get q

/-- No file of the output is where a directory is, no directory where a file is. -/
def OutFits (f : Disk) (d : Path) (out : List (Path × Item)) : Prop :=
  ∀ r i k, (r, i) ∈ out → f.get (d ++ r) = some k → (i = .dir ↔ k = .dir)

/-- The path is a directory and so are those above it. -/
def DirAt (f : Disk) (d : Path) : Prop := ∀ p, p <+: d → p = [] ∨ f.get p = some .dir

/-- The names of the temporary directory are new, and it is apart from the target. -/
def NewTmp (f : Disk) (tmp target : Path) : Prop :=
  (∀ q, tmp <+: q → f.get q = none) ∧ ¬ tmp <+: target ∧ ¬ target <+: tmp

end Spec

namespace Templates
open Spec

/-! ### lemmas -/

theorem resolve_one (d : Path) (n : Text) (h : OneName n) : resolve d n = d ++ [n] := by
  obtain ⟨h1, h2, h3, h4⟩ := h
  unfold resolve
  have : ¬ n.head? = some '/' := by
    cases n with
    | nil => simp
    | cons x xs => simp at h2 ⊢; exact fun e => h2.1 e.symm
  rw [if_neg this, Http.splitOn_single '/' n h2]
  have he : n.isEmpty = false := by cases n <;> simp_all
  simp only [resolveFrom, he, Bool.false_or, decide_eq_true_eq, if_neg h3, if_neg h4]

theorem isTmpl_iff (n : Text) : isTmpl n = (tmplBase n).isSome := by
  unfold isTmpl tmplBase
  by_cases h : 5 < n.length ∧ n.drop (n.length - 5) = t!".tmpl"
  · rw [if_pos h]
    have hs : (t!".tmpl").isSuffixOf n = true := by
      rw [List.isSuffixOf_iff_suffix, ← h.2]; exact List.drop_suffix _ _
    have hn : n ≠ t!".tmpl" := by
      intro e; have := h.1; rw [e] at this; simp at this
    simp [hs, hn]
  · rw [if_neg h]
    cases hs : (t!".tmpl").isSuffixOf n with
    | false => simp
    | true =>
      by_cases hn : n = t!".tmpl"
      · simp [hn]
      · exfalso
        rw [List.isSuffixOf_iff_suffix] at hs
        obtain ⟨a, rfl⟩ := hs
        cases a with
        | nil => exact hn rfl
        | cons x xs =>
          refine h ⟨by simp, ?_⟩
          simp

theorem stem_base (n b : Text) (h : tmplBase n = some b) : stem n = b := by
  unfold tmplBase at h
  split at h
  · cases h; rfl
  · simp at h

theorem left_eq (j : Jinja) (ig : Path → Bool) (p : Path) (n : Text) :
    (ig p || (j.name n).isEmpty) = leftOut j ig p n := by
  unfold leftOut
  cases j.name n <;> rfl

theorem out_head {j : Jinja} {ig : Path → Bool} {t : Tree} {rel r : Path} {i : Item} (h : (r, i) ∈ templateOut j ig t rel) :
    ∃ x s, r = x :: s ∧ x ∈ topNames j ig t rel := by
  induction t generalizing rel r i with
  | nil => simp [templateOut] at h
  | file n t rest ih =>
    simp only [templateOut, topNames, List.mem_append] at h ⊢
    rcases h with h | h
    · split at h
      · simp at h
      · rename_i hl
        simp at h
        exact ⟨_, [], h.1, Or.inl (by simp [hl])⟩
    · obtain ⟨x, s, h1, h2⟩ := ih h
      exact ⟨x, s, h1, Or.inr h2⟩
  | dir n cs rest ihc ih =>
    simp only [templateOut, topNames, List.mem_append] at h ⊢
    rcases h with h | h
    · split at h
      · simp at h
      · rename_i hl
        simp only [List.mem_cons, List.mem_map, Prod.mk.injEq] at h
        rcases h with h | ⟨y, -, hy, -⟩
        · exact ⟨_, [], h.1, Or.inl (by simp [hl])⟩
        · exact ⟨_, y.1, hy.symm, Or.inl (by simp [hl])⟩
    · obtain ⟨x, s, h1, h2⟩ := ih h
      exact ⟨x, s, h1, Or.inr h2⟩

theorem isDir_put_file {f : Disk} {p : Path} {t : Text} {d : Path} (h : isDir f d = true) (hp : isDir f p = false) :
    isDir (f.put p (.file t)) d = true := by
  unfold isDir at *
  rw [Dict.get_put]
  by_cases hd : p = d
  · subst hd; rw [h] at hp; simp at hp
  · rw [if_neg hd]; exact h

theorem isDir_iff (f : Disk) (d : Path) : isDir f d = true ↔ d = [] ∨ f.get d = some .dir := by
  unfold isDir
  cases d <;> simp

/-- A new file in a directory. -/
theorem placeFile_ok (j : Jinja) (f : Disk) (n t : Text) (d : Path) (hd : isDir f d = true) (h1 : OneName (j.name n))
    (hfit : ∀ k, f.get (d ++ [(fileOut j n t).1]) = some k → k ≠ .dir) :
    placeFile j f n t d = (f.put (d ++ [(fileOut j n t).1]) (.file (fileOut j n t).2), true) := by
  have hpar : parents f (d ++ [j.name n]) = (f, true) := by
    unfold parents
    rw [List.dropLast_concat]
    rcases (isDir_iff f d).1 hd with h | h
    · subst h; rfl
    · simp [Dict.has, h]
  have hnd : isDir f (d ++ [(fileOut j n t).1]) = false := by
    cases hh : isDir f (d ++ [(fileOut j n t).1]) with
    | false => rfl
    | true =>
      rcases (isDir_iff _ _).1 hh with h | h
      · simp at h
      · exact absurd rfl (hfit _ h)
  unfold placeFile
  rw [resolve_one d _ h1, hpar]
  simp only [placeAt, List.getLast?_concat, Option.getD_some, List.dropLast_concat, isTmpl_iff]
  unfold fileOut at *
  cases hb : tmplBase (j.name n) with
  | none =>
    simp only [hb] at hnd
    simp [hb, copyTo, write, hnd, hd]
  | some b =>
    simp only [hb] at hnd
    simp [hb, stem_base _ _ hb, write, hnd, hd]

/-- Rendering puts the output into the directory. -/
theorem render_ok (j : Jinja) (ig : Path → Bool) (t : Tree) (rel d : Path) (f : Disk) (ht : TidyTemplate j ig t rel)
    (hd : isDir f d = true) (hfit : OutFits f d (templateOut j ig t rel)) :
    (render j ig t rel d f).2 = true ∧ Overlaid f (render j ig t rel d f).1 d (templateOut j ig t rel) ∧
      (f.Wf → (render j ig t rel d f).1.Wf) := by
  induction t generalizing rel d f with
  | nil => exact ⟨rfl, ⟨by simp [templateOut], fun _ _ => rfl⟩, id⟩
  | file n t rest ih =>
    obtain ⟨ht1, ht2⟩ := ht
    simp only [render, left_eq]
    cases hl : leftOut j ig (rel ++ [n]) n with
    | true =>
      simp only [templateOut, hl, if_true, List.nil_append] at hfit ⊢
      exact ih rel d f ht1 hd hfit
    | false =>
      obtain ⟨n1, n2, n3⟩ := ht2 hl
      simp only [templateOut, hl, Bool.false_eq_true, if_false] at hfit ⊢
      have hpl := placeFile_ok j f n t d hd n1 (fun k hk => by
        have := hfit _ _ _ (List.mem_append_left _ List.mem_cons_self) hk
        intro e; have := this.2 e; simp at this)
      rw [hpl]
      simp only
      have hne : ∀ r i, (r, i) ∈ templateOut j ig rest rel → d ++ [(fileOut j n t).1] ≠ d ++ r := by
        intro r i hm e
        obtain ⟨x, s, rfl, hx⟩ := out_head hm
        have := List.append_cancel_left e
        simp at this
        exact n3 (this.1 ▸ hx)
      obtain ⟨a1, ⟨a2, a3⟩, a4⟩ := ih rel d (f.put (d ++ [(fileOut j n t).1]) (.file (fileOut j n t).2)) ht1
        (by
          rw [isDir_iff] at hd ⊢
          rcases hd with h | h
          · exact Or.inl h
          · refine Or.inr ?_
            rw [Dict.get_put, if_neg (by simp)]; exact h)
        (fun r i k hm hk => by
          rw [Dict.get_put, if_neg (hne r i hm)] at hk
          exact hfit r i k (List.mem_append_right _ hm) hk)
      refine ⟨a1, ⟨?_, ?_⟩, fun hw => a4 (Dict.wf_put _ _ _ hw)⟩
      · intro r i hm
        rcases List.mem_append.1 hm with hm | hm
        · simp at hm
          obtain ⟨rfl, rfl⟩ := hm
          rw [a3 _ hne, Dict.get_put, if_pos rfl]
        · exact a2 r i hm
      · intro q hq
        rw [a3 q (fun r i hm => hq r i (List.mem_append_right _ hm)), Dict.get_put, if_neg]
        exact fun e => hq _ _ (List.mem_append_left _ List.mem_cons_self) e.symm
  | dir n cs rest ihc ih =>
    obtain ⟨ht1, ht2⟩ := ht
    simp only [render, left_eq]
    cases hl : leftOut j ig (rel ++ [n]) n with
    | true =>
      simp only [templateOut, hl, if_true, List.nil_append] at hfit ⊢
      exact ih rel d f ht1 hd hfit
    | false =>
      obtain ⟨n1, n2, n3, n4⟩ := ht2 hl
      simp only [templateOut, hl, Bool.false_eq_true, if_false] at hfit ⊢
      have hpar : parents f (d ++ [j.name n]) = (f, true) := by
        unfold parents
        rw [List.dropLast_concat]
        rcases (isDir_iff f d).1 hd with h | h
        · subst h; rfl
        · simp [Dict.has, h]
      rw [resolve_one d _ n1, hpar]
      simp only [n2, Bool.false_eq_true, if_false]
      have hmk : ∃ g, mkdir f (d ++ [j.name n]) = (g, true) ∧ g.get (d ++ [j.name n]) = some .dir ∧
          (∀ q, q ≠ d ++ [j.name n] → g.get q = f.get q) ∧ (f.Wf → g.Wf) := by
        unfold mkdir
        split
        · rename_i hh
          rcases (isDir_iff _ _).1 hh with h | h
          · simp at h
          · exact ⟨f, rfl, h, fun _ _ => rfl, id⟩
        · rename_i hh
          have hnone : f.get (d ++ [j.name n]) = none := by
            cases hg : f.get (d ++ [j.name n]) with
            | none => rfl
            | some k =>
              have := (hfit _ _ _ (List.mem_append_left _ List.mem_cons_self) hg).1 rfl
              subst this
              exact absurd ((isDir_iff _ _).2 (Or.inr hg)) hh
          rw [if_pos (by simp [hnone, hd])]
          refine ⟨_, rfl, ?_, ?_, fun hw => Dict.wf_put _ _ _ hw⟩
          · rw [Dict.get_put, if_pos rfl]
          · intro q hq; rw [Dict.get_put, if_neg (Ne.symm hq)]
      obtain ⟨g, hg, hgd, hgf, hgw⟩ := hmk
      rw [hg]
      simp only
      obtain ⟨b1, ⟨b2, b3⟩, b4⟩ := ihc (rel ++ [n]) (d ++ [j.name n]) g n4 ((isDir_iff _ _).2 (Or.inr hgd))
        (fun r i k hm hk => by
          obtain ⟨x, s, rfl, -⟩ := out_head hm
          rw [hgf _ (by simp)] at hk
          refine hfit (j.name n :: x :: s) i k ?_ (by simpa using hk)
          exact List.mem_append_left _ (List.mem_cons_of_mem _ (List.mem_map.2 ⟨_, hm, rfl⟩)))
      have e1 : render j ig cs (rel ++ [n]) (d ++ [j.name n]) g = ((render j ig cs (rel ++ [n]) (d ++ [j.name n]) g).1, true) :=
        Prod.ext rfl b1
      rw [e1]
      simp only
      have hrest : ∀ r i, (r, i) ∈ templateOut j ig rest rel → ∀ s, d ++ j.name n :: s ≠ d ++ r := by
        intro r i hm s e
        obtain ⟨x, s', rfl, hx⟩ := out_head hm
        have := List.append_cancel_left e
        simp at this
        exact n3 (this.1 ▸ hx)
      have hchild : ∀ q, (∀ s, q ≠ d ++ j.name n :: s) → (render j ig cs (rel ++ [n]) (d ++ [j.name n]) g).1.get q = f.get q := by
        intro q hq
        rw [b3 q (fun r i _ e => hq r (by simpa using e)), hgf q (hq [])]
      obtain ⟨a1, ⟨a2, a3⟩, a4⟩ := ih rel d (render j ig cs (rel ++ [n]) (d ++ [j.name n]) g).1 ht1
        (by
          rw [isDir_iff] at hd ⊢
          rcases hd with h | h
          · exact Or.inl h
          · refine Or.inr ?_
            rw [hchild d (by simp)]; exact h)
        (fun r i k hm hk => by
          rw [hchild _ (fun s e => hrest r i hm s e.symm)] at hk
          exact hfit r i k (List.mem_append_right _ hm) hk)
      refine ⟨a1, ⟨?_, ?_⟩, fun hw => a4 (b4 (hgw hw))⟩
      · intro r i hm
        rcases List.mem_append.1 hm with hm | hm
        · simp only [List.mem_cons, List.mem_map, Prod.mk.injEq] at hm
          rcases hm with ⟨rfl, rfl⟩ | ⟨y, hy, rfl, rfl⟩
          · rw [a3 _ (fun r i hm => hrest r i hm []), b3 _ (fun r i hm => ?_), hgd]
            obtain ⟨x, s, rfl, -⟩ := out_head hm
            simp
          · rw [a3 _ (fun r i hm => hrest r i hm _)]
            have := b2 y.1 y.2 hy
            simpa using this
        · exact a2 r i hm
      · intro q hq
        rw [a3 q (fun r i hm => hq r i (List.mem_append_right _ hm))]
        rw [b3 q, hgf q]
        · exact fun e => hq _ _ (List.mem_append_left _ List.mem_cons_self) e
        · intro r i hm e
          exact hq (j.name n :: r) i (List.mem_append_left _ (List.mem_cons_of_mem _ (List.mem_map.2 ⟨_, hm, rfl⟩)))
            (by simpa using e)

/-- The directories above an output are in the output. -/
theorem out_parents {j : Jinja} {ig : Path → Bool} {t : Tree} {rel r s : Path} {i : Item}
    (h : (r, i) ∈ templateOut j ig t rel) (hs : s <+: r) (h0 : s ≠ []) (h1 : s ≠ r) : (s, .dir) ∈ templateOut j ig t rel := by
  induction t generalizing rel r i s with
  | nil => simp [templateOut] at h
  | file n t rest ih =>
    simp only [templateOut, List.mem_append] at h ⊢
    rcases h with h | h
    · split at h
      · simp at h
      · simp at h
        obtain ⟨rfl, rfl⟩ := h
        obtain ⟨u, hu⟩ := hs
        cases s with
        | nil => exact absurd rfl h0
        | cons x xs => simp at hu; obtain ⟨rfl, rfl, rfl⟩ := hu; exact absurd rfl h1
    · exact Or.inr (ih h hs h0 h1)
  | dir n cs rest ihc ih =>
    simp only [templateOut, List.mem_append] at h ⊢
    rcases h with h | h
    · left
      split at h
      · simp at h
      · rename_i hl
        rw [if_neg hl]
        simp only [List.mem_cons, List.mem_map, Prod.mk.injEq] at h ⊢
        obtain ⟨u, hu⟩ := hs
        cases s with
        | nil => exact absurd rfl h0
        | cons x xs =>
          rcases h with ⟨rfl, rfl⟩ | ⟨y, hy, rfl, rfl⟩
          · simp at hu; obtain ⟨rfl, rfl, rfl⟩ := hu; exact absurd rfl h1
          · simp at hu
            obtain ⟨rfl, hu⟩ := hu
            by_cases hx : xs = []
            · subst hx; exact Or.inl ⟨rfl, trivial⟩
            · exact Or.inr ⟨_, ihc hy ⟨u, hu⟩ hx (fun e => h1 (by rw [e])), rfl, rfl⟩
    · exact Or.inr (ih h hs h0 h1)

theorem out_unique {j : Jinja} {ig : Path → Bool} {t : Tree} {rel r : Path} {i k : Item} (ht : TidyTemplate j ig t rel)
    (h : (r, i) ∈ templateOut j ig t rel) (h' : (r, k) ∈ templateOut j ig t rel) : i = k := by
  have ok := render_ok j ig t rel [] [] ht rfl (by intro r i k _ hk; simp [Dict.get] at hk)
  have e1 := ok.2.1.1 r i h
  rw [ok.2.1.1 r k h'] at e1
  cases e1; rfl

/-- Making directories where no file is in the way. -/
theorem mkdirs_ok (f : Disk) (pre p : Path) (h : ∀ s, s <+: p → s ≠ [] → ∀ t, f.get (pre ++ s) ≠ some (.file t)) :
    (mkdirs f pre p).2 = true ∧ (∀ s, s <+: p → s ≠ [] → (mkdirs f pre p).1.get (pre ++ s) = some .dir) ∧
    (∀ q, (∀ s, s <+: p → s ≠ [] → q ≠ pre ++ s) → (mkdirs f pre p).1.get q = f.get q) ∧
    (f.Wf → (mkdirs f pre p).1.Wf) := by
  induction p generalizing f pre with
  | nil =>
    refine ⟨rfl, ?_, fun _ _ => rfl, id⟩
    intro s hs h0
    exact absurd (List.prefix_nil.1 hs) h0
  | cons x p ih =>
    have step : ∀ g : Disk, g.get (pre ++ [x]) = some .dir → (∀ q, q ≠ pre ++ [x] → g.get q = f.get q) → (f.Wf → g.Wf) →
        (mkdirs g (pre ++ [x]) p).2 = true ∧
        (∀ s, s <+: x :: p → s ≠ [] → (mkdirs g (pre ++ [x]) p).1.get (pre ++ s) = some .dir) ∧
        (∀ q, (∀ s, s <+: x :: p → s ≠ [] → q ≠ pre ++ s) → (mkdirs g (pre ++ [x]) p).1.get q = f.get q) ∧
        (f.Wf → (mkdirs g (pre ++ [x]) p).1.Wf) := by
      intro g hg hgf hgw
      obtain ⟨a1, a2, a3, a4⟩ := ih g (pre ++ [x]) (by
        intro s hs h0 t
        rw [hgf _ (by
          intro e
          rw [List.append_assoc] at e
          have := List.append_cancel_left e
          simp at this
          exact h0 this)]
        have := h (x :: s) (List.cons_prefix_cons.2 ⟨rfl, hs⟩) (by simp) t
        simpa using this)
      refine ⟨a1, ?_, ?_, fun hw => a4 (hgw hw)⟩
      · intro s hs h0
        cases s with
        | nil => exact absurd rfl h0
        | cons y s =>
          obtain ⟨rfl, hs'⟩ := List.cons_prefix_cons.1 hs
          by_cases h2 : s = []
          · subst h2
            rw [a3 _ (by
              intro s' hs' h0' e
              rw [List.append_assoc] at e
              have := List.append_cancel_left e
              simp at this
              exact h0' this), hg]
          · have := a2 s hs' h2
            simpa using this
      · intro q hq
        rw [a3 q (by
          intro s hs h0 e
          exact hq (x :: s) (List.cons_prefix_cons.2 ⟨rfl, hs⟩) (by simp) (by simpa using e)), hgf q]
        exact hq [x] (List.cons_prefix_cons.2 ⟨rfl, List.nil_prefix⟩) (by simp)
    simp only [mkdirs]
    cases hx : f.get (pre ++ [x]) with
    | none =>
      exact step (f.put (pre ++ [x]) .dir) (by rw [Dict.get_put, if_pos rfl])
        (fun q hq => by rw [Dict.get_put, if_neg (Ne.symm hq)]) (fun hw => Dict.wf_put _ _ _ hw)
    | some k =>
      cases k with
      | file t => exact absurd hx (h [x] (List.cons_prefix_cons.2 ⟨rfl, List.nil_prefix⟩) (by simp) t)
      | dir => exact step f hx (fun _ _ => rfl) id

/-- Making the directories of the output. -/
theorem copyDirs_ok (target : Path) (l : List (Path × Item)) (f : Disk)
    (h : ∀ r, (r, .dir) ∈ l → ∀ s, s <+: target ++ r → s ≠ [] → ∀ t, f.get s ≠ some (.file t)) :
    (copyDirs target l f).2 = true ∧
    (∀ r, (r, .dir) ∈ l → ∀ s, s <+: target ++ r → s ≠ [] → (copyDirs target l f).1.get s = some .dir) ∧
    (∀ q, (q = [] ∨ ∀ r, (r, .dir) ∈ l → ¬ q <+: target ++ r) → (copyDirs target l f).1.get q = f.get q) ∧
    (∀ q, f.get q = some .dir → (copyDirs target l f).1.get q = some .dir) := by
  induction l generalizing f with
  | nil => exact ⟨rfl, by simp, fun _ _ => rfl, fun _ h => h⟩
  | cons x l ih =>
    obtain ⟨r, i⟩ := x
    cases i with
    | file t =>
      obtain ⟨a1, a2, a3, a4⟩ := ih f (fun r hr => h r (List.mem_cons_of_mem _ hr))
      refine ⟨a1, ?_, ?_, a4⟩
      · intro r' hr'
        simp at hr'
        exact a2 r' hr'
      · intro q hq
        exact a3 q (hq.imp id (fun hq r' hr' => hq r' (List.mem_cons_of_mem _ hr')))
    | dir =>
      obtain ⟨m1, m2, m3, m4⟩ := mkdirs_ok f [] (target ++ r) (fun s hs h0 t => by
        simpa using h r List.mem_cons_self s hs h0 t)
      have e : mkdirs f [] (target ++ r) = ((mkdirs f [] (target ++ r)).1, true) := Prod.ext rfl m1
      simp only [copyDirs]
      rw [e]
      simp only
      have hdir : ∀ q, f.get q = some .dir → (mkdirs f [] (target ++ r)).1.get q = some .dir := by
        intro q hq
        by_cases hh : q <+: target ++ r ∧ q ≠ []
        · simpa using m2 q hh.1 hh.2
        · rw [m3 q (fun s hs h0 e => hh (by simp at e; subst e; exact ⟨hs, h0⟩))]; exact hq
      obtain ⟨a1, a2, a3, a4⟩ := ih (mkdirs f [] (target ++ r)).1 (fun r' hr' s hs h0 t => by
        by_cases hh : s <+: target ++ r
        · have := m2 s hh h0
          simp only [List.nil_append] at this
          rw [this]; simp
        · rw [m3 s (fun s' hs' h0' e => hh (by simp at e; subst e; exact hs'))]
          exact h r' (List.mem_cons_of_mem _ hr') s hs h0 t)
      refine ⟨a1, ?_, ?_, fun q hq => a4 q (hdir q hq)⟩
      · intro r' hr' s hs h0
        rcases List.mem_cons.1 hr' with hr' | hr'
        · cases hr'
          exact a4 s (by simpa using m2 s hs h0)
        · exact a2 r' hr' s hs h0
      · intro q hq
        rw [a3 q (hq.imp id (fun hq r' hr' => hq r' (List.mem_cons_of_mem _ hr'))), m3 q]
        intro s hs h0 e
        simp at e; subst e
        rcases hq with hq | hq
        · exact h0 hq
        · exact hq r List.mem_cons_self hs

/-- Copying the files of the output. -/
theorem copyFiles_ok (target : Path) (l : List (Path × Item)) (f : Disk) (hn : (l.map (·.1)).Nodup)
    (h1 : ∀ r t, (r, .file t) ∈ l → isDir f (target ++ r) = false)
    (h2 : ∀ r t, (r, .file t) ∈ l → isDir f (target ++ r).dropLast = true) :
    (copyFiles target l f).2 = true ∧
    (∀ r t, (r, .file t) ∈ l → (copyFiles target l f).1.get (target ++ r) = some (.file t)) ∧
    (∀ q, (∀ r t, (r, .file t) ∈ l → q ≠ target ++ r) → (copyFiles target l f).1.get q = f.get q) := by
  induction l generalizing f with
  | nil => exact ⟨rfl, by simp, fun _ _ => rfl⟩
  | cons x l ih =>
    obtain ⟨r, i⟩ := x
    simp only [List.map_cons, List.nodup_cons] at hn
    cases i with
    | dir =>
      obtain ⟨a1, a2, a3⟩ := ih f hn.2 (fun r t hr => h1 r t (List.mem_cons_of_mem _ hr))
        (fun r t hr => h2 r t (List.mem_cons_of_mem _ hr))
      refine ⟨a1, ?_, ?_⟩
      · intro r' t hr'
        simp at hr'
        exact a2 r' t hr'
      · intro q hq
        exact a3 q (fun r' t hr' => hq r' t (List.mem_cons_of_mem _ hr'))
    | file t =>
      have d1 := h1 r t List.mem_cons_self
      have d2 := h2 r t List.mem_cons_self
      simp only [copyFiles, copyTo, d1, Bool.false_eq_true, if_false, write, d2, Bool.not_true, Bool.or_false]
      obtain ⟨a1, a2, a3⟩ := ih (f.put (target ++ r) (.file t)) hn.2
        (fun r' t' hr' => by
          have hne : target ++ r ≠ target ++ r' := by
            intro e
            exact hn.1 (List.mem_map.2 ⟨_, hr', (List.append_cancel_left e).symm⟩)
          have := h1 r' t' (List.mem_cons_of_mem _ hr')
          unfold isDir at this ⊢
          rw [Dict.get_put, if_neg hne]; exact this)
        (fun r' t' hr' => isDir_put_file (h2 r' t' (List.mem_cons_of_mem _ hr')) d1)
      refine ⟨a1, ?_, ?_⟩
      · intro r' t' hr'
        rcases List.mem_cons.1 hr' with hr' | hr'
        · cases hr'
          rw [a3 _ (fun r' t' hr' e => ?_), Dict.get_put, if_pos rfl]
          exact hn.1 (List.mem_map.2 ⟨_, hr', (List.append_cancel_left e).symm⟩)
        · exact a2 r' t' hr'
      · intro q hq
        rw [a3 q (fun r' t' hr' => hq r' t' (List.mem_cons_of_mem _ hr')), Dict.get_put, if_neg]
        exact fun e => hq r t List.mem_cons_self e.symm

theorem inside_iff (d q : Path) : inside d q = true ↔ ∃ r, r ≠ [] ∧ q = d ++ r := by
  unfold inside
  rw [Bool.and_eq_true, List.isPrefixOf_iff_prefix]
  constructor
  · rintro ⟨⟨r, rfl⟩, h⟩
    refine ⟨r, ?_, rfl⟩
    rintro rfl
    simp at h
  · rintro ⟨r, h, rfl⟩
    exact ⟨⟨r, rfl⟩, by simpa using h⟩

theorem listing_mem (f : Disk) (d r : Path) (i : Item) (hw : f.Wf) :
    (r, i) ∈ listing f d ↔ r ≠ [] ∧ f.get (d ++ r) = some i := by
  unfold listing
  rw [List.mem_map]
  constructor
  · rintro ⟨⟨q, k⟩, hm, he⟩
    rw [List.mem_filter, inside_iff] at hm
    obtain ⟨hm, s, hs, rfl⟩ := hm
    simp at he
    obtain ⟨rfl, rfl⟩ := he
    exact ⟨hs, Dict.mem_get _ _ _ hw hm⟩
  · rintro ⟨h0, h⟩
    exact ⟨(d ++ r, i), List.mem_filter.2 ⟨Dict.get_mem _ _ _ h, (inside_iff _ _).2 ⟨r, h0, rfl⟩⟩, by simp⟩

theorem listing_nodup (f : Disk) (d : Path) (hw : f.Wf) : ((listing f d).map (·.1)).Nodup := by
  unfold listing
  rw [List.map_map]
  have : ∀ l : Disk, (l.map (·.1)).Nodup → (∀ x ∈ l, d <+: x.1) →
      (l.map ((fun x => x.1) ∘ fun x => (x.1.drop d.length, x.2))).Nodup := by
    intro l
    induction l with
    | nil => intros; exact List.nodup_nil
    | cons x l ih =>
      intro h1 h2
      simp only [List.map_cons, List.nodup_cons] at h1 ⊢
      refine ⟨?_, ih h1.2 (fun y hy => h2 y (List.mem_cons_of_mem _ hy))⟩
      intro hm
      obtain ⟨y, hy, he⟩ := List.mem_map.1 hm
      obtain ⟨a, ha⟩ := h2 x List.mem_cons_self
      obtain ⟨b, hb⟩ := h2 y (List.mem_cons_of_mem _ hy)
      simp only [Function.comp, ← ha, ← hb, List.drop_left] at he
      exact h1.1 (List.mem_map.2 ⟨y, hy, by rw [← ha, ← hb, he]⟩)
  apply this
  · exact (show (f.map (·.1)).Nodup from hw).sublist (List.filter_sublist.map _)
  · intro x hx
    have := (List.mem_filter.1 hx).2
    obtain ⟨r, -, hr⟩ := (inside_iff _ _).1 this
    exact ⟨r, hr.symm⟩

theorem apart {tmp target r : Path} (h1 : ¬ tmp <+: target) (h2 : ¬ target <+: tmp) : ¬ tmp <+: target ++ r := by
  intro h
  rcases List.prefix_or_prefix_of_prefix h (List.prefix_append target r) with h | h
  · exact h1 h
  · exact h2 h

/-- What is in the temporary directory after rendering. -/
theorem tmp_ok (j : Jinja) (ig : Path → Bool) (t : Tree) (f : Disk) (tmp target : Path) (hw : f.Wf)
    (ht : TidyTemplate j ig t []) (hn : NewTmp f tmp target) :
    ∃ g, render j ig t [] tmp (f.put tmp .dir) = (g, true) ∧ g.Wf ∧
      (∀ r i, (r, i) ∈ listing g tmp ↔ (r, i) ∈ templateOut j ig t []) ∧
      (∀ q, ¬ tmp <+: q → g.get q = f.get q) := by
  obtain ⟨n1, n2, n3⟩ := hn
  obtain ⟨a1, ⟨a2, a3⟩, a4⟩ := render_ok j ig t [] tmp (f.put tmp .dir) ht
    ((isDir_iff _ _).2 (Or.inr (by rw [Dict.get_put, if_pos rfl])))
    (fun r i k hm hk => by
      obtain ⟨x, s, rfl, -⟩ := out_head hm
      rw [Dict.get_put, if_neg (by simp), n1 _ (List.prefix_append _ _)] at hk
      simp at hk)
  have hgw := a4 (Dict.wf_put _ _ _ hw)
  refine ⟨_, Prod.ext rfl a1, hgw, ?_, ?_⟩
  · intro r i
    rw [listing_mem _ _ _ _ hgw]
    constructor
    · rintro ⟨h0, hg⟩
      by_cases hx : ∃ i', (r, i') ∈ templateOut j ig t []
      · obtain ⟨i', hi⟩ := hx
        rw [a2 r i' hi] at hg
        cases hg; exact hi
      · exfalso
        rw [a3 (tmp ++ r) (fun r' i' hm e => by
          have := List.append_cancel_left e
          subst this
          exact hx ⟨i', hm⟩), Dict.get_put, if_neg (by simpa using h0), n1 _ (List.prefix_append _ _)] at hg
        simp at hg
    · intro hm
      obtain ⟨x, s, rfl, -⟩ := out_head hm
      exact ⟨by simp, a2 _ _ hm⟩
  · intro q hq
    rw [a3 q (fun r i _ e => hq (e ▸ List.prefix_append _ _)), Dict.get_put, if_neg]
    rintro rfl
    exact hq (List.prefix_refl _)

theorem removeAll_get (f : Disk) (d q : Path) : (removeAll f d).get q = if d <+: q then none else f.get q := by
  unfold removeAll
  rw [Files.get_filter_key (fun p => !d.isPrefixOf p)]
  by_cases h : d <+: q
  · simp [h, List.isPrefixOf_iff_prefix.2 h]
  · have : d.isPrefixOf q = false := by
      cases hh : d.isPrefixOf q with
      | false => rfl
      | true => exact absurd (List.isPrefixOf_iff_prefix.1 hh) h
    simp [h, this]

/-! ### C78 -/

/-- If something the template makes is where a file is already, nothing is changed and the command fails. -/
theorem template_conflict (j : Jinja) (t : Tree) (f : Disk) (tmp target : Path) (hw : f.Wf)
    (ht : TidyTemplate j (ignored j t) t []) (hn : NewTmp f tmp target) (r : Path) (i : Item) (c : Text)
    (hr : (r, i) ∈ templateOut j (ignored j t) t []) (hc : f.get (target ++ r) = some (.file c)) :
    (execute j t f tmp target false).2 = false ∧ ∀ q, (execute j t f tmp target false).1.get q = f.get q := by
  obtain ⟨g, hg, hgw, hl, hgf⟩ := tmp_ok j (ignored j t) t f tmp target hw ht hn
  have hcf : conflict g target (listing g tmp) = true := by
    unfold conflict
    rw [List.any_eq_true]
    refine ⟨(r, i), (hl r i).2 hr, ?_⟩
    simp only
    rw [hgf _ (apart hn.2.1 hn.2.2), hc]
  simp only [execute, Bool.false_eq_true, if_false, hg, hcf, if_true]
  refine ⟨trivial, ?_⟩
  intro q
  rw [removeAll_get]
  split
  · rename_i h; exact (hn.1 q h).symm
  · rename_i h; exact hgf q h

/-- Otherwise, unless a file would come where a directory is, the command succeeds, and the disk afterwards is the disk before
with the output of the template. -/
theorem template_rendered_partial (j : Jinja) (t : Tree) (f : Disk) (tmp target : Path) (hw : f.Wf) (hd : DirAt f target)
    (ht : TidyTemplate j (ignored j t) t []) (hn : NewTmp f tmp target)
    (hfit : OutFits f target (templateOut j (ignored j t) t []))
    (hfree : ∀ r i c, (r, i) ∈ templateOut j (ignored j t) t [] → f.get (target ++ r) ≠ some (.file c)) :
    (execute j t f tmp target false).2 = true ∧
    Overlaid f (execute j t f tmp target false).1 target (templateOut j (ignored j t) t []) := by
  obtain ⟨g, hg, hgw, hl, hgf⟩ := tmp_ok j (ignored j t) t f tmp target hw ht hn
  have hcf : conflict g target (listing g tmp) = false := by
    cases hh : conflict g target (listing g tmp) with
    | false => rfl
    | true =>
      unfold conflict at hh
      rw [List.any_eq_true] at hh
      obtain ⟨⟨r, i⟩, hm, h⟩ := hh
      simp only at h
      rw [hgf _ (apart hn.2.1 hn.2.2)] at h
      cases hx : f.get (target ++ r) with
      | none => rw [hx] at h; simp at h
      | some k =>
        cases k with
        | dir => rw [hx] at h; simp at h
        | file c => exact absurd hx (hfree r i c ((hl r i).1 hm))
  have hpre : ∀ s, s <+: target → ¬ tmp <+: s := fun s hs h => hn.2.1 (h.trans hs)
  -- the target and the directories above it exist
  obtain ⟨m1, m2, m3, m4⟩ := mkdirs_ok g [] target (fun s hs h0 c => by
    simp only [List.nil_append]
    rw [hgf s (hpre s hs)]
    rcases hd s hs with h | h
    · exact absurd h h0
    · rw [h]; simp)
  have hm : ∀ q, (mkdirs g [] target).1.get q = g.get q := by
    intro q
    by_cases hq : q <+: target ∧ q ≠ []
    · have := m2 q hq.1 hq.2
      simp only [List.nil_append] at this
      rw [this, hgf q (hpre q hq.1)]
      rcases hd q hq.1 with h | h
      · exact absurd h hq.2
      · exact h.symm
    · exact m3 q (fun s hs h0 e => hq (by simp at e; subst e; exact ⟨hs, h0⟩))
  have hne : ∀ r i, (r, i) ∈ templateOut j (ignored j t) t [] → r ≠ [] := by
    intro r i h
    obtain ⟨x, s, rfl, -⟩ := out_head h
    simp
  obtain ⟨d1, d2, d3, d4⟩ := copyDirs_ok target (listing g tmp) (mkdirs g [] target).1 (fun r hr s hs h0 c => by
    rw [hm]
    have hr' := (hl _ _).1 hr
    rcases List.prefix_or_prefix_of_prefix hs (List.prefix_append target r) with h | ⟨u, rfl⟩
    · rw [hgf s (hpre s h)]
      rcases hd s h with h | h
      · exact absurd h h0
      · rw [h]; simp
    · rw [hgf _ (apart hn.2.1 hn.2.2)]
      by_cases hu : u = []
      · subst hu
        rcases hd target (List.prefix_refl _) with h | h
        · rw [h, List.append_nil] at h0; exact absurd rfl h0
        · rw [List.append_nil, h]; simp
      · have hu' : u <+: r := by
          obtain ⟨w, hw⟩ := hs
          rw [List.append_assoc] at hw
          exact ⟨w, List.append_cancel_left hw⟩
        by_cases he : u = r
        · subst he; exact hfree _ _ c hr'
        · exact hfree _ _ c (out_parents hr' hu' hu he))
  have e1 : mkdirs g [] target = ((mkdirs g [] target).1, true) := Prod.ext rfl m1
  have e2 : copyDirs target (listing g tmp) (mkdirs g [] target).1 =
      ((copyDirs target (listing g tmp) (mkdirs g [] target).1).1, true) := Prod.ext rfl d1
  -- outside the made directories nothing has changed
  have hdirs : ∀ q, (∀ r, (r, .dir) ∈ templateOut j (ignored j t) t [] → q ≠ target ++ r) →
      (copyDirs target (listing g tmp) (mkdirs g [] target).1).1.get q = g.get q := by
    intro q hq
    by_cases hx : ∃ r, (r, .dir) ∈ listing g tmp ∧ q <+: target ++ r
    · obtain ⟨r, hr, hqr⟩ := hx
      have hr' := (hl _ _).1 hr
      by_cases hqt : q <+: target
      · have hgq : q = [] ∨ g.get q = some .dir := by
          rw [hgf q (hpre q hqt)]; exact hd q hqt
        rcases hgq with h | h
        · subst h
          exact (d3 [] (Or.inl rfl)).trans (hm [])
        · rw [d4 q (by rw [hm]; exact h), h]
      · rcases List.prefix_or_prefix_of_prefix hqr (List.prefix_append target r) with h | ⟨u, rfl⟩
        · exact absurd h hqt
        · exfalso
          have hu : u ≠ [] := by rintro rfl; exact hqt (by simp)
          have hu' : u <+: r := by
            obtain ⟨w, hw⟩ := hqr
            rw [List.append_assoc] at hw
            exact ⟨w, List.append_cancel_left hw⟩
          by_cases he : u = r
          · subst he; exact hq u hr' rfl
          · exact hq u (out_parents hr' hu' hu he) rfl
    · rw [d3 q (Or.inr (fun r hr h => hx ⟨r, hr, h⟩)), hm]
  have hfile : ∀ r c, (r, .file c) ∈ listing g tmp → ∀ r', (r', .dir) ∈ templateOut j (ignored j t) t [] →
      target ++ r ≠ target ++ r' := by
    intro r c hr r' hr' e
    have := List.append_cancel_left e
    subst this
    have := out_unique ht ((hl _ _).1 hr) hr'
    simp at this
  obtain ⟨c1, c2, c3⟩ := copyFiles_ok target (listing g tmp) (copyDirs target (listing g tmp) (mkdirs g [] target).1).1
    (listing_nodup g tmp hgw)
    (fun r c hr => by
      have hr' := (hl _ _).1 hr
      cases hh : isDir (copyDirs target (listing g tmp) (mkdirs g [] target).1).1 (target ++ r) with
      | false => rfl
      | true =>
        exfalso
        rcases (isDir_iff _ _).1 hh with h | h
        · exact hne r _ hr' (List.append_eq_nil_iff.1 h).2
        · rw [hdirs _ (hfile r c hr), hgf _ (apart hn.2.1 hn.2.2)] at h
          have := (hfit _ _ _ hr' h).2 rfl
          simp at this)
    (fun r c hr => by
      have hr' := (hl _ _).1 hr
      obtain ⟨x, hx⟩ : ∃ x s, r = s ++ [x] := ⟨r.getLast (hne r _ hr'), r.dropLast, (List.dropLast_concat_getLast _).symm⟩
      obtain ⟨s, rfl⟩ := hx
      rw [← List.append_assoc, List.dropLast_concat]
      rw [isDir_iff]
      by_cases hs : s = []
      · subst hs
        rw [List.append_nil]
        rcases hd target (List.prefix_refl _) with h | h
        · exact Or.inl h
        · refine Or.inr (d4 _ ?_)
          rw [hm, hgf _ hn.2.1]; exact h
      · refine Or.inr ?_
        have hs' := out_parents hr' (List.prefix_append s [x]) hs (by simp)
        exact d2 s ((hl _ _).2 hs') _ (List.prefix_refl _) (by simp [hs]))
  have ex : execute j t f tmp target false =
      (removeAll (copyFiles target (listing g tmp) (copyDirs target (listing g tmp) (mkdirs g [] target).1).1).1 tmp, true) := by
    have : copyOver g target (listing g tmp) =
        copyFiles target (listing g tmp) (copyDirs target (listing g tmp) (mkdirs g [] target).1).1 := by
      unfold copyOver
      rw [e1]
      simp only
      rw [e2]
    simp only [execute, Bool.false_eq_true, if_false, hg, hcf, this, c1]
  rw [ex]
  refine ⟨rfl, ?_, ?_⟩
  · intro r i hm'
    rw [removeAll_get, if_neg (apart hn.2.1 hn.2.2)]
    cases i with
    | file c => exact c2 r c ((hl _ _).2 hm')
    | dir =>
      rw [c3 _ (fun r' c hr' e => hfile r' c hr' r hm' e.symm)]
      exact d2 r ((hl _ _).2 hm') _ (List.prefix_refl _) (by simp [hne r _ hm'])
  · intro q hq
    rw [removeAll_get]
    split
    · rename_i h; exact (hn.1 q h).symm
    · rename_i h
      rw [c3 q (fun r c hr => hq r _ ((hl _ _).1 hr)), hdirs q (fun r hr => hq r _ hr)]
      exact hgf q h

/-- Without `--overwrite` every file stays as it is, whether the command fails or not. -/
theorem template_keeps_files_partial (j : Jinja) (t : Tree) (f : Disk) (tmp target : Path) (hw : f.Wf) (hd : DirAt f target)
    (ht : TidyTemplate j (ignored j t) t []) (hn : NewTmp f tmp target)
    (hfit : ∀ r c, (r, .file c) ∈ templateOut j (ignored j t) t [] → f.get (target ++ r) ≠ some .dir)
    (q : Path) (c : Text) (hq : f.get q = some (.file c)) :
    (execute j t f tmp target false).1.get q = some (.file c) := by
  by_cases hx : ∃ r i c, (r, i) ∈ templateOut j (ignored j t) t [] ∧ f.get (target ++ r) = some (.file c)
  · obtain ⟨r, i, c', hr, hc⟩ := hx
    rw [(template_conflict j t f tmp target hw ht hn r i c' hr hc).2 q, hq]
  · have hfree : ∀ r i c, (r, i) ∈ templateOut j (ignored j t) t [] → f.get (target ++ r) ≠ some (.file c) :=
      fun r i c hr hc => hx ⟨r, i, c, hr, hc⟩
    have := template_rendered_partial j t f tmp target hw hd ht hn (fun r i k hr hk => by
      cases k with
      | file c => exact absurd hk (hfree r i c hr)
      | dir =>
        cases i with
        | file c => exact absurd hk (hfit r c hr)
        | dir => simp) hfree
    rw [this.2.2 q (fun r i hr e => hfree r i c hr (e ▸ hq)), hq]

/-- With `--overwrite` the output replaces the files that are there. -/
theorem template_overwrite (j : Jinja) (t : Tree) (f : Disk) (tmp target : Path) (hd : DirAt f target)
    (ht : TidyTemplate j (ignored j t) t []) (hfit : OutFits f target (templateOut j (ignored j t) t [])) :
    (execute j t f tmp target true).2 = true ∧
    Overlaid f (execute j t f tmp target true).1 target (templateOut j (ignored j t) t []) := by
  have hdir : isDir f target = true := (isDir_iff _ _).2 (hd target (List.prefix_refl _))
  have := render_ok j (ignored j t) t [] target f ht hdir hfit
  simp only [execute, if_true]
  exact ⟨this.1, this.2.1⟩

/-- Without an ignore file the files that make the template work are not rendered. -/
theorem template_default_ignored (j : Jinja) (t : Tree) (h : t.textOf t!".templateignore" = none) (p : Path) :
    ignored j t p = true ↔ p = [t!"render.py"] ∨ p = [t!"__pycache__"] ∨ p = [t!".templateignore"] := by
  unfold ignored
  rw [h]
  simp [defaultIgnored]

/-! ### violations -/

/-- With an ignore file only its patterns count: `render.py` is copied to the target. -/
theorem template_ignore_file_violated (j : Jinja) (t : Tree) (lines : Text) (h : t.textOf t!".templateignore" = some lines)
    (hg : j.glob lines [t!"render.py"] = false) : ignored j t [t!"render.py"] = false := by
  unfold ignored
  rw [h]
  simp [List.range_succ, hg]

/-- What comes after a preserved directory is not rendered. -/
theorem template_preserve_violated (j : Jinja) (ig : Path → Bool) (n : Text) (cs rest : Tree) (rel d : Path) (f : Disk)
    (hp : cs.hasChild t!".templatepreserve" = true) (hl : leftOut j ig (rel ++ [n]) n = false) :
    render j ig (.dir n cs rest) rel d f = render j ig (.dir n cs .nil) rel d f := by
  simp only [render, left_eq, hl, hp, Bool.false_eq_true, if_false, if_true]

/-! ### examples -/

instance (n : Text) : Decidable (OneName n) := inferInstanceAs (Decidable (_ ∧ _ ∧ _ ∧ _))

instance decTidy (j : Jinja) (ig : Path → Bool) : ∀ t rel, Decidable (TidyTemplate j ig t rel)
  | .nil, _ => isTrue trivial
  | .file n t rest, rel =>
    have := decTidy j ig rest rel
    inferInstanceAs (Decidable (_ ∧ (_ → _ ∧ _ ∧ _)))
  | .dir n cs rest, rel =>
    have := decTidy j ig rest rel
    have := decTidy j ig cs (rel ++ [n])
    inferInstanceAs (Decidable (_ ∧ (_ → _ ∧ _ ∧ _ ∧ _)))

/-- Names and texts as they are, except `X`, which stands for a variable. -/
def exJinja (v : Text) : Jinja := ⟨fun n => if n = t!"X" then v else n, fun t => t ++ v, fun _ _ => false⟩

def exTree : Tree :=
  .file t!"render.py" [] (.file t!"a.txt.tmpl" t!"hello " (.dir t!"X" (.file t!"b" t!"1" .nil) .nil))

def exDisk : Disk := [([t!"w"], .dir), ([t!"w", t!"k"], .file t!"keep")]

example : templateOut (exJinja t!"me") (ignored (exJinja t!"me") exTree) exTree [] =
    [([t!"a.txt"], .file t!"hello me"), ([t!"me"], .dir), ([t!"me", t!"b"], .file t!"1")] := by decide

example : execute (exJinja t!"me") exTree exDisk [t!"t"] [t!"w"] false =
    (exDisk ++ [([t!"w", t!"me"], .dir), ([t!"w", t!"a.txt"], .file t!"hello me"), ([t!"w", t!"me", t!"b"], .file t!"1")], true) := by
  decide

example : TidyTemplate (exJinja t!"me") (ignored (exJinja t!"me") exTree) exTree [] := by decide

example : NewTmp exDisk [t!"t"] [t!"w"] := by
  refine ⟨?_, by decide, by decide⟩
  rintro q ⟨r, rfl⟩
  simp [exDisk, Dict.get]

/-- A rendered name with `..` leaves the target, and the file there is overwritten without `--overwrite`. -/
theorem template_escape_violated : ∃ (j : Jinja) (t : Tree) (f : Disk), NewTmp f [t!"t"] [t!"w"] ∧ DirAt f [t!"w"] ∧
    f.get [t!"w", t!"k"] = some (.file t!"keep") ∧
    (execute j t f [t!"t"] [t!"w"] false).2 = true ∧
    (execute j t f [t!"t"] [t!"w"] false).1.get [t!"w", t!"k"] = some (.file t!"new") := by
  refine ⟨exJinja t!"../w/k", .file t!"X" t!"new" .nil, exDisk, ⟨?_, by decide, by decide⟩, ?_, by decide, by decide, by decide⟩
  · rintro q ⟨r, rfl⟩
    simp [exDisk, Dict.get]
  · rintro p ⟨r, hr⟩
    cases p with
    | nil => exact Or.inl rfl
    | cons x xs => simp at hr; obtain ⟨rfl, rfl, rfl⟩ := hr; exact Or.inr (by decide)

/-- A file whose name is that of an existing directory is put into the directory, over a file there. -/
theorem template_into_directory_violated : ∃ (j : Jinja) (t : Tree) (f : Disk), TidyTemplate j (ignored j t) t [] ∧
    NewTmp f [t!"t"] [t!"w"] ∧ f.get [t!"w", t!"d", t!"d"] = some (.file t!"keep") ∧
    (execute j t f [t!"t"] [t!"w"] false).2 = true ∧
    (execute j t f [t!"t"] [t!"w"] false).1.get [t!"w", t!"d", t!"d"] = some (.file t!"new") := by
  refine ⟨exJinja [], .file t!"d" t!"new" .nil, [([t!"w"], .dir), ([t!"w", t!"d"], .dir), ([t!"w", t!"d", t!"d"], .file t!"keep")],
    ?_, ⟨?_, by decide, by decide⟩, by decide, by decide, by decide⟩
  · decide
  · rintro q ⟨r, rfl⟩
    simp [Dict.get]

/-- Of two files rendered to one name one is lost. -/
theorem template_clash_violated : ∃ (j : Jinja) (t : Tree), NewTmp exDisk [t!"t"] [t!"w"] ∧
    execute j t exDisk [t!"t"] [t!"w"] false = (exDisk ++ [([t!"w", t!"a"], .file t!"2")], true) ∧
    t = .file t!"a" t!"1" (.file t!"X" t!"2" .nil) ∧ j.name t!"X" = t!"a" := by
  refine ⟨exJinja t!"a", _, ⟨?_, by decide, by decide⟩, by decide, rfl, by decide⟩
  rintro q ⟨r, rfl⟩
  simp [exDisk, Dict.get]

end Templates
end Pkm
