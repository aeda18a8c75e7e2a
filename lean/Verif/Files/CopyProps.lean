import Verif.Files.CopyLemmas
set_option linter.unusedVariables false
set_option linter.unusedSimpArgs false
set_option linter.unusedSectionVars false
/-
Properties C26 (rollback) and C27 (success) of copy transactions.
-/
namespace Pkm
open Files Files.FS

variable {C : Type}

namespace Spec

/-- What a step is meant to do to the file system, path by path. -/
def after (empty : C) (f : Path → Option (Node C)) : Call C → Path → Option (Node C)
  -- the directory and the missing directories above it
  | .mkdir target => fun p => if f p = none ∧ p <:+ target then some .dir else f p
  -- the file with the content of the source, and the missing directories above it
  | .copy (.file c) target => fun p =>
    if p = target then some (.file c)
    else if target <:+ p then none
    else if f p = none ∧ p <:+ target then some .dir
    else f p
  | .copy _ _ => f
  -- nothing left at and below the path
  | .rm path => fun p => if path <:+ p then none else f p
  | .touch path really => fun p => if really = true ∧ p = path ∧ f p = none then some (.file empty) else f p
  | .write path c => fun p => if p = path then some (.file c) else f p
  | .fail => f

/-- The path that a step works on. -/
def target : Call C → Option Path
  | .mkdir p | .copy _ p | .rm p | .touch p _ | .write p _ => some p
  | .fail => none

/-- Steps that replace or remove a file. -/
def onFile : Call C → Bool
  | .copy _ _ | .rm _ => true
  | _ => false

/-- Steps that go through the transaction. -/
def tracked : Call C → Bool
  | .mkdir _ | .copy _ _ | .rm _ | .fail => true
  | _ => false

/-- No file is replaced or removed twice, and none lies above another target. -/
def CallsApart (body : List (Call C)) : Prop :=
  body.Pairwise (fun a b => ∀ p q, target a = some p → target b = some q →
    (onFile a = true → ¬ p <:+ q) ∧ (onFile b = true → ¬ q <:+ p))

end Spec
open Spec

namespace Files

theorem good_write {fs : FS C} (hg : Good fs) (x : Text) (p : Path) (c : C) (hn : Dict.get fs (x :: p) ≠ some .dir)
    (hd : fs.isDir p = true) : Good (Dict.put fs (x :: p) (.file c)) := by
  refine ⟨?_, ?_, Dict.wf_put _ _ _ hg.wf⟩
  · intro y q n hq
    rw [Dict.get_put] at hq ⊢
    by_cases e : x :: p = y :: q
    · simp at e
      obtain ⟨rfl, rfl⟩ := e
      rw [if_neg (by intro h; exact not_cons_suffix x p (by rw [h]; exact List.suffix_refl _))]
      exact (isDir_iff _ _).1 hd
    · rw [if_neg e] at hq
      have := hg.tree y q n hq
      rw [if_neg]
      · exact this
      · rintro rfl
        exact hn this
  · rw [Dict.get_put, if_neg (by simp)]
    exact hg.root

theorem step_ok (empty : C) (t t' : Txn C) (hg : Good t.fs) (c : Call C) (h : t.step empty c = .ok t') :
    (∀ p, Dict.get t'.fs p = after empty (Dict.get t.fs) c p) ∧ Good t'.fs := by
  cases c with
  | mkdir p =>
    rcases mkdir_spec t hg p with ⟨t1, e, h1, _, _, h4⟩ | e
    · simp only [Txn.step] at h; rw [e] at h; simp at h; subst h
      exact ⟨h1, h4⟩
    · simp only [Txn.step] at h; rw [e] at h; simp at h
  | copy s p =>
    simp only [Txn.step] at h
    rcases copy_moves t hg p s with ⟨t1, c, e, rfl, m⟩ | ⟨t1, _, _, e, _⟩
    · rw [e] at h; simp at h; subst h
      refine ⟨?_, m.good⟩
      intro q
      rw [m.fs]
      simp only [after, Option.isSome_some, and_true]
      by_cases e1 : q = p
      · simp [e1]
      · simp only [e1, if_false, true_and, ne_eq, not_false_eq_true, and_true]
        by_cases e2 : p <:+ q
        · cases hex : t.fs.ex p with
          | true => simp [e2]
          | false =>
            have hq : Dict.get t.fs q = none := by
              cases e3 : Dict.get t.fs q with
              | none => rfl
              | some n =>
                have := hg.ancestors _ _ e3 p e2 (fun e => e1 e.symm)
                rw [(ex_iff _ _).2 ⟨_, this⟩] at hex; simp at hex
            have hnp : ¬ q <:+ p := fun h' => e1 (h'.eq_of_length_le e2.length_le)
            simp [e2, hq, hnp]
        · simp [e2]
    · rw [e] at h; simp at h
  | rm p =>
    simp only [Txn.step] at h
    rcases rm_moves t hg p with ⟨t1, e, m, _⟩ | e
    · rw [e] at h; simp at h; subst h
      refine ⟨?_, m.good⟩
      intro q
      rw [m.fs]
      simp [after]
    · rw [e] at h; simp at h
  | touch p r =>
    simp only [Txn.step, Txn.touch] at h
    cases r with
    | false => simp at h; subst h; exact ⟨by intro q; simp [after], hg⟩
    | true =>
      simp only [if_true] at h
      unfold Txn.fsTouch at h
      by_cases hex : t.fs.ex p = true
      · simp only [hex, if_true] at h
        simp at h; subst h
        refine ⟨?_, hg⟩
        intro q
        simp only [after]
        rw [if_neg]
        rintro ⟨_, rfl, hq⟩
        obtain ⟨n, hn⟩ := (ex_iff _ _).1 hex
        rw [hn] at hq; simp at hq
      · have hn : Dict.get t.fs p = none := by
          cases e : Dict.get t.fs p with
          | none => rfl
          | some n => exact absurd ((ex_iff _ _).2 ⟨n, e⟩) hex
        simp only [hex, Bool.false_eq_true, if_false] at h
        by_cases hd : t.fs.isDir (parent p) = true
        · simp only [hd, if_true] at h
          simp at h; subst h
          cases p with
          | nil => rw [hg.root] at hn; simp at hn
          | cons x p =>
            refine ⟨?_, good_write hg x p empty (by rw [hn]; simp) hd⟩
            intro q
            dsimp only
            rw [Dict.get_put]
            simp only [after]
            by_cases e : x :: p = q
            · subst e; simp [hn]
            · have : ¬ q = x :: p := fun h => e h.symm
              simp [e, this]
        · simp only [hd, Bool.false_eq_true, if_false] at h
          simp at h
  | write p c =>
    simp only [Txn.step, Txn.write] at h
    by_cases hd : t.fs.isDir p = true
    · simp [hd] at h
    · simp only [hd, Bool.false_eq_true, if_false] at h
      by_cases hp : t.fs.isDir (parent p) = true ∧ p ≠ []
      · rw [if_pos hp] at h
        simp at h; subst h
        cases p with
        | nil => exact absurd rfl hp.2
        | cons x p =>
          refine ⟨?_, good_write hg x p c (fun e => hd ((isDir_iff _ _).2 e)) hp.1⟩
          intro q
          dsimp only
          rw [Dict.get_put]
          simp only [after]
          by_cases e : x :: p = q
          · subst e; simp
          · have : ¬ q = x :: p := fun h => e h.symm
            simp [e, this]
      · rw [if_neg hp] at h; simp at h
  | fail => simp [Txn.step] at h

theorem run_ok (empty : C) : ∀ (body : List (Call C)) (t t' : Txn C), Good t.fs → Txn.run empty body t = .ok t' →
    (∀ p, Dict.get t'.fs p = body.foldl (after empty) (Dict.get t.fs) p) ∧ Good t'.fs := by
  intro body
  induction body with
  | nil => intro t t' hg h; simp [Txn.run] at h; subst h; exact ⟨fun _ => rfl, hg⟩
  | cons c body ih =>
    intro t t' hg h
    unfold Txn.run at h
    cases hs : t.step empty c with
    | raised t1 => rw [hs] at h; simp at h
    | ok t1 =>
      rw [hs] at h
      obtain ⟨h1, h2⟩ := step_ok empty t t1 hg c hs
      obtain ⟨h3, h4⟩ := ih t1 t' h2 h
      refine ⟨?_, h4⟩
      intro p
      rw [h3, List.foldl_cons, show Dict.get t1.fs = after empty (Dict.get t.fs) c from funext h1]

end Files

/-! ## C27 -/

/-- C27: if a transaction ends without exception then the file system is what its steps are meant to make
of it, one after the other, path by path. -/
theorem transaction_success (empty : C) (order : List Path → List Path) (body : List (Call C)) (fs fs' : FS C)
    (hg : Good fs) (h : transaction empty order body fs = (fs', true, true)) (p : Path) :
    Dict.get fs' p = body.foldl (after empty) (Dict.get fs) p := by
  unfold transaction at h
  cases hr : Txn.run empty body ⟨fs, [], []⟩ with
  | ok t =>
    rw [hr] at h
    simp at h; subst h
    exact (run_ok empty body _ _ hg hr).1 p
  | raised t => rw [hr] at h; simp at h

namespace Files

theorem foldl_after_other (empty : C) (p : Path) : ∀ (body : List (Call C)) (f : Path → Option (Node C)) (n : Node C),
    f p = some n → (∀ c ∈ body, ∀ q, target c = some q → (onFile c = true → ¬ q <:+ p) ∧ (onFile c = false → q ≠ p)) →
    body.foldl (after empty) f p = some n := by
  intro body
  induction body with
  | nil => intro f n h _; exact h
  | cons c body ih =>
    intro f n h hc
    rw [List.foldl_cons]
    apply ih
    · have hcc := hc c (by simp)
      cases c with
      | mkdir q => simp [after, h]
      | copy s q =>
        cases s with
        | file c =>
          have hq := (hcc q rfl).1 rfl
          have : p ≠ q := by rintro rfl; exact hq (List.suffix_refl _)
          simp [after, h, hq, this]
        | dir => exact h
        | missing => exact h
      | rm q =>
        have hq := (hcc q rfl).1 rfl
        simp [after, h, hq]
      | touch q r => simp [after, h]
      | write q c =>
        have hq := (hcc q rfl).2 rfl
        have : p ≠ q := fun e => hq e.symm
        simp [after, h, this]
      | fail => exact h
    · intro d hd; exact hc d (by simp [hd])

end Files

/-- C27: a copied file has the content of its source, unless a later step works on it. -/
theorem transaction_copied (empty : C) (order : List Path → List Path) (before later : List (Call C)) (c : C)
    (p : Path) (fs fs' : FS C) (hg : Good fs)
    (h : transaction empty order (before ++ .copy (.file c) p :: later) fs = (fs', true, true))
    (hl : ∀ s ∈ later, ∀ q, target s = some q → (onFile s = true → ¬ q <:+ p) ∧ (onFile s = false → q ≠ p)) :
    Dict.get fs' p = some (.file c) := by
  rw [transaction_success empty order _ fs fs' hg h, List.foldl_append, List.foldl_cons]
  apply foldl_after_other
  · simp [after]
  · exact hl

/-- C27: what lies neither on the way to a target nor below a replaced or removed one is untouched. -/
theorem transaction_untouched (empty : C) (order : List Path → List Path) (body : List (Call C))
    (p : Path) (fs fs' : FS C) (hg : Good fs) (h : transaction empty order body fs = (fs', true, true))
    (hl : ∀ s ∈ body, ∀ q, target s = some q → ¬ p <:+ q ∧ ¬ q <:+ p) :
    Dict.get fs' p = Dict.get fs p := by
  rw [transaction_success empty order _ fs fs' hg h]
  clear h hg
  generalize Dict.get fs = f
  induction body generalizing f with
  | nil => rfl
  | cons c body ih =>
    rw [List.foldl_cons, ih (fun s hs => hl s (by simp [hs]))]
    have hc := hl c (by simp)
    cases c with
    | mkdir q => simp [after, hc q rfl]
    | copy s q =>
      have h1 := hc q rfl
      have : p ≠ q := by rintro rfl; exact h1.1 (List.suffix_refl _)
      cases s <;> simp [after, h1, this]
    | rm q => simp [after, hc q rfl]
    | touch q r =>
      have h1 := hc q rfl
      have : p ≠ q := by rintro rfl; exact h1.1 (List.suffix_refl _)
      simp [after, this]
    | write q c =>
      have h1 := hc q rfl
      have : p ≠ q := by rintro rfl; exact h1.1 (List.suffix_refl _)
      simp [after, this]
    | fail => rfl

/-! ## C26 -/

namespace Files

/-- The paths of which something was moved to the temporary directory. -/
def savedPaths (t : Txn C) : List Path := t.saved.map (·.1)

/-- What holds at every point of a transaction that touches every file at most once. -/
structure RInv (fs0 : FS C) (t : Txn C) : Prop where
  other : ∀ p, p ∉ t.copied → p ∉ savedPaths t → Dict.get t.fs p = Dict.get fs0 p
  fresh : ∀ p, p ∈ t.copied → p ∉ savedPaths t → Dict.get fs0 p = none
  savedFile : ∀ e ∈ t.saved, e.1 ≠ [] ∧ ∃ c, Dict.get fs0 e.1 = some (.file c) ∧ e.2 = [([], .file c)]
  savedNow : ∀ p, p ∈ savedPaths t → Dict.get t.fs p ≠ some .dir ∧ (p ∉ t.copied → Dict.get t.fs p = none)
  nodup : (savedPaths t).Nodup
  good : Good t.fs

theorem subtree_file {fs : FS C} (hg : Good fs) (p : Path) (c : C) (h : Dict.get fs p = some (.file c)) :
    fs.subtree p = [([], .file c)] := by
  have hmem : (p, Node.file c) ∈ fs.filter (fun e => p.isSuffixOf e.1) := by
    rw [List.mem_filter]
    exact ⟨Dict.get_mem _ _ _ h, by simp⟩
  have hkey : ∀ e ∈ fs.filter (fun e => p.isSuffixOf e.1), e.1 = p := by
    intro e he
    rw [List.mem_filter] at he
    obtain ⟨he1, he2⟩ := he
    rw [List.isSuffixOf_iff_suffix] at he2
    cases Decidable.em (p = e.1) with
    | inl e' => exact e'.symm
    | inr e' =>
      exfalso
      have := hg.ancestors _ _ (Dict.mem_get _ _ _ hg.wf he1) p he2 e'
      rw [h] at this; simp at this
  have hnd : ((fs.filter (fun e => p.isSuffixOf e.1)).map (·.1)).Nodup :=
    hg.wf.sublist (List.Sublist.map _ List.filter_sublist)
  have : fs.filter (fun e => p.isSuffixOf e.1) = [(p, .file c)] := by
    generalize fs.filter (fun e => p.isSuffixOf e.1) = l at hmem hkey hnd
    cases l with
    | nil => simp at hmem
    | cons a l =>
      cases l with
      | nil => simp at hmem; rw [hmem]
      | cons b l =>
        exfalso
        have h1 := hkey a (by simp)
        have h2 := hkey b (by simp)
        simp [h1, h2] at hnd
  unfold subtree
  rw [this]
  simp

theorem rinv_moves {fs0 : FS C} {t t' : Txn C} {tg : Path} {rmd mk : Bool} {new : Option (Node C)}
    (h : RInv fs0 t) (m : Moves t t' tg rmd mk new)
    (h1 : rmd = true → tg ∉ t.copied ∧ Dict.get fs0 tg ≠ some .dir)
    (h2 : ∀ q ∈ savedPaths t, ¬ q <:+ tg) (h3 : rmd = true → new ≠ some .dir) :
    RInv fs0 t' := by
  have htg : tg ∉ savedPaths t := fun hm => h2 tg hm (List.suffix_refl _)
  have hsp : ∀ q, q ∈ savedPaths t' ↔ q ∈ savedPaths t ∨ (rmd = true ∧ q = tg) := by
    intro q
    unfold savedPaths
    rw [m.saved]
    cases rmd <;> simp
  -- the target is a file if it is moved away
  have hfile : rmd = true → ∃ c, Dict.get t.fs tg = some (.file c) ∧ Dict.get fs0 tg = some (.file c) := by
    intro hr
    obtain ⟨_, n, hn⟩ := m.removed hr
    have ho := h.other tg (h1 hr).1 htg
    cases n with
    | file c => exact ⟨c, hn, by rw [← ho]; exact hn⟩
    | dir => rw [← ho] at h1; exact absurd hn (h1 hr).2
  -- hence nothing else disappears
  have hrm : ∀ q, q ≠ tg → rmd = true → tg <:+ q → Dict.get t.fs q = none := by
    intro q hq hr hs
    obtain ⟨c, hc, _⟩ := hfile hr
    cases e : Dict.get t.fs q with
    | none => rfl
    | some n =>
      have := h.good.ancestors _ _ e tg hs (fun e => hq e.symm)
      rw [hc] at this; simp at this
  have hfs : ∀ q, q ≠ tg → Dict.get t'.fs q =
      if mk = true ∧ Dict.get t.fs q = none ∧ q <:+ tg then some .dir else Dict.get t.fs q := by
    intro q hq
    rw [m.fs, if_neg (by simp [hq])]
    by_cases hc : rmd = true ∧ tg <:+ q
    · rw [if_pos hc, hrm q hq hc.1 hc.2, if_neg]
      rintro ⟨_, _, hs⟩
      exact hq (hs.eq_of_length_le hc.2.length_le)
    · rw [if_neg hc]
      simp [hq]
  refine ⟨?_, ?_, ?_, ?_, ?_, m.good⟩
  · intro q hc hs
    rw [m.copied] at hc
    rw [hsp] at hs
    simp only [not_or] at hc hs
    by_cases hq : q = tg
    · subst hq
      rw [m.fs, if_neg hc.2.1, if_neg (by intro hh; exact hs.2 ⟨hh.1, rfl⟩), if_neg (by simp)]
      exact h.other q hc.1 hs.1
    · rw [hfs q hq, if_neg]
      · exact h.other q hc.1 hs.1
      · rintro ⟨a, b, c⟩
        exact hc.2.2 ⟨a, b, c, hq⟩
  · intro q hc hs
    rw [m.copied] at hc
    rw [hsp] at hs
    simp only [not_or] at hs
    by_cases hqc : q ∈ t.copied
    · exact h.fresh q hqc hs.1
    · rw [← h.other q hqc hs.1]
      rcases hc with hc | ⟨rfl, hn⟩ | ⟨_, hn, _⟩
      · exact absurd hc hqc
      · rcases (m.created hn).2 with h' | h'
        · exact h'
        · exact absurd ⟨h', rfl⟩ hs.2
      · exact hn
  · intro e he
    rw [m.saved] at he
    rcases List.mem_append.1 he with he | he
    · exact h.savedFile e he
    · cases hr : rmd with
      | false => rw [hr] at he; simp at he
      | true =>
        rw [hr] at he
        simp at he; subst he
        obtain ⟨c, hc1, hc2⟩ := hfile hr
        exact ⟨(m.removed hr).1, c, hc2, subtree_file h.good tg c hc1⟩
  · intro q hq
    rw [hsp] at hq
    by_cases hqt : q = tg
    · subst hqt
      rcases hq with hq | ⟨hr, _⟩
      · exact absurd hq htg
      · rw [m.fs]
        cases hn : new with
        | none =>
          rw [if_neg (by simp), if_pos ⟨hr, List.suffix_refl _⟩]
          simp
        | some n =>
          rw [if_pos (by simp)]
          refine ⟨?_, fun hc => absurd ((m.copied q).2 (Or.inr (Or.inl ⟨rfl, by simp [hn]⟩))) hc⟩
          rw [← hn]; exact h3 hr
    · have hq' : q ∈ savedPaths t := by
        rcases hq with h | ⟨_, h⟩
        · exact h
        · exact absurd h hqt
      rw [hfs q hqt, if_neg (fun hh => h2 q hq' hh.2.2)]
      refine ⟨(h.savedNow q hq').1, ?_⟩
      intro hc
      apply (h.savedNow q hq').2
      intro hc'
      exact hc ((m.copied q).2 (Or.inl hc'))
  · unfold savedPaths
    rw [m.saved]
    cases hr : rmd with
    | false => simpa [savedPaths] using h.nodup
    | true =>
      simp only [if_true, List.map_append, List.map_cons, List.map_nil]
      rw [List.nodup_append]
      refine ⟨h.nodup, by simp, ?_⟩
      intro a ha b hb e
      simp at hb
      subst hb; subst e
      exact htg ha

/-- The targets of the steps so far. -/
structure Seen (done : List (Call C)) (t : Txn C) : Prop where
  copied : ∀ p ∈ t.copied, ∃ c ∈ done, ∃ q, target c = some q ∧ p <:+ q
  saved : ∀ p ∈ savedPaths t, ∃ c ∈ done, onFile c = true ∧ target c = some p

theorem seen_moves {done : List (Call C)} {t t' : Txn C} {tg : Path} {rmd mk : Bool} {new : Option (Node C)}
    (h : Seen done t) (m : Moves t t' tg rmd mk new) (c : Call C) (hc : target c = some tg)
    (hf : rmd = true → onFile c = true) : Seen (done ++ [c]) t' := by
  constructor
  · intro p hp
    rw [m.copied] at hp
    rcases hp with hp | ⟨rfl, _⟩ | ⟨_, _, hp, _⟩
    · obtain ⟨d, hd, q, h1, h2⟩ := h.copied p hp
      exact ⟨d, by simp [hd], q, h1, h2⟩
    · exact ⟨c, by simp, p, hc, List.suffix_refl _⟩
    · exact ⟨c, by simp, tg, hc, hp⟩
  · intro p hp
    unfold savedPaths at hp
    rw [m.saved, List.map_append, List.mem_append] at hp
    rcases hp with hp | hp
    · obtain ⟨d, hd, h1⟩ := h.saved p hp
      exact ⟨d, by simp [hd], h1⟩
    · cases hr : rmd with
      | false => rw [hr] at hp; simp at hp
      | true =>
        rw [hr] at hp
        simp at hp; subst hp
        exact ⟨c, by simp, hf hr, hc⟩

/-- The state that a step leaves, with or without exception. -/
def Out.state {A : Type} : Out A → A
  | .ok a => a
  | .raised a => a

theorem step_rinv (empty : C) {fs0 : FS C} {done : List (Call C)} {t : Txn C} (h : RInv fs0 t) (hs : Seen done t)
    (c : Call C) (ht : tracked c = true)
    (ha : ∀ d ∈ done, ∀ p q, target d = some p → target c = some q →
      (onFile d = true → ¬ p <:+ q) ∧ (onFile c = true → ¬ q <:+ p))
    (hd : onFile c = true → ∀ q, target c = some q → Dict.get fs0 q ≠ some .dir) :
    RInv fs0 (t.step empty c).state ∧ Seen (done ++ [c]) (t.step empty c).state := by
  have key : ∀ (t' : Txn C) (tg : Path) (rmd mk : Bool) (new : Option (Node C)), Moves t t' tg rmd mk new →
      target c = some tg → (rmd = true → onFile c = true ∧ new ≠ some .dir) →
      RInv fs0 t' ∧ Seen (done ++ [c]) t' := by
    intro t' tg rmd mk new m htg hf
    refine ⟨rinv_moves h m ?_ ?_ (fun hr => (hf hr).2), seen_moves hs m c htg (fun hr => (hf hr).1)⟩
    · intro hr
      refine ⟨?_, hd (hf hr).1 tg htg⟩
      intro hc
      obtain ⟨d, hd1, q, h1, h2⟩ := hs.copied tg hc
      exact (ha d hd1 q tg h1 htg).2 (hf hr).1 h2
    · intro q hq
      obtain ⟨d, hd1, h1, h2⟩ := hs.saved q hq
      exact (ha d hd1 q tg h2 htg).1 h1
  have same : RInv fs0 t ∧ Seen (done ++ [c]) t := by
    refine ⟨h, ?_, ?_⟩
    · intro p hp
      obtain ⟨d, hd, h1⟩ := hs.copied p hp
      exact ⟨d, by simp [hd], h1⟩
    · intro p hp
      obtain ⟨d, hd, h1⟩ := hs.saved p hp
      exact ⟨d, by simp [hd], h1⟩
  cases c with
  | mkdir p =>
    simp only [Txn.step]
    rcases mkdir_moves t h.good p with ⟨t', e, m⟩ | e
    · rw [e]; exact key _ _ _ _ _ m rfl (by simp)
    · rw [e]; exact same
  | copy s p =>
    simp only [Txn.step]
    rcases copy_moves t h.good p s with ⟨t', c, e, rfl, m⟩ | ⟨t', _, _, e, m⟩
    · rw [e]; exact key _ _ _ _ _ m rfl (fun _ => ⟨rfl, by simp⟩)
    · rw [e]; exact key _ _ _ _ _ m rfl (fun _ => ⟨rfl, by simp⟩)
  | rm p =>
    simp only [Txn.step]
    rcases rm_moves t h.good p with ⟨t', e, m, _⟩ | e
    · rw [e]; exact key _ _ _ _ _ m rfl (fun _ => ⟨rfl, by simp⟩)
    · rw [e]; exact same
  | touch => simp [tracked] at ht
  | write => simp [tracked] at ht
  | fail => exact same

theorem run_rinv (empty : C) {fs0 : FS C} : ∀ (body done : List (Call C)) (t : Txn C), RInv fs0 t → Seen done t →
    (∀ c ∈ body, tracked c = true) → CallsApart (done ++ body) →
    (∀ c ∈ body, onFile c = true → ∀ q, target c = some q → Dict.get fs0 q ≠ some .dir) →
    RInv fs0 (Txn.run empty body t).state ∧ Seen (done ++ body) (Txn.run empty body t).state := by
  intro body
  induction body with
  | nil => intro done t h hs _ _ _; exact ⟨h, by simpa [Txn.run, Out.state] using hs⟩
  | cons c body ih =>
    intro done t h hs ht ha hd
    have ha' := ha
    unfold CallsApart at ha
    rw [List.pairwise_append] at ha
    have hst := step_rinv empty h hs c (ht c (by simp)) (fun d hd' p q h1 h2 => ha.2.2 d hd' c (by simp) p q h1 h2)
      (hd c (by simp))
    unfold Txn.run
    cases e : t.step empty c with
    | raised t' =>
      rw [e] at hst
      refine ⟨hst.1, ?_, ?_⟩
      · intro p hp
        obtain ⟨d, hd, h1⟩ := hst.2.copied p hp
        exact ⟨d, by simp at hd ⊢; rcases hd with h | h <;> simp [h], h1⟩
      · intro p hp
        obtain ⟨d, hd, h1⟩ := hst.2.saved p hp
        exact ⟨d, by simp at hd ⊢; rcases hd with h | h <;> simp [h], h1⟩
    | ok t' =>
      rw [e] at hst
      have := ih (done ++ [c]) t' hst.1 hst.2 (fun d hd => ht d (by simp [hd])) (by simpa using ha')
        (fun d hd' => hd d (by simp [hd']))
      simpa using this

theorem unlinkFiles_spec : ∀ (files : List Path) (fs : FS C), Good fs →
    (∀ p, Dict.get (unlinkFiles files fs) p =
      if p ∈ files ∧ fs.isDir p = false then none else Dict.get fs p) ∧ Good (unlinkFiles files fs) := by
  intro files
  induction files with
  | nil => intro fs hg; simp [unlinkFiles, hg]
  | cons f files ih =>
    intro fs hg
    unfold unlinkFiles
    rw [List.foldl_cons]
    change (∀ p, Dict.get (unlinkFiles files _) p = _) ∧ Good (unlinkFiles files _)
    by_cases hd : fs.isDir f = true
    · rw [if_pos hd]
      obtain ⟨h1, h2⟩ := ih fs hg
      refine ⟨?_, h2⟩
      intro p
      rw [h1]
      by_cases e : p = f
      · subst e; simp [hd]
      · simp [e]
    · rw [if_neg hd]
      have hdf := Bool.eq_false_iff.2 hd
      rw [isDir_iff] at hd
      have hg' : Good (Dict.del fs f) := by
        refine ⟨tree_del_file _ _ hg.tree hd, ?_, Dict.wf_del _ _ hg.wf⟩
        rw [Dict.get_del, if_neg]
        · exact hg.root
        · rintro rfl; exact hd hg.root
      obtain ⟨h1, h2⟩ := ih _ hg'
      refine ⟨?_, h2⟩
      intro p
      have hsame : ¬ f = p → isDir (Dict.del fs f) p = fs.isDir p := by
        intro e
        unfold isDir
        rw [Dict.get_del, if_neg e]
      by_cases e : f = p
      · subst e
        have : Dict.get (unlinkFiles files (Dict.del fs f)) f = none := by rw [h1, Dict.get_del]; simp
        simp [hdf, this]
      · have e' : ¬ p = f := fun h => e h.symm
        have : Dict.get (unlinkFiles files (Dict.del fs f)) p =
            if p ∈ files ∧ fs.isDir p = false then none else Dict.get fs p := by
          rw [h1, hsame e, Dict.get_del, if_neg e]
        simp only [this, List.mem_cons, e', false_or]

theorem removeEmpty_spec : ∀ (files : List Path) (fs : FS C), Good fs → [] ∉ files →
    (∀ p, Dict.get (removeEmpty files fs) p = Dict.get fs p ∨
      (p ∈ files ∧ Dict.get fs p = some .dir ∧ Dict.get (removeEmpty files fs) p = none)) ∧
    Good (removeEmpty files fs) := by
  intro files
  induction files with
  | nil => intro fs hg _; simp [removeEmpty, hg]
  | cons f files ih =>
    intro fs hg hr
    simp only [List.mem_cons, not_or] at hr
    unfold removeEmpty
    rw [List.foldl_cons]
    change (∀ p, Dict.get (removeEmpty files _) p = _ ∨ (_ ∧ _ ∧ Dict.get (removeEmpty files _) p = _)) ∧
      Good (removeEmpty files _)
    by_cases hd : fs.isEmptyDir f = true
    · rw [if_pos hd]
      rw [isEmptyDir_iff] at hd
      have hg' : Good (Dict.del fs f) := by
        refine ⟨tree_del_empty _ _ hg.tree hd.2, ?_, Dict.wf_del _ _ hg.wf⟩
        rw [Dict.get_del, if_neg]
        · exact hg.root
        · exact fun h => hr.1 h.symm
      obtain ⟨h1, h2⟩ := ih _ hg' hr.2
      refine ⟨?_, h2⟩
      intro p
      by_cases e : f = p
      · subst e
        right
        refine ⟨by simp, hd.1, ?_⟩
        rcases h1 f with h | ⟨_, h, _⟩
        · rw [h, Dict.get_del]; simp
        · rw [Dict.get_del] at h; simp at h
      · have h := h1 p
        rw [Dict.get_del, if_neg e] at h
        rcases h with h | ⟨a, b, c⟩
        · exact Or.inl h
        · exact Or.inr ⟨by simp [a], b, c⟩
    · rw [if_neg hd]
      obtain ⟨h1, h2⟩ := ih _ hg hr.2
      refine ⟨?_, h2⟩
      intro p
      rcases h1 p with h | ⟨a, b, c⟩
      · exact Or.inl h
      · exact Or.inr ⟨by simp [a], b, c⟩

/-- Children before parents: directories with nothing but visited directories below them go. -/
theorem removeEmpty_all (S : Path → Prop) : ∀ (files : List Path) (fs : FS C), Good fs → [] ∉ files →
    files.Pairwise (fun a b => ¬ a <:+ b) →
    (∀ p, S p → ∀ x, S (x :: p)) →
    (∀ p, S p → Dict.get fs p = none ∨ (p ∈ files ∧ Dict.get fs p = some .dir)) →
    ∀ p, S p → Dict.get (removeEmpty files fs) p = none := by
  intro files
  induction files with
  | nil => intro fs _ _ _ _ h p hp; simpa [removeEmpty] using h p hp
  | cons f files ih =>
    intro fs hg hr hpw hS h p hp
    simp only [List.mem_cons, not_or] at hr
    rw [List.pairwise_cons] at hpw
    unfold removeEmpty
    rw [List.foldl_cons]
    change Dict.get (removeEmpty files _) p = none
    by_cases hf : S f ∧ Dict.get fs f = some .dir
    · have hd : fs.isEmptyDir f = true := by
        rw [isEmptyDir_iff]
        refine ⟨hf.2, ?_⟩
        intro x
        rcases h (x :: f) (hS f hf.1 x) with h' | ⟨h', _⟩
        · exact h'
        · simp only [List.mem_cons] at h'
          rcases h' with h' | h'
          · exact absurd (by rw [h']; exact List.suffix_refl _) (not_cons_suffix x f)
          · exact absurd (List.suffix_cons x f) (hpw.1 _ h')
      rw [if_pos hd]
      rw [isEmptyDir_iff] at hd
      have hg' : Good (Dict.del fs f) := by
        refine ⟨tree_del_empty _ _ hg.tree hd.2, ?_, Dict.wf_del _ _ hg.wf⟩
        rw [Dict.get_del, if_neg]
        · exact hg.root
        · exact fun h => hr.1 h.symm
      apply ih _ hg' hr.2 hpw.2 hS _ p hp
      intro q hq
      rw [Dict.get_del]
      by_cases e : f = q
      · simp [e]
      · simp only [e, if_false]
        rcases h q hq with h' | ⟨h', h2⟩
        · exact Or.inl h'
        · simp only [List.mem_cons] at h'
          rcases h' with h' | h'
          · exact absurd h'.symm e
          · exact Or.inr ⟨h', h2⟩
    · have hq' : ∀ q, S q → Dict.get fs q = none ∨ (q ∈ files ∧ Dict.get fs q = some .dir) := by
        intro q hq
        rcases h q hq with h' | ⟨h', h2⟩
        · exact Or.inl h'
        · simp only [List.mem_cons] at h'
          rcases h' with rfl | h'
          · exact absurd ⟨hq, h2⟩ hf
          · exact Or.inr ⟨h', h2⟩
      by_cases hd : fs.isEmptyDir f = true
      · rw [if_pos hd]
        rw [isEmptyDir_iff] at hd
        have hg' : Good (Dict.del fs f) := by
          refine ⟨tree_del_empty _ _ hg.tree hd.2, ?_, Dict.wf_del _ _ hg.wf⟩
          rw [Dict.get_del, if_neg]
          · exact hg.root
          · exact fun h => hr.1 h.symm
        apply ih _ hg' hr.2 hpw.2 hS _ p hp
        intro q hq
        rw [Dict.get_del]
        by_cases e : f = q
        · simp [e]
        · simp only [e, if_false]; exact hq' q hq
      · rw [if_neg hd]
        exact ih _ hg hr.2 hpw.2 hS hq' p hp

theorem moveAllBack_spec (fs0 : FS C) : ∀ (saved : List (Path × FS C)) (i : Nat) (fs : FS C), Good fs →
    (∀ e ∈ saved, e.1 ≠ [] ∧ ∃ c, Dict.get fs0 e.1 = some (.file c) ∧ e.2 = [([], .file c)]) →
    (∀ e ∈ saved, Dict.get fs e.1 = none ∧ Dict.get fs (parent e.1) = some .dir) →
    (saved.map (·.1)).Nodup →
    (moveAllBack i saved fs).2 = true ∧ ∀ p, Dict.get (moveAllBack i saved fs).1 p =
      if p ∈ saved.map (·.1) then Dict.get fs0 p else Dict.get fs p := by
  intro saved
  induction saved with
  | nil => intro i fs hg _ _ _; simp [moveAllBack]
  | cons e saved ih =>
    intro i fs hg h1 h2 hnd
    obtain ⟨p, tree⟩ := e
    obtain ⟨hp, c, hc, ht⟩ := h1 (p, tree) (by simp)
    obtain ⟨hn, hpar⟩ := h2 (p, tree) (by simp)
    simp only at hp hc ht hn hpar
    subst ht
    simp only [List.map_cons, List.nodup_cons] at hnd
    cases p with
    | nil => exact absurd rfl hp
    | cons x p =>
      have hd : fs.isDir (x :: p) = false := by
        rw [Bool.eq_false_iff, ne_eq, isDir_iff, hn]; simp
      have hpd : fs.isDir p = true := (isDir_iff _ _).2 hpar
      have hex : fs.ex (x :: p) = false := by
        rw [Bool.eq_false_iff, ne_eq, ex_iff, hn]; simp
      have hm : moveBack fs i (x :: p) [([], Node.file c)] = some (Dict.put (Dict.del fs (x :: p)) (x :: p) (.file c)) := by
        unfold moveBack
        simp [hd, hex, parent, hpd, graft]
      unfold moveAllBack
      rw [hm]
      dsimp only
      have hdel : ∀ q, Dict.get (Dict.del fs (x :: p)) q = Dict.get fs q := by
        intro q
        rw [Dict.get_del]
        by_cases e : x :: p = q
        · simp [← e, hn]
        · simp [e]
      have hgd : Good (Dict.del fs (x :: p)) := by
        refine ⟨?_, by rw [hdel]; exact hg.root, Dict.wf_del _ _ hg.wf⟩
        intro y q n
        rw [hdel, hdel]
        exact hg.tree y q n
      have hg' := good_put_file hgd x p c (by rw [hdel]; exact hn) ((isDir_iff _ _).2 (by rw [hdel]; exact hpar))
      obtain ⟨h3, h4⟩ := ih (i + 1) _ hg' (fun e he => h1 e (by simp [he]))
        (by
          intro e he
          obtain ⟨a, b⟩ := h2 e (by simp [he])
          rw [Dict.get_put, Dict.get_put, hdel, hdel]
          rw [if_neg, if_neg]
          · exact ⟨a, b⟩
          · rintro e'; rw [← e', hn] at b; simp at b
          · rintro e'
            exact hnd.1 (List.mem_map.2 ⟨e, he, e'.symm⟩))
        hnd.2
      refine ⟨h3, ?_⟩
      intro q
      rw [h4, Dict.get_put, hdel]
      by_cases e : x :: p = q
      · subst e
        rw [if_neg hnd.1]
        simp [hc]
      · have e' : ¬ q = x :: p := fun h => e h.symm
        simp only [e, if_false, List.map_cons, List.mem_cons, e', false_or]

/-- The state before the moves back. -/
theorem rollback_state {fs0 : FS C} (hg0 : Good fs0) {t : Txn C} (h : RInv fs0 t) (order : List Path → List Path)
    (hord : ∀ l p, p ∈ order l ↔ p ∈ l) :
    (t.rollback order).2 = true ∧
    (∀ p, Dict.get (t.rollback order).1 p = Dict.get fs0 p ∨
      (p ∈ t.copied ∧ Dict.get fs0 p = none ∧ Dict.get (t.rollback order).1 p = some .dir)) ∧
    ((order t.copied).Pairwise (fun a b => ¬ a <:+ b) →
      ∀ p, Dict.get (t.rollback order).1 p = Dict.get fs0 p) := by
  obtain ⟨hu, hug⟩ := unlinkFiles_spec (order t.copied) t.fs h.good
  have hroot : [] ∉ order t.copied := by
    rw [hord]
    intro hc
    by_cases hs : [] ∈ savedPaths t
    · unfold savedPaths at hs
      obtain ⟨e, he, h1⟩ := List.mem_map.1 hs
      exact (h.savedFile e he).1 h1
    · have := h.fresh [] hc hs
      rw [hg0.root] at this; simp at this
  obtain ⟨he, heg⟩ := removeEmpty_spec (order t.copied) _ hug hroot
  have hse : ∀ p, p ∈ savedPaths t → ∃ c, Dict.get fs0 p = some (.file c) := by
    intro p hp
    unfold savedPaths at hp
    obtain ⟨e, h1, rfl⟩ := List.mem_map.1 hp
    obtain ⟨_, c, h2, _⟩ := h.savedFile e h1
    exact ⟨c, h2⟩
  -- unlinked
  have hU : ∀ p, p ∈ savedPaths t → Dict.get (unlinkFiles (order t.copied) t.fs) p = none := by
    intro p hp
    rw [hu]
    obtain ⟨h1, h2⟩ := h.savedNow p hp
    by_cases hc : p ∈ t.copied
    · rw [if_pos ⟨(hord _ _).2 hc, by rw [Bool.eq_false_iff, ne_eq, isDir_iff]; exact h1⟩]
    · rw [if_neg (by rw [hord]; simp [hc])]
      exact h2 hc
  have hU2 : ∀ p, p ∉ savedPaths t → p ∉ t.copied →
      Dict.get (unlinkFiles (order t.copied) t.fs) p = Dict.get fs0 p := by
    intro p hs hc
    rw [hu, if_neg (by rw [hord]; simp [hc])]
    exact h.other p hc hs
  have hU3 : ∀ p, p ∈ t.copied → Dict.get (unlinkFiles (order t.copied) t.fs) p = none ∨
      Dict.get (unlinkFiles (order t.copied) t.fs) p = some .dir := by
    intro p hc
    rw [hu]
    by_cases hd : Dict.get t.fs p = some .dir
    · right; rw [if_neg]
      · exact hd
      · rw [(isDir_iff _ _).2 hd]; simp
    · left; rw [if_pos ⟨(hord _ _).2 hc, by rw [Bool.eq_false_iff, ne_eq, isDir_iff]; exact hd⟩]
  -- empty directories removed
  have hE : ∀ p, p ∈ savedPaths t → Dict.get (removeEmpty (order t.copied) (unlinkFiles (order t.copied) t.fs)) p = none := by
    intro p hp
    rcases he p with h1 | ⟨_, _, h1⟩
    · rw [h1]; exact hU p hp
    · exact h1
  have hE2 : ∀ p, p ∉ savedPaths t → p ∉ t.copied →
      Dict.get (removeEmpty (order t.copied) (unlinkFiles (order t.copied) t.fs)) p = Dict.get fs0 p := by
    intro p hs hc
    rcases he p with h1 | ⟨h1, _, _⟩
    · rw [h1]; exact hU2 p hs hc
    · exact absurd ((hord _ _).1 h1) hc
  have hE3 : ∀ p, p ∈ t.copied →
      Dict.get (removeEmpty (order t.copied) (unlinkFiles (order t.copied) t.fs)) p = none ∨
      Dict.get (removeEmpty (order t.copied) (unlinkFiles (order t.copied) t.fs)) p = some .dir := by
    intro p hc
    rcases he p with h1 | ⟨_, _, h1⟩
    · rw [h1]; exact hU3 p hc
    · exact Or.inl h1
  obtain ⟨hm1, hm2⟩ := moveAllBack_spec fs0 t.saved 0 _ heg h.savedFile
    (by
      intro e hmem
      have hp : e.1 ∈ savedPaths t := List.mem_map.2 ⟨e, hmem, rfl⟩
      refine ⟨hE e.1 hp, ?_⟩
      obtain ⟨hne, c, hc, _⟩ := h.savedFile e hmem
      cases hpe : e.1 with
      | nil => exact absurd hpe hne
      | cons x q =>
        rw [hpe] at hc
        have hq := hg0.tree x q _ hc
        have hqs : q ∉ savedPaths t := by
          intro hq'
          obtain ⟨c', hc'⟩ := hse q hq'
          rw [hq] at hc'; simp at hc'
        have hqc : q ∉ t.copied := by
          intro hq'
          rw [h.fresh q hq' hqs] at hq; simp at hq
        simp only [parent]
        rw [show Dict.get _ q = _ from hE2 q hqs hqc]
        exact hq)
    h.nodup
  refine ⟨hm1, ?_, ?_⟩
  · intro p
    unfold Txn.rollback
    rw [hm2]
    by_cases hs : p ∈ t.saved.map (·.1)
    · rw [if_pos hs]; exact Or.inl rfl
    · rw [if_neg hs]
      by_cases hc : p ∈ t.copied
      · have hf := h.fresh p hc hs
        rcases hE3 p hc with h1 | h1
        · left; rw [h1, hf]
        · right; exact ⟨hc, hf, h1⟩
      · exact Or.inl (hE2 p hs hc)
  · intro hpw p
    unfold Txn.rollback
    rw [hm2]
    by_cases hs : p ∈ t.saved.map (·.1)
    · rw [if_pos hs]
    · rw [if_neg hs]
      by_cases hc : p ∈ t.copied
      · have hf := h.fresh p hc hs
        rw [hf]
        apply removeEmpty_all (fun p => Dict.get fs0 p = none) _ _ hug hroot hpw _ _ p hf
        · intro p hp x
          cases e : Dict.get fs0 (x :: p) with
          | none => rfl
          | some n => have := hg0.tree x p n e; rw [hp] at this; simp at this
        · intro q hq
          have hqs : q ∉ savedPaths t := by
            intro hq'
            obtain ⟨c', hc'⟩ := hse q hq'
            rw [hq] at hc'; simp at hc'
          by_cases hqc : q ∈ t.copied
          · rcases hU3 q hqc with h' | h'
            · exact Or.inl h'
            · exact Or.inr ⟨(hord _ _).2 hqc, h'⟩
          · left; rw [hU2 q hqs hqc]; exact hq
      · exact hE2 p hs hc

theorem rinv_start {fs0 : FS C} (hg0 : Good fs0) : RInv fs0 ⟨fs0, [], []⟩ :=
  ⟨by simp, by simp, by simp, by simp [savedPaths], by simp [savedPaths], hg0⟩

end Files

/-- C26: full statement: a transaction whose body raises leaves the file system as it was. Proved for
bodies of `mkdir`, `copy` and `rm` steps (with exceptions at any point) that touch no file twice and
overwrite no directory, if the set of created paths is iterated children first. -/
theorem rollback_exact_partial (empty : C) (order : List Path → List Path) (hord : ∀ l p, p ∈ order l ↔ p ∈ l)
    (hdeep : ∀ l, (order l).Pairwise (fun a b => ¬ a <:+ b))
    (body : List (Call C)) (fs fs' : FS C) (ok : Bool) (hg : Good fs)
    (ht : ∀ c ∈ body, tracked c = true) (ha : CallsApart body)
    (hd : ∀ c ∈ body, onFile c = true → ∀ q, target c = some q → Dict.get fs q ≠ some .dir)
    (h : transaction empty order body fs = (fs', false, ok)) :
    ok = true ∧ ∀ p, Dict.get fs' p = Dict.get fs p := by
  have hr := run_rinv empty body [] _ (rinv_start hg) ⟨by simp, by simp [savedPaths]⟩ ht (by simpa using ha) hd
  unfold transaction at h
  cases e : Txn.run empty body ⟨fs, [], []⟩ with
  | ok t => rw [e] at h; simp at h
  | raised t =>
    rw [e] at h hr
    simp at h
    obtain ⟨rfl, rfl⟩ := h
    obtain ⟨h1, _, h3⟩ := rollback_state hg hr.1 order hord
    exact ⟨h1, h3 (hdeep _)⟩

/-- C26: for any iteration order: everything is back, and what is there besides is a directory made by the
transaction. -/
theorem rollback_restores_partial (empty : C) (order : List Path → List Path) (hord : ∀ l p, p ∈ order l ↔ p ∈ l)
    (body : List (Call C)) (fs fs' : FS C) (ok : Bool) (hg : Good fs)
    (ht : ∀ c ∈ body, tracked c = true) (ha : CallsApart body)
    (hd : ∀ c ∈ body, onFile c = true → ∀ q, target c = some q → Dict.get fs q ≠ some .dir)
    (h : transaction empty order body fs = (fs', false, ok)) :
    ok = true ∧ ∀ p, Dict.get fs' p = Dict.get fs p ∨ (Dict.get fs p = none ∧ Dict.get fs' p = some .dir ∧
      ∃ c ∈ body, ∃ q, target c = some q ∧ p <:+ q) := by
  have hr := run_rinv empty body [] _ (rinv_start hg) ⟨by simp, by simp [savedPaths]⟩ ht (by simpa using ha) hd
  unfold transaction at h
  cases e : Txn.run empty body ⟨fs, [], []⟩ with
  | ok t => rw [e] at h; simp at h
  | raised t =>
    rw [e] at h hr
    simp at h
    obtain ⟨rfl, rfl⟩ := h
    obtain ⟨h1, h2, _⟩ := rollback_state hg hr.1 order hord
    refine ⟨h1, ?_⟩
    intro p
    rcases h2 p with h | ⟨hc, hn, hd⟩
    · exact Or.inl h
    · refine Or.inr ⟨hn, hd, ?_⟩
      simpa using hr.2.copied p hc


/-! ### copy_tree -/

namespace Spec

/-- The file at a relative path of a source directory, all of whose parents and itself are accepted. -/
inductive FileAt (accept : Path → Bool) : Path → Sources C → Path → C → Prop where
  | file {sp name c rest} : accept (name :: sp) = true → FileAt accept sp (.cons name (.file c) rest) [name] c
  | dir {sp name es rest r c} : accept (name :: sp) = true → FileAt accept (name :: sp) es r c →
      FileAt accept sp (.cons name (.dir es) rest) (r ++ [name]) c
  | later {sp name s rest r c} : FileAt accept sp rest r c → FileAt accept sp (.cons name s rest) r c

/-- The names of the entries of a directory. -/
def names : Sources C → List Text
  | .nil => []
  | .cons name _ rest => name :: names rest

/-- Every directory of the tree has distinct names. -/
def Distinct : Sources C → Prop
  | .nil => True
  | .cons name (.dir es) rest => name ∉ names rest ∧ Distinct es ∧ Distinct rest
  | .cons name (.file _) rest => name ∉ names rest ∧ Distinct rest

end Spec

namespace Files

theorem copyEntries_targets (accept : Path → Bool) : ∀ (es : Sources C) (sp tg : Path),
    ∀ c ∈ copyEntries accept none sp tg es,
      tracked c = true ∧ ∃ name ∈ names es, ∃ r, target c = some (r ++ name :: tg)
  | .nil, sp, tg, c, hc => by simp [copyEntries] at hc
  | .cons name (.dir es) rest, sp, tg, c, hc => by
    rw [copyEntries] at hc
    rcases List.mem_append.1 hc with hc | hc
    · split at hc
      · rcases List.mem_cons.1 hc with rfl | hc
        · exact ⟨rfl, name, by simp [names], [], rfl⟩
        · obtain ⟨h1, n, _, r, h3⟩ := copyEntries_targets accept es _ _ c hc
          exact ⟨h1, name, by simp [names], r ++ [n], by simp [h3]⟩
      · simp at hc
    · obtain ⟨h1, n, h2, r, h3⟩ := copyEntries_targets accept rest _ _ c hc
      exact ⟨h1, n, by simp [names, h2], r, h3⟩
  | .cons name (.file d) rest, sp, tg, c, hc => by
    rw [copyEntries] at hc
    rcases List.mem_append.1 hc with hc | hc
    · split at hc
      · simp at hc
        subst hc
        exact ⟨rfl, name, by simp [names], [], rfl⟩
      · simp at hc
    · obtain ⟨h1, n, h2, r, h3⟩ := copyEntries_targets accept rest _ _ c hc
      exact ⟨h1, n, by simp [names, h2], r, h3⟩

theorem suffix_name {a b : Text} {r s tg : Path} (h : r ++ a :: tg <:+ s ++ b :: tg) : a = b := by
  obtain ⟨u, hu⟩ := h
  have h1 : (u ++ r ++ [a]) ++ tg = (s ++ [b]) ++ tg := by simpa using hu
  have h2 := List.append_cancel_right h1
  have h3 := congrArg List.getLast? h2
  simpa using h3

theorem names_apart {a b : Text} (hne : a ≠ b) {c d : Call C} {r s tg p q : Path}
    (hc : target c = some (r ++ a :: tg)) (hd : target d = some (s ++ b :: tg)) (hp : target c = some p)
    (hq : target d = some q) : ¬ p <:+ q ∧ ¬ q <:+ p := by
  rw [hc] at hp; rw [hd] at hq
  simp at hp hq; subst hp; subst hq
  exact ⟨fun h => hne (suffix_name h), fun h => hne (suffix_name h).symm⟩

theorem copyEntries_apart (accept : Path → Bool) : ∀ (es : Sources C) (sp tg : Path), Distinct es →
    CallsApart (copyEntries accept none sp tg es)
  | .nil, sp, tg, _ => by simp [copyEntries, CallsApart]
  | .cons name (.dir es) rest, sp, tg, h => by
    rw [copyEntries]
    obtain ⟨h1, h2, h3⟩ := h
    have ih1 := copyEntries_apart accept es (name :: sp) (name :: tg) h2
    have ih2 := copyEntries_apart accept rest sp tg h3
    have hrest := copyEntries_targets accept rest sp tg
    have hes := copyEntries_targets accept es (name :: sp) (name :: tg)
    unfold CallsApart at *
    rw [List.pairwise_append]
    refine ⟨?_, ih2, ?_⟩
    · split
      · rw [List.pairwise_cons]
        refine ⟨?_, ih1⟩
        intro c hc p q hp hq
        obtain ⟨_, n, _, r, hr⟩ := hes c hc
        rw [hq] at hr
        simp [target] at hp hr
        subst hp; subst hr
        refine ⟨by simp [onFile], ?_⟩
        intro _ hs
        have := hs.length_le
        simp at this
        omega
      · exact List.Pairwise.nil
    · intro c hc d hd p q hp hq
      obtain ⟨_, n, hn, r, hr⟩ := hrest d hd
      have hne : name ≠ n := by rintro rfl; exact h1 hn
      have hc' : ∃ s, target c = some (s ++ name :: tg) := by
        split at hc
        · rcases List.mem_cons.1 hc with rfl | hc
          · exact ⟨[], rfl⟩
          · obtain ⟨_, m, _, s, hs⟩ := hes c hc
            exact ⟨s ++ [m], by simp [hs]⟩
        · simp at hc
      obtain ⟨s, hs⟩ := hc'
      obtain ⟨a, b⟩ := names_apart hne hs hr hp hq
      exact ⟨fun _ => a, fun _ => b⟩
  | .cons name (.file f) rest, sp, tg, h => by
    rw [copyEntries]
    obtain ⟨h1, h3⟩ := h
    have ih2 := copyEntries_apart accept rest sp tg h3
    have hrest := copyEntries_targets accept rest sp tg
    unfold CallsApart at *
    rw [List.pairwise_append]
    refine ⟨?_, ih2, ?_⟩
    · split <;> simp
    · intro c hc d hd p q hp hq
      obtain ⟨_, n, hn, r, hr⟩ := hrest d hd
      have hne : name ≠ n := by rintro rfl; exact h1 hn
      have hs : target c = some ([] ++ name :: tg) := by
        split at hc
        · simp at hc; subst hc; rfl
        · simp at hc
      obtain ⟨a, b⟩ := names_apart hne hs hr hp hq
      exact ⟨fun _ => a, fun _ => b⟩

theorem copyTree_apart (accept : Path → Bool) (es : Sources C) (sp tg : Path) (h : Distinct es) :
    CallsApart (copyTree accept none sp tg es) := by
  unfold copyTree
  have := copyEntries_apart accept es sp tg h
  unfold CallsApart at *
  rw [List.pairwise_cons]
  refine ⟨?_, this⟩
  intro c hc p q hp hq
  obtain ⟨_, n, _, r, hr⟩ := copyEntries_targets accept es sp tg c hc
  rw [hq] at hr
  simp [target] at hp hr
  subst hp; subst hr
  refine ⟨by simp [onFile], ?_⟩
  intro _ hs
  have := hs.length_le
  simp at this
  omega

theorem fileAt_mem (accept : Path → Bool) {sp : Path} {es : Sources C} {r : Path} {c : C}
    (h : FileAt accept sp es r c) : ∀ tg, Call.copy (.file c) (r ++ tg) ∈ copyEntries accept none sp tg es := by
  induction h with
  | file ha => intro tg; rw [copyEntries]; simp [ha]
  | @dir sp name es rest r c ha _ ih =>
    intro tg
    rw [copyEntries]
    simp only [ha, if_true]
    have := ih (name :: tg)
    simp only [List.append_assoc, List.cons_append, List.nil_append]
    exact List.mem_append_left _ (List.mem_cons_of_mem _ this)
  | @later sp name s rest r c _ ih =>
    intro tg
    cases s with
    | file d => rw [copyEntries]; exact List.mem_append_right _ (ih tg)
    | dir d => rw [copyEntries]; exact List.mem_append_right _ (ih tg)

end Files

/-- C27: `copy_tree` puts every accepted file of the source, at any depth, to the same place below the
target, with its content. -/
theorem copy_tree_copies (empty : C) (order : List Path → List Path) (accept : Path → Bool) (es : Sources C)
    (sp tg : Path) (hdist : Distinct es) (fs fs' : FS C) (hg : Good fs)
    (h : transaction empty order (copyTree accept none sp tg es) fs = (fs', true, true))
    (r : Path) (c : C) (hf : FileAt accept sp es r c) :
    Dict.get fs' (r ++ tg) = some (.file c) := by
  have hm : Call.copy (.file c) (r ++ tg) ∈ copyTree accept none sp tg es :=
    List.mem_cons_of_mem _ (fileAt_mem accept hf tg)
  obtain ⟨before, later, e⟩ := List.append_of_mem hm
  have ha := copyTree_apart accept es sp tg hdist
  rw [e] at ha h
  unfold CallsApart at ha
  rw [List.pairwise_append] at ha
  have ha2 := (List.pairwise_cons.1 ha.2.1).1
  apply transaction_copied empty order before later c _ fs fs' hg h
  intro s hs q hq
  obtain ⟨h1, h2⟩ := ha2 s hs _ q rfl hq
  refine ⟨h2, ?_⟩
  rintro _ rfl
  exact h1 rfl (List.suffix_refl _)

/-- C27: nothing outside of the target directory changes, apart from the directories above it. -/
theorem copy_tree_inside (empty : C) (order : List Path → List Path) (accept : Path → Bool) (es : Sources C)
    (sp tg : Path) (fs fs' : FS C) (hg : Good fs)
    (h : transaction empty order (copyTree accept none sp tg es) fs = (fs', true, true))
    (p : Path) (h1 : ¬ tg <:+ p) (h2 : ¬ p <:+ tg) : Dict.get fs' p = Dict.get fs p := by
  rw [transaction_success empty order _ fs fs' hg h]
  have ht : ∀ c ∈ copyTree accept none sp tg es, ∀ q, target c = some q → tg <:+ q := by
    intro c hc q hq
    unfold copyTree at hc
    rcases List.mem_cons.1 hc with rfl | hc
    · simp [target] at hq; subst hq; exact List.suffix_refl _
    · obtain ⟨_, n, _, r, hr⟩ := copyEntries_targets accept es sp tg c hc
      rw [hq] at hr
      simp at hr; subst hr
      exact ⟨r ++ [n], by simp⟩
  have htr : ∀ c ∈ copyTree accept none sp tg es, tracked c = true := by
    intro c hc
    unfold copyTree at hc
    rcases List.mem_cons.1 hc with rfl | hc
    · rfl
    · exact (copyEntries_targets accept es sp tg c hc).1
  generalize copyTree accept none sp tg es = body at ht htr
  clear h hg
  generalize Dict.get fs = f
  induction body generalizing f with
  | nil => rfl
  | cons c body ih =>
    rw [List.foldl_cons, ih (fun s hs => ht s (by simp [hs])) (fun s hs => htr s (by simp [hs]))]
    have hc := ht c (by simp)
    have hc2 := htr c (by simp)
    have no : ∀ q, tg <:+ q → p <:+ q → False := by
      intro q a b
      rcases List.suffix_or_suffix_of_suffix a b with h | h
      · exact h1 h
      · exact h2 h
    have no2 : ∀ q, tg <:+ q → q <:+ p → False := fun q a b => h1 (a.trans b)
    cases c with
    | mkdir q =>
      have := no q (hc q rfl)
      simp only [after]
      rw [if_neg (fun h => this h.2)]
    | copy s q =>
      have a := no q (hc q rfl)
      have b := no2 q (hc q rfl)
      have c : p ≠ q := by rintro rfl; exact a (List.suffix_refl _)
      cases s with
      | file d =>
        simp only [after]
        rw [if_neg c, if_neg b, if_neg (fun h => a h.2)]
      | dir => rfl
      | missing => rfl
    | rm q =>
      have := no2 q (hc q rfl)
      simp only [after]
      rw [if_neg this]
    | touch q r => simp [tracked] at hc2
    | write q c => simp [tracked] at hc2
    | fail => rfl

/-- C26: a `copy_tree` that is interrupted by an exception at any point, or is followed by a failure, is
undone up to created directories. -/
theorem copy_tree_rolls_back_partial (empty : C) (order : List Path → List Path) (hord : ∀ l p, p ∈ order l ↔ p ∈ l)
    (accept : Path → Bool) (es : Sources C) (sp tg : Path) (hdist : Distinct es) (fs fs' : FS C) (ok : Bool)
    (hg : Good fs)
    (hd : ∀ r c, FileAt accept sp es r c → Dict.get fs (r ++ tg) ≠ some .dir)
    (h : transaction empty order (copyTree accept none sp tg es ++ [.fail]) fs = (fs', false, ok)) :
    ok = true ∧ ∀ p, Dict.get fs' p = Dict.get fs p ∨ (Dict.get fs p = none ∧ Dict.get fs' p = some .dir) := by
  have hfile : ∀ (es : Sources C) (sp tg : Path), ∀ c ∈ copyEntries accept none sp tg es, onFile c = true →
      ∀ q, target c = some q → ∃ r d, FileAt accept sp es r d ∧ q = r ++ tg := by
    let rec go : ∀ (es : Sources C) (sp tg : Path), ∀ c ∈ copyEntries accept none sp tg es, onFile c = true →
        ∀ q, target c = some q → ∃ r d, FileAt accept sp es r d ∧ q = r ++ tg
      | .nil, sp, tg, c, hc, _, _, _ => by simp [copyEntries] at hc
      | .cons name (.dir es) rest, sp, tg, c, hc, hf, q, hq => by
        rw [copyEntries] at hc
        rcases List.mem_append.1 hc with hc | hc
        · split at hc
          · rename_i ha
            rcases List.mem_cons.1 hc with rfl | hc
            · simp [onFile] at hf
            · obtain ⟨r, d, h1, h2⟩ := go es _ _ c hc hf q hq
              exact ⟨r ++ [name], d, .dir ha h1, by simp [h2]⟩
          · simp at hc
        · obtain ⟨r, d, h1, h2⟩ := go rest _ _ c hc hf q hq
          exact ⟨r, d, .later h1, h2⟩
      | .cons name (.file f) rest, sp, tg, c, hc, hf, q, hq => by
        rw [copyEntries] at hc
        rcases List.mem_append.1 hc with hc | hc
        · split at hc
          · rename_i ha
            simp at hc
            subst hc
            simp [target] at hq
            exact ⟨[name], f, .file ha, by simp [hq]⟩
          · simp at hc
        · obtain ⟨r, d, h1, h2⟩ := go rest _ _ c hc hf q hq
          exact ⟨r, d, .later h1, h2⟩
    exact go
  have hap := copyTree_apart accept es sp tg hdist
  obtain ⟨h1, h2⟩ := rollback_restores_partial empty order hord _ fs fs' ok hg
    (by
      intro c hc
      rcases List.mem_append.1 hc with hc | hc
      · unfold copyTree at hc
        rcases List.mem_cons.1 hc with rfl | hc
        · rfl
        · exact (copyEntries_targets accept es sp tg c hc).1
      · simp at hc; subst hc; rfl)
    (by
      unfold CallsApart at *
      rw [List.pairwise_append]
      refine ⟨hap, by simp, ?_⟩
      intro a _ b hb p q _ hq
      simp at hb; subst hb
      simp [target] at hq)
    (by
      intro c hc hf q hq
      rcases List.mem_append.1 hc with hc | hc
      · unfold copyTree at hc
        rcases List.mem_cons.1 hc with rfl | hc
        · simp [onFile] at hf
        · obtain ⟨r, d, h1, rfl⟩ := hfile es sp tg c hc hf q hq
          exact hd r d h1
      · simp at hc; subst hc; simp [onFile] at hf)
    h
  refine ⟨h1, ?_⟩
  intro p
  rcases h2 p with h | ⟨a, b, _⟩
  · exact Or.inl h
  · exact Or.inr ⟨a, b⟩

namespace Files

theorem copied_mono_moves {t t' : Txn C} {tg : Path} {rmd mk : Bool} {new : Option (Node C)}
    (m : Moves t t' tg rmd mk new) : (∀ p ∈ t.copied, p ∈ t'.copied) ∧
    ∀ p, Dict.get t.fs p = none → Dict.get t'.fs p ≠ none → p ∈ t'.copied := by
  refine ⟨fun p hp => (m.copied p).2 (Or.inl hp), ?_⟩
  intro p h1 h2
  rw [m.copied]
  rw [m.fs] at h2
  by_cases c1 : p = tg ∧ new.isSome = true
  · exact Or.inr (Or.inl c1)
  · rw [if_neg c1] at h2
    split at h2
    · exact absurd rfl h2
    · split at h2
      · rename_i h; exact Or.inr (Or.inr h)
      · exact absurd h1 h2

theorem step_copied (empty : C) (t t' : Txn C) (hg : Good t.fs) (c : Call C) (hw : ∀ p d, c ≠ .write p d)
    (h : t.step empty c = .ok t') : (∀ p ∈ t.copied, p ∈ t'.copied) ∧
    (∀ p, Dict.get t.fs p = none → Dict.get t'.fs p ≠ none → p ∈ t'.copied) ∧
    (∀ s p, c = .copy s p → p ∈ t'.copied) := by
  cases c with
  | mkdir p =>
    simp only [Txn.step] at h
    rcases mkdir_moves t hg p with ⟨t1, e, m⟩ | e
    · rw [e] at h; simp at h; subst h
      exact ⟨(copied_mono_moves m).1, (copied_mono_moves m).2, by simp⟩
    · rw [e] at h; simp at h
  | copy s p =>
    simp only [Txn.step] at h
    rcases copy_moves t hg p s with ⟨t1, c, e, rfl, m⟩ | ⟨t1, _, _, e, _⟩
    · rw [e] at h; simp at h; subst h
      refine ⟨(copied_mono_moves m).1, (copied_mono_moves m).2, ?_⟩
      intro s q hq
      simp at hq
      rw [← hq.2]
      exact (m.copied p).2 (Or.inr (Or.inl ⟨rfl, rfl⟩))
    · rw [e] at h; simp at h
  | rm p =>
    simp only [Txn.step] at h
    rcases rm_moves t hg p with ⟨t1, e, m, _⟩ | e
    · rw [e] at h; simp at h; subst h
      exact ⟨(copied_mono_moves m).1, (copied_mono_moves m).2, by simp⟩
    · rw [e] at h; simp at h
  | touch p r =>
    have hc : t'.copied = addPath p t.copied := by
      simp only [Txn.step, Txn.touch] at h
      split at h
      · split at h
        · simp at h; rw [← h]
        · simp at h
      · simp at h; rw [← h]
    refine ⟨?_, ?_, by simp⟩
    · intro q hq; rw [hc, mem_addPath]; exact Or.inl hq
    · intro q h1 h2
      rw [(step_ok empty t t' hg _ h).1] at h2
      simp only [after] at h2
      split at h2
      · rename_i hh; rw [hc, mem_addPath]; exact Or.inr hh.2.1
      · exact absurd h1 h2
  | write p d => exact absurd rfl (hw p d)
  | fail => simp [Txn.step] at h

end Files

/-- C27: `copied_files` lists every copied file and everything else that the transaction created. -/
theorem copied_files_complete (empty : C) : ∀ (body : List (Call C)) (t t' : Txn C), Good t.fs →
    (∀ p d, Call.write p d ∉ body) → Txn.run empty body t = .ok t' →
    (∀ p ∈ t.copied, p ∈ t'.copied) ∧
    (∀ p, Dict.get t.fs p = none → Dict.get t'.fs p ≠ none → p ∈ t'.copied) ∧
    (∀ s p, Call.copy s p ∈ body → p ∈ t'.copied) := by
  intro body
  induction body with
  | nil =>
    intro t t' _ _ h
    simp [Txn.run] at h; subst h
    exact ⟨fun _ h => h, fun p a b => absurd a b, by simp⟩
  | cons c body ih =>
    intro t t' hg hw h
    unfold Txn.run at h
    cases hs : t.step empty c with
    | raised t1 => rw [hs] at h; simp at h
    | ok t1 =>
      rw [hs] at h
      obtain ⟨_, hg1⟩ := step_ok empty t t1 hg c hs
      obtain ⟨a1, a2, a3⟩ := step_copied empty t t1 hg c (fun p d e => hw p d (by simp [e])) hs
      obtain ⟨b1, b2, b3⟩ := ih t1 t' hg1 (fun p d hm => hw p d (by simp [hm])) h
      refine ⟨fun p hp => b1 p (a1 p hp), ?_, ?_⟩
      · intro p h1 h2
        by_cases hn : Dict.get t1.fs p = none
        · exact b2 p hn h2
        · exact b1 p (a2 p h1 hn)
      · intro s p hm
        rcases List.mem_cons.1 hm with e | hm
        · exact b1 p (a3 s p e.symm)
        · exact b3 s p hm

/-! ### Examples and violations -/

namespace Files.CopyExample

def t (s : String) : Text := s.toList

/-- The old state: a directory `a` with a file `f`. -/
def fs0 : FS Nat := [([], .dir), ([t "a"], .dir), ([t "f", t "a"], .file 1)]

theorem good0 : Good fs0 := by
  refine ⟨?_, rfl, by unfold Dict.Wf; decide⟩
  intro x p n h
  unfold fs0 at h
  simp only [Dict.get] at h
  split at h
  · simp at *
  · split at h
    · rename_i e; simp at e; rw [e.2]; rfl
    · split at h
      · rename_i e; simp at e; rw [← e.2]; rfl
      · simp at h

/-- Overwrite `a/f`, create `b/c/g`, then fail. -/
def body : List (Call Nat) :=
  [.copy (.file 2) [t "f", t "a"], .copy (.file 3) [t "g", t "c", t "b"], .fail]

/-- The hypotheses of the rollback theorems hold, and the transaction fails. -/
example : (∀ c ∈ body, tracked c = true) ∧
    (∀ c ∈ body, onFile c = true → ∀ q, target c = some q → Dict.get fs0 q ≠ some .dir) ∧
    (transaction 0 List.reverse body fs0).2 = (false, true) ∧
    Dict.get (transaction 0 List.reverse body fs0).1 [t "f", t "a"] = some (.file 1) ∧
    Dict.get (transaction 0 List.reverse body fs0).1 [t "b"] = none := by
  refine ⟨by decide, ?_, by decide, by decide, by decide⟩
  intro c hc hf q hq
  simp only [body, List.mem_cons, List.not_mem_nil, or_false] at hc
  rcases hc with rfl | rfl | rfl <;> simp [target] at hq <;> (try subst hq) <;> decide

example : CallsApart body := by
  unfold CallsApart body
  simp only [List.pairwise_cons, List.mem_cons, List.not_mem_nil, or_false]
  refine ⟨?_, ?_, by simp⟩
  · rintro b (rfl | rfl) p q hp hq
    · simp [target] at hp hq; subst hp; subst hq; decide
    · simp [target] at hq
  · rintro b rfl p q hp hq
    simp [target] at hq

/-- Without the failure the transaction ends well and the files are there. -/
example : (transaction 0 id (body.take 2) fs0).2 = (true, true) ∧
    Dict.get (transaction 0 id (body.take 2) fs0).1 [t "f", t "a"] = some (.file 2) ∧
    Dict.get (transaction 0 id (body.take 2) fs0).1 [t "g", t "c", t "b"] = some (.file 3) := by decide

/-- A source tree with a nested file. -/
def src : Sources Nat :=
  .cons (t "x") (.dir (.cons (t "y") (.file 5) .nil)) (.cons (t "z") (.file 6) .nil)

example : Distinct src ∧ FileAt (fun _ => true) [] src [t "y", t "x"] 5 ∧
    (transaction 0 id (copyTree (fun _ => true) none [] [t "n"] src) fs0).2 = (true, true) ∧
    Dict.get (transaction 0 id (copyTree (fun _ => true) none [] [t "n"] src) fs0).1 [t "y", t "x", t "n"] =
      some (.file 5) := by
  refine ⟨?_, .dir rfl (.file rfl), by decide, by decide⟩
  simp [src, Distinct, names]
  decide

/-- An iteration order as assumed by `rollback_exact_partial`. -/
def deepFirst (l : List Path) : List Path :=
  (l.foldr addPath []).mergeSort (fun a b => decide (b.length ≤ a.length))

example : (∀ l p, p ∈ deepFirst l ↔ p ∈ l) ∧ (∀ l, (deepFirst l).Pairwise (fun a b => ¬ a <:+ b)) := by
  constructor
  · intro l p
    simp only [deepFirst, List.mem_mergeSort]
    induction l with
    | nil => simp
    | cons a l ih => rw [List.foldr_cons, mem_addPath, ih]; simp [or_comm]
  · intro l
    have h0 : (l.foldr addPath []).Nodup := by
      induction l with
      | nil => simp
      | cons a l ih =>
        rw [List.foldr_cons]
        unfold addPath
        split
        · exact ih
        · rename_i hn
          rw [List.nodup_append]
          refine ⟨ih, by simp, ?_⟩
          intro x hx y hy e
          simp at hy; subst hy; subst e
          exact hn hx
    have h1 : (deepFirst l).Pairwise (fun a b => decide (b.length ≤ a.length) = true) :=
      List.pairwise_mergeSort (by intro a b c; simp; omega) (by intro a b; simp; omega) _
    have h2 : (deepFirst l).Nodup := (List.mergeSort_perm _ _).nodup_iff.2 h0
    apply (h1.and h2).imp
    rintro a b ⟨h3, h4⟩ h5
    simp at h3
    exact h4 (h5.eq_of_length_le h3)

end Files.CopyExample
open Files.CopyExample

/-- C26 fails: a file that is overwritten twice in a transaction is not restored. -/
theorem rollback_twice_violated : ∃ body : List (Call Nat), (∀ c ∈ body, tracked c = true) ∧
    (transaction 0 id body fs0).2 = (false, true) ∧ Dict.get fs0 [t "f", t "a"] = some (.file 1) ∧
    Dict.get (transaction 0 id body fs0).1 [t "f", t "a"] = some (.file 2) :=
  ⟨[.copy (.file 2) [t "f", t "a"], .copy (.file 3) [t "f", t "a"], .fail], by decide, by decide, by decide,
    by decide⟩

/-- C26 fails: created directories stay behind if the set is iterated parents first. -/
theorem rollback_directories_violated : ∃ body : List (Call Nat), (∀ c ∈ body, tracked c = true) ∧
    (transaction 0 id body fs0).2 = (false, true) ∧ Dict.get fs0 [t "b"] = none ∧
    Dict.get (transaction 0 id body fs0).1 [t "b"] = some .dir :=
  ⟨[.copy (.file 3) [t "g", t "c", t "b"], .fail], by decide, by decide, by decide, by decide⟩

/-- C26 fails: a file that existed before and is only touched is deleted. -/
theorem rollback_touch_violated : ∃ body : List (Call Nat),
    (transaction 0 id body fs0).2 = (false, true) ∧ Dict.get fs0 [t "f", t "a"] = some (.file 1) ∧
    Dict.get (transaction 0 id body fs0).1 [t "f", t "a"] = none :=
  ⟨[.touch [t "f", t "a"] true, .fail], by decide, by decide, by decide⟩

/-- C26 fails for `copy_tree` with `file_copy`: the overwritten file is neither kept nor restored. -/
theorem rollback_file_copy_violated :
    (transaction 0 id (copyTree (fun _ => true) (some (· + 1)) [] [t "a"] (.cons (t "f") (.file 7) .nil) ++ [.fail]) fs0).2
      = (false, true) ∧
    Dict.get fs0 [t "f", t "a"] = some (.file 1) ∧
    Dict.get (transaction 0 id (copyTree (fun _ => true) (some (· + 1)) [] [t "a"] (.cons (t "f") (.file 7) .nil) ++ [.fail]) fs0).1
      [t "f", t "a"] = none := by decide

/-- C27 fails for `copy_tree` with `file_copy`: files in subdirectories are copied without it. -/
theorem copy_tree_nested_violated :
    (transaction 0 id (copyTree (fun _ => true) (some (· + 1)) [] [t "n"] src) fs0).2 = (true, true) ∧
    Dict.get (transaction 0 id (copyTree (fun _ => true) (some (· + 1)) [] [t "n"] src) fs0).1 [t "z", t "n"] =
      some (.file 7) ∧
    Dict.get (transaction 0 id (copyTree (fun _ => true) (some (· + 1)) [] [t "n"] src) fs0).1 [t "y", t "x", t "n"] =
      some (.file 5) := by decide

end Pkm
