import Verif.Files.Copy
import Verif.Files.Lemmas
set_option linter.unusedVariables false
set_option linter.unusedSimpArgs false
set_option linter.unusedSectionVars false
/-
Lemmas about copy transactions.
-/
namespace Pkm
namespace Files
open FS
variable {C : Type}

/-- A file system: every entry lies in a directory, the root is a directory, and no path has two entries. -/
structure Good (fs : FS C) : Prop where
  tree : Tree fs
  root : Dict.get fs [] = some .dir
  wf : Dict.Wf fs

theorem wf_dropTree (fs : FS C) (d : Path) (h : Dict.Wf fs) : Dict.Wf (dropTree fs d) := by
  unfold Dict.Wf Dict.keys dropTree at *
  exact h.sublist (List.Sublist.map _ List.filter_sublist)

theorem suffix_of_cons_ne {x : Text} {p q : Path} (h : q <:+ x :: p) (hne : q ≠ x :: p) : q <:+ p := by
  rcases List.suffix_cons_iff.1 h with e | e
  · exact absurd e hne
  · exact e

theorem not_cons_suffix (x : Text) (p : Path) : ¬ (x :: p) <:+ p := by
  intro h
  have := h.length_le
  simp at this
  omega

theorem Good.ancestors {fs : FS C} (h : Good fs) : ∀ (p : Path) (n : Node C), Dict.get fs p = some n →
    ∀ q, q <:+ p → q ≠ p → Dict.get fs q = some .dir := by
  intro p
  induction p with
  | nil => intro n _ q hq hne; rw [List.suffix_nil] at hq; exact absurd hq hne
  | cons x p ih =>
    intro n hn q hq hne
    have hp := h.tree x p n hn
    have hq' := suffix_of_cons_ne hq hne
    by_cases e : q = p
    · rw [e]; exact hp
    · exact ih _ hp q hq' e

theorem mem_addPath (p q : Path) (s : List Path) : q ∈ addPath p s ↔ q ∈ s ∨ q = p := by
  unfold addPath
  split
  · rename_i h
    constructor
    · exact Or.inl
    · rintro (h' | rfl) <;> assumption
  · simp

/-- What a step may do to a state: move the tree at `target` to the temporary directory (`rmd`), create
the missing directories above `target` (`mk`), and create a node at `target` (`new`). -/
structure Moves (t t' : Txn C) (target : Path) (rmd mk : Bool) (new : Option (Node C)) : Prop where
  fs : ∀ q, Dict.get t'.fs q =
    if q = target ∧ new.isSome then new
    else if rmd = true ∧ target <:+ q then none
    else if mk = true ∧ Dict.get t.fs q = none ∧ q <:+ target ∧ q ≠ target then some .dir
    else Dict.get t.fs q
  saved : t'.saved = t.saved ++ (if rmd then [(target, t.fs.subtree target)] else [])
  copied : ∀ q, q ∈ t'.copied ↔ q ∈ t.copied ∨ (q = target ∧ new.isSome) ∨
    (mk = true ∧ Dict.get t.fs q = none ∧ q <:+ target ∧ q ≠ target)
  removed : rmd = true → target ≠ [] ∧ ∃ n, Dict.get t.fs target = some n
  created : new.isSome → target ≠ [] ∧ (Dict.get t.fs target = none ∨ rmd = true)
  good : Good t'.fs

theorem Moves.nothing {t : Txn C} (h : Good t.fs) (target : Path) : Moves t t target false false none :=
  ⟨by intro q; simp, by simp, by simp, by simp, by simp, h⟩

theorem mkdir_spec (t : Txn C) (hg : Good t.fs) : ∀ p, (∃ t', t.mkdir p = .ok t' ∧
      (∀ q, Dict.get t'.fs q = if Dict.get t.fs q = none ∧ q <:+ p then some .dir else Dict.get t.fs q) ∧
      t'.saved = t.saved ∧
      (∀ q, q ∈ t'.copied ↔ q ∈ t.copied ∨ (Dict.get t.fs q = none ∧ q <:+ p)) ∧ Good t'.fs) ∨
    t.mkdir p = .raised t := by
  intro p
  induction p with
  | nil =>
    left
    refine ⟨t, rfl, ?_, rfl, ?_, hg⟩
    · intro q
      rw [if_neg]
      rintro ⟨h1, h2⟩
      rw [List.suffix_nil] at h2; subst h2
      rw [hg.root] at h1; simp at h1
    · intro q
      constructor
      · exact Or.inl
      · rintro (h | ⟨h1, h2⟩)
        · exact h
        · rw [List.suffix_nil] at h2; subst h2
          rw [hg.root] at h1; simp at h1
  | cons x p ih =>
    unfold Txn.mkdir
    by_cases hex : t.fs.ex (x :: p) = true
    · rw [if_pos hex]
      obtain ⟨n, hn⟩ := (ex_iff _ _).1 hex
      have hall : ∀ q, ¬ (Dict.get t.fs q = none ∧ q <:+ x :: p) := by
        rintro q ⟨h1, h2⟩
        by_cases e : q = x :: p
        · subst e; rw [hn] at h1; simp at h1
        · rw [hg.ancestors _ _ hn q h2 e] at h1; simp at h1
      left
      exact ⟨t, rfl, fun q => by rw [if_neg (hall q)], rfl, fun q => by simp [hall q], hg⟩
    · rw [if_neg hex]
      have hnone : Dict.get t.fs (x :: p) = none := by
        cases e : Dict.get t.fs (x :: p) with
        | none => rfl
        | some n => exact absurd ((ex_iff _ _).2 ⟨n, e⟩) hex
      -- the state after the parents have been made
      have key : ∀ t1 : Txn C, (∀ q, Dict.get t1.fs q = if Dict.get t.fs q = none ∧ q <:+ p then some .dir else Dict.get t.fs q) →
          t1.saved = t.saved → (∀ q, q ∈ t1.copied ↔ q ∈ t.copied ∨ (Dict.get t.fs q = none ∧ q <:+ p)) → Good t1.fs →
          t1.fs.isDir p = true →
          (∀ q, Dict.get (Dict.put t1.fs (x :: p) .dir) q =
            if Dict.get t.fs q = none ∧ q <:+ x :: p then some .dir else Dict.get t.fs q) ∧
          (∀ q, q ∈ addPath (x :: p) t1.copied ↔ q ∈ t.copied ∨ (Dict.get t.fs q = none ∧ q <:+ x :: p)) ∧
          Good (Dict.put t1.fs (x :: p) .dir) := by
        intro t1 h1 h2 h3 h4 h5
        refine ⟨?_, ?_, ?_⟩
        · intro q
          rw [Dict.get_put]
          by_cases e : x :: p = q
          · subst e; simp [hnone]
          · rw [if_neg e, h1]
            have : (Dict.get t.fs q = none ∧ q <:+ x :: p) ↔ (Dict.get t.fs q = none ∧ q <:+ p) := by
              constructor
              · rintro ⟨a, b⟩; exact ⟨a, suffix_of_cons_ne b (fun e' => e e'.symm)⟩
              · rintro ⟨a, b⟩; exact ⟨a, b.trans (List.suffix_cons x p)⟩
            simp only [this]
        · intro q
          rw [mem_addPath, h3]
          constructor
          · rintro ((h | ⟨a, b⟩) | rfl)
            · exact Or.inl h
            · exact Or.inr ⟨a, b.trans (List.suffix_cons x p)⟩
            · exact Or.inr ⟨hnone, List.suffix_refl _⟩
          · rintro (h | ⟨a, b⟩)
            · exact Or.inl (Or.inl h)
            · rcases List.suffix_cons_iff.1 b with e | e
              · exact Or.inr e
              · exact Or.inl (Or.inr ⟨a, e⟩)
        · refine ⟨?_, ?_, ?_⟩
          · intro y q n hq
            rw [Dict.get_put] at hq ⊢
            by_cases e : x :: p = y :: q
            · simp at e
              obtain ⟨rfl, rfl⟩ := e
              rw [if_neg (by intro h; exact not_cons_suffix x p (by rw [h]; exact List.suffix_refl _))]
              exact (isDir_iff _ _).1 h5
            · rw [if_neg e] at hq
              split
              · rfl
              · exact h4.tree y q n hq
          · rw [Dict.get_put, if_neg (by simp)]
            exact h4.root
          · exact Dict.wf_put _ _ _ h4.wf
      by_cases hexp : t.fs.ex p = true
      · rw [if_pos hexp]
        dsimp only
        by_cases hd : t.fs.isDir p = true
        · rw [if_pos hd]
          left
          obtain ⟨n, hn⟩ := (ex_iff _ _).1 hexp
          have hall : ∀ q, ¬ (Dict.get t.fs q = none ∧ q <:+ p) := by
            rintro q ⟨h1, h2⟩
            by_cases e : q = p
            · subst e; rw [hn] at h1; simp at h1
            · rw [hg.ancestors _ _ hn q h2 e] at h1; simp at h1
          obtain ⟨k1, k2, k3⟩ := key t (fun q => by rw [if_neg (hall q)]) rfl (fun q => by simp [hall q]) hg hd
          exact ⟨_, rfl, k1, rfl, k2, k3⟩
        · rw [if_neg hd]; right; rfl
      · rw [if_neg hexp]
        rcases ih with ⟨t1, e, h1, h2, h3, h4⟩ | e
        · rw [e]
          dsimp only
          have hd : t1.fs.isDir p = true := by
            rw [isDir_iff, h1]
            cases e' : Dict.get t.fs p with
            | none => simp
            | some n => exact absurd ((ex_iff _ _).2 ⟨n, e'⟩) hexp
          rw [if_pos hd]
          left
          obtain ⟨k1, k2, k3⟩ := key t1 h1 h2 h3 h4 hd
          exact ⟨_, rfl, k1, h2, k2, k3⟩
        · rw [e]; right; rfl

theorem suffix_cons_iff' (x : Text) (p q : Path) : (q <:+ x :: p ∧ q ≠ x :: p) ↔ q <:+ p := by
  constructor
  · rintro ⟨a, b⟩; exact suffix_of_cons_ne a b
  · intro h
    refine ⟨h.trans (List.suffix_cons x p), ?_⟩
    rintro rfl
    exact not_cons_suffix x p h

/-- `mkdir` as a step. -/
theorem mkdir_moves (t : Txn C) (hg : Good t.fs) (p : Path) :
    (∃ t', t.mkdir p = .ok t' ∧ Moves t t' p false true (if Dict.get t.fs p = none then some .dir else none)) ∨
    t.mkdir p = .raised t := by
  rcases mkdir_spec t hg p with ⟨t', e, h1, h2, h3, h4⟩ | h
  · left
    have hpn : Dict.get t.fs p = none → p ≠ [] := by
      rintro h rfl; rw [hg.root] at h; simp at h
    refine ⟨t', e, ⟨?_, by simp [h2], ?_, by simp, ?_, h4⟩⟩
    · intro q
      rw [h1]
      by_cases hq : q = p
      · subst hq
        cases hn : Dict.get t.fs q <;> simp [hn]
      · simp [hq]
    · intro q
      rw [h3]
      by_cases hq : q = p
      · subst hq
        cases hn : Dict.get t.fs q <;> simp [hn]
      · simp [hq]
    · intro h
      cases hn : Dict.get t.fs p with
      | none => exact ⟨hpn hn, Or.inl rfl⟩
      | some n => rw [hn] at h; simp at h
  · exact Or.inr h

theorem rm_moves (t : Txn C) (hg : Good t.fs) (p : Path) :
    (∃ t', t.rm p = .ok t' ∧ Moves t t' p true false none ∧ t.fs.ex p = true) ∨ t.rm p = .raised t := by
  unfold Txn.rm
  by_cases h : p ≠ [] ∧ t.fs.ex p = true
  · rw [if_pos h]
    left
    refine ⟨_, rfl, ⟨?_, by simp, by simp, fun _ => ⟨h.1, (ex_iff _ _).1 h.2⟩, by simp, ?_⟩, h.2⟩
    · intro q
      dsimp only
      rw [dropTree_get]
      simp
    · refine ⟨tree_dropTree _ _ hg.tree, ?_, wf_dropTree _ _ hg.wf⟩
      dsimp only
      rw [dropTree_get, if_neg]
      · exact hg.root
      · intro hs; exact h.1 (List.suffix_nil.1 hs)
  · rw [if_neg h]; exact Or.inr rfl

theorem good_put_file {fs : FS C} (hg : Good fs) (x : Text) (p : Path) (c : C) (hn : Dict.get fs (x :: p) = none)
    (hd : fs.isDir p = true) : Good (Dict.put fs (x :: p) (.file c)) := by
  refine ⟨?_, ?_, Dict.wf_put _ _ _ hg.wf⟩
  · intro y q n hq
    rw [Dict.get_put] at hq ⊢
    by_cases e : x :: p = y :: q
    · simp at e
      obtain ⟨rfl, rfl⟩ := e
      rw [if_neg (by intro h; exact not_cons_suffix x p (by rw [h]; exact List.suffix_refl _))]
      exact (isDir_iff _ _).1 hd
    · rw [if_neg e] at hq
      have := hg.tree y q n hq
      rw [if_neg]
      · exact this
      · rintro rfl
        rw [hn] at this; simp at this
  · rw [Dict.get_put, if_neg (by simp)]
    exact hg.root

/-- `copyNew` as a step. -/
theorem copyNew_moves (t : Txn C) (hg : Good t.fs) (x : Text) (p : Path) (src : Txn.Src C)
    (hn : Dict.get t.fs (x :: p) = none) :
    (∃ t' c, t.copyNew src (x :: p) = .ok t' ∧ src = .file c ∧ Moves t t' (x :: p) false true (some (.file c))) ∨
    (∃ t' mk, t.copyNew src (x :: p) = .raised t' ∧ Moves t t' (x :: p) false mk none) := by
  unfold Txn.copyNew
  have hex : ∀ q, Dict.get t.fs q ≠ none → t.fs.ex q = true := by
    intro q h
    cases e : Dict.get t.fs q with
    | none => exact absurd e h
    | some n => exact (ex_iff _ _).2 ⟨n, e⟩
  -- a copy into a state in which the parents have been made
  have key : ∀ (t1 : Txn C) (c : C), (∀ q, Dict.get t1.fs q = if Dict.get t.fs q = none ∧ q <:+ p then some .dir else Dict.get t.fs q) →
      t1.saved = t.saved → (∀ q, q ∈ t1.copied ↔ q ∈ t.copied ∨ (Dict.get t.fs q = none ∧ q <:+ p)) → Good t1.fs →
      t1.fs.isDir p = true →
      Moves t { t1 with fs := Dict.put t1.fs (x :: p) (.file c), copied := addPath (x :: p) t1.copied } (x :: p)
        false true (some (.file c)) := by
    intro t1 c h1 h2 h3 h4 h5
    have hn1 : Dict.get t1.fs (x :: p) = none := by
      rw [h1, if_neg]
      · exact hn
      · rintro ⟨_, h⟩; exact not_cons_suffix x p h
    refine ⟨?_, by simp [h2], ?_, by simp, fun _ => ⟨by simp, Or.inl hn⟩, good_put_file h4 x p c hn1 h5⟩
    · intro q
      dsimp only
      rw [Dict.get_put, h1]
      by_cases e : q = x :: p
      · subst e; simp
      · have e' : ¬ x :: p = q := fun h => e h.symm
        rw [if_neg e', if_neg (show ¬ (q = x :: p ∧ (some (Node.file c)).isSome = true) from fun h => e h.1)]
        simp only [suffix_cons_iff', true_and, Bool.false_eq_true, false_and, if_false]
    · intro q
      dsimp only
      rw [mem_addPath, h3, suffix_cons_iff']
      constructor
      · rintro ((h | h) | h)
        · exact Or.inl h
        · exact Or.inr (Or.inr ⟨rfl, h⟩)
        · exact Or.inr (Or.inl ⟨h, rfl⟩)
      · rintro (h | ⟨h, _⟩ | ⟨_, h⟩)
        · exact Or.inl (Or.inl h)
        · exact Or.inr h
        · exact Or.inl (Or.inr h)
  have hmkm : ∀ t1 : Txn C, (∀ q, Dict.get t1.fs q = if Dict.get t.fs q = none ∧ q <:+ p then some .dir else Dict.get t.fs q) →
      t1.saved = t.saved → (∀ q, q ∈ t1.copied ↔ q ∈ t.copied ∨ (Dict.get t.fs q = none ∧ q <:+ p)) → Good t1.fs →
      Moves t t1 (x :: p) false true none := by
    intro t1 h1 h2 h3 h4
    refine ⟨?_, by simp [h2], ?_, by simp, by simp, h4⟩
    · intro q
      rw [h1]
      simp only [suffix_cons_iff', true_and, Bool.false_eq_true, false_and, and_false, if_false, Option.isSome_none]
    · intro q; rw [h3, suffix_cons_iff']; simp
  cases src with
  | dir => right; exact ⟨t, false, rfl, Moves.nothing hg _⟩
  | missing =>
    right
    simp only [Txn.shutilCopy, parent]
    rcases mkdir_spec t hg p with ⟨t1, e, h1, h2, h3, h4⟩ | e
    · rw [e]; exact ⟨t1, true, rfl, hmkm t1 h1 h2 h3 h4⟩
    · rw [e]; exact ⟨t, false, rfl, Moves.nothing hg _⟩
  | file c =>
    simp only [Txn.shutilCopy, parent]
    by_cases hd : t.fs.isDir p = true
    · simp only [hd, if_true]
      left
      have hall : ∀ q, ¬ (Dict.get t.fs q = none ∧ q <:+ p) := by
        rintro q ⟨h1, h2⟩
        have hp := (isDir_iff _ _).1 hd
        by_cases e : q = p
        · subst e; rw [hp] at h1; simp at h1
        · rw [hg.ancestors _ _ hp q h2 e] at h1; simp at h1
      exact ⟨_, c, rfl, rfl, key t c (fun q => by rw [if_neg (hall q)]) rfl (fun q => by simp [hall q]) hg hd⟩
    · simp only [hd, Bool.false_eq_true, if_false]
      by_cases he : t.fs.ex p = true
      · simp only [he, if_true]
        right; exact ⟨t, false, rfl, Moves.nothing hg _⟩
      · simp only [he, Bool.false_eq_true, if_false]
        rcases mkdir_spec t hg p with ⟨t1, e, h1, h2, h3, h4⟩ | e
        · rw [e]
          dsimp only
          have hd1 : t1.fs.isDir p = true := by
            rw [isDir_iff, h1]
            cases e' : Dict.get t.fs p with
            | none => simp
            | some n => exact absurd (hex p (by rw [e']; simp)) he
          simp only [hd1, if_true]
          left
          exact ⟨_, c, rfl, rfl, key t1 c h1 h2 h3 h4 hd1⟩
        · rw [e]; right; exact ⟨t, false, rfl, Moves.nothing hg _⟩

/-- Moving the target away and then creating. -/
theorem Moves.trans_rm {t t1 t' : Txn C} {x : Text} {p : Path} {mk : Bool} {new : Option (Node C)} (hg : Good t.fs)
    (h1 : Moves t t1 (x :: p) true false none) (h2 : Moves t1 t' (x :: p) false mk new) :
    Moves t t' (x :: p) true mk new := by
  have hanc : ∀ q, q <:+ x :: p → q ≠ x :: p → Dict.get t.fs q = some .dir := by
    obtain ⟨_, n, hn⟩ := h1.removed rfl
    exact fun q a b => hg.ancestors _ _ hn q a b
  have hno : ∀ q, ¬ (q <:+ x :: p ∧ q ≠ x :: p ∧ x :: p <:+ q) := by
    rintro q ⟨a, b, c⟩
    exact b (a.eq_of_length_le c.length_le)
  refine ⟨?_, (by rw [h2.saved, h1.saved]; simp), ?_, fun _ => h1.removed rfl, fun h => ⟨by simp, Or.inr rfl⟩, h2.good⟩
  · intro q
    rw [h2.fs, h1.fs]
    by_cases e1 : q = x :: p ∧ new.isSome = true
    · rw [if_pos e1, if_pos e1]
    · rw [if_neg e1, if_neg e1]
      simp only [Bool.false_eq_true, false_and, if_false, Option.isSome_none, and_false, true_and]
      by_cases e2 : x :: p <:+ q
      · have : ¬ (mk = true ∧ True ∧ q <:+ x :: p ∧ q ≠ x :: p) := by
          rintro ⟨_, _, a, b⟩
          exact hno q ⟨a, b, e2⟩
        simp only [e2, if_true, if_neg this]
      · simp only [e2, if_false]
  · intro q
    rw [h2.copied, h1.copied, h1.fs]
    simp only [Bool.false_eq_true, false_and, if_false, Option.isSome_none, and_false, true_and, or_false]
    refine or_congr_right (or_congr_right ?_)
    by_cases e2 : x :: p <:+ q
    · rw [if_pos e2]
      constructor
      · rintro ⟨_, _, a, b⟩; exact absurd ⟨a, b, e2⟩ (hno q)
      · rintro ⟨_, _, a, b⟩; exact absurd ⟨a, b, e2⟩ (hno q)
    · rw [if_neg e2]

/-- `copy` as a step. -/
theorem copy_moves (t : Txn C) (hg : Good t.fs) (p : Path) (src : Txn.Src C) :
    (∃ t' c, t.copy src p = .ok t' ∧ src = .file c ∧ Moves t t' p (t.fs.ex p) true (some (.file c))) ∨
    (∃ t' rmd mk, t.copy src p = .raised t' ∧ Moves t t' p rmd mk none) := by
  have main : ∀ src : Txn.Src C, src ≠ .dir → t.copy src p =
      if t.fs.ex p then
        match t.rm p with
        | .raised t => .raised t
        | .ok t => t.copyNew src p
      else t.copyNew src p := by
    intro src h
    cases src with
    | dir => exact absurd rfl h
    | file c => rfl
    | missing => rfl
  by_cases hs : src = .dir
  · subst hs
    right; exact ⟨t, false, false, rfl, Moves.nothing hg _⟩
  · rw [main src hs]
    by_cases hex : t.fs.ex p = true
    · rw [if_pos hex]
      cases p with
      | nil =>
        have : t.rm [] = .raised t := by unfold Txn.rm; simp
        rw [this]
        right; exact ⟨t, false, false, rfl, Moves.nothing hg _⟩
      | cons x p =>
        rcases rm_moves t hg (x :: p) with ⟨t1, e, m, _⟩ | e
        · rw [e]
          dsimp only
          have hn : Dict.get t1.fs (x :: p) = none := by
            rw [m.fs]; simp
          rcases copyNew_moves t1 m.good x p src hn with ⟨t', c, e', hc, m'⟩ | ⟨t', mk, e', m'⟩
          · left; rw [hex]; exact ⟨t', c, e', hc, m.trans_rm hg m'⟩
          · right; exact ⟨t', true, mk, e', m.trans_rm hg m'⟩
        · rw [e]; right; exact ⟨t, false, false, rfl, Moves.nothing hg _⟩
    · rw [if_neg hex]
      have hn : Dict.get t.fs p = none := by
        cases e : Dict.get t.fs p with
        | none => rfl
        | some n => exact absurd ((ex_iff _ _).2 ⟨n, e⟩) hex
      cases p with
      | nil => rw [hg.root] at hn; simp at hn
      | cons x p =>
        have hex' : t.fs.ex (x :: p) = false := by simpa using hex
        rcases copyNew_moves t hg x p src hn with ⟨t', c, e', hc, m'⟩ | ⟨t', mk, e', m'⟩
        · left; rw [hex']; exact ⟨t', c, e', hc, m'⟩
        · right; exact ⟨t', false, mk, e', m'⟩

end Files
end Pkm
